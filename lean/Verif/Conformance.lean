import Verif.Examples

/-!
# The repository's own tests, run on the model

These are not proofs of anything about all inputs. They are the assertions of the project's
test-suite, evaluated on the model by the kernel, as evidence that the model computes what the
code computes. Each example names the test it follows. Tests whose body is commented out or
that only check the size of a type are left out, and so are assertions on floating point
statistics.
-/

namespace Lfest.Conformance

open Ex

/-- `x` scaled by `k` decimals: `QuoteCurrency::new(x, k)`, `BaseCurrency::new(x, k)`. -/
def n (x : Int) (k : Nat) : Int := x * 10 ^ (5 - k)

/-- mock_exchange.rs:28-49 `mock_exchange_linear` -/
def linear : Cfg :=
  ⟨⟨.linear, 5, true⟩, d 1000, 10,
    ⟨d 1, n 5 1, .default 100000, ⟨none, none, n 1 2⟩, n 2 4, n 6 4⟩, 3600⟩

/-- mock_exchange.rs:54-77 `mock_exchange_linear_with_account_tracker` (1000) -/
def linearTracked : Cfg := { linear with maxOpen := 200 }

/-- mock_exchange.rs:80-104 `mock_exchange_inverse` (1) -/
def inverse : Cfg :=
  ⟨⟨.inverse, 5, true⟩, d 1, 200,
    ⟨d 1, n 5 1, .default 100000, ⟨none, none, d 1⟩, n 2 4, n 6 4⟩, 3600⟩

/-- Run a script: after every call its assertion has to hold. -/
def script (c : Cfg) : State → List (Op × (State → Resp → Bool)) → Bool
  | _, [] => true
  | s, (op, chk) :: rest => match step c s op with
    | .ok (s', r) => chk s' r && script c s' rest
    | .error _ => false

/-- Run a script on a new exchange. -/
def test (c : Cfg) (l : List (Op × (State → Resp → Bool))) : Bool := script c (State.init c) l

def bba (bid ask ts : Int) : Op := .update (.bba ⟨d bid, d ask, ts⟩)
def trade (price : Int) (qty : Int) (side : Side) (ts : Int) : Op :=
  .update (.trade ⟨ts, d price, qty, side⟩)

/-- The call returned `Ok`. -/
def ok : State → Resp → Bool := fun _ r => isOk r
/-- `update_state` returned `Ok` and an empty list. -/
def quiet : State → Resp → Bool := fun _ r => match r with
  | .update (.ok []) => true
  | _ => false
/-- `update_state` returned `Ok` and `k` order updates. -/
def fills (k : Nat) : State → Resp → Bool := fun _ r => match r with
  | .update (.ok l) => decide (l.length = k)
  | _ => false
/-- `update_state` returned exactly these order updates. -/
def fillsAre (l : List LimitUpdate) : State → Resp → Bool := fun _ r => match r with
  | .update (.ok l') => decide (l = l')
  | _ => false
/-- The call returned this error. -/
def err (e : Error) : State → Resp → Bool := fun _ r => match r with
  | .update (.error e') => decide (e = e')
  | .market (.error e') => decide (e = e')
  | .limit (.error e') => decide (e = e')
  | _ => false
def bal (wallet pos order : Int) : State → Resp → Bool := fun s _ =>
  decide (userBalances s.acct = ⟨wallet, pos, order⟩)
def pos (p : Position) : State → Resp → Bool := fun s _ => decide (s.pos = p)
def fees (f : Int) : State → Resp → Bool := fun s _ => decide (s.pos.outstandingFees = f)
def active (k : Nat) : State → Resp → Bool := fun s _ => decide (s.active.length = k)
def upnl (e : Env) (bid ask v : Int) : State → Resp → Bool := fun s _ =>
  match s.pos.unrealizedPnl e bid ask with
  | .ok x => decide (x = v)
  | .error _ => false
/-- All of these. -/
def all (l : List (State → Resp → Bool)) : State → Resp → Bool := fun s r => l.all (· s r)

def noFunds : Error := .risk .notEnoughAvailableBalance

/-! ## src/tests/submit_market_sell_order.rs -/

-- submit_market_sell_order_reject
example : test linear [(bba 100 101 0, quiet), (.market .sell (d 10) 0, err noFunds)] = true := by
  decide +kernel

-- submit_market_sell_order
example : test linear [(bba 100 101 0, quiet),
    (.market .sell (d 5) 0, all [ok, pos (.short ⟨d 5, d 100, n 3 1⟩), bal (d 500) (d 500) 0,
      fees (n 3 1)])] = true := by decide +kernel

-- submit_market_sell_order_with_short_position
example : test linear [(bba 100 101 0, quiet),
    (.market .sell (d 5) 0, all [ok, bal (d 500) (d 500) 0, pos (.short ⟨d 5, d 100, n 3 1⟩),
      active 0]),
    (.market .sell (d 4) 0, all [ok, bal (d 100) (d 900) 0,
      pos (.short ⟨d 9, d 100, n 3 1 + n 24 2⟩), active 0])] = true := by decide +kernel

-- submit_market_sell_order_with_long_position
example : test linear [(bba 99 100 0, quiet), (.market .buy (d 9) 0, ok),
    (.market .sell (d 9) 0, all [ok, pos .neutral,
      bal (d 1000 - n 54 2 - n 5346 4 - d 9) 0 0])] = true := by decide +kernel

-- submit_market_sell_order_turnaround_long
example : test linear [(bba 99 100 0, quiet),
    (.market .buy (d 9) 0, all [ok, bal (d 100) (d 900) 0, pos (.long ⟨d 9, d 100, n 54 2⟩),
      active 0]),
    (.market .sell (d 18) 0, all [ok, bal (d 100 - n 54 2 - n 10692 4) (d 891) 0,
      pos (.short ⟨d 9, d 99, 0⟩), active 0])] = true := by decide +kernel

/-! ## src/tests/submit_market_buy_order.rs -/

-- submit_market_buy_order_reject
example : test linear [(bba 99 100 0, quiet), (.market .buy (d 10) 0, err noFunds)] = true := by
  decide +kernel

-- submit_market_buy_order_no_position
example : test linear [(bba 100 101 0, quiet),
    (.market .buy (d 5) 0, all [ok, pos (.long ⟨d 5, d 101, n 303 3⟩), bal (d 495) (d 505) 0,
      fees (n 303 3)])] = true := by decide +kernel

-- submit_market_buy_order_with_long_position
example : test linear [(bba 99 100 0, quiet),
    (.market .buy (d 5) 0, all [ok, pos (.long ⟨d 5, d 100, n 3 1⟩), active 0,
      bal (d 500) (d 500) 0, fees (n 3 1)]),
    (.market .buy (d 4) 0, all [ok, bal (d 100) (d 900) 0,
      pos (.long ⟨d 9, d 100, n 3 1 + n 24 2⟩), active 0])] = true := by decide +kernel

-- submit_market_buy_order_with_short_position
example : test linear [(bba 100 101 0, quiet),
    (.market .sell (d 9) 0, all [ok, bal (d 100) (d 900) 0, pos (.short ⟨d 9, d 100, n 54 2⟩),
      active 0]),
    (.market .buy (d 9) 0, all [ok, pos .neutral,
      bal (d 1000 - n 54 2 - n 5454 4 - d 9) 0 0])] = true := by decide +kernel

-- submit_market_buy_order_turnaround_short
example : test linear [(bba 99 100 0, quiet),
    (.market .sell (d 9) 0, all [ok, pos (.short ⟨d 9, d 99, n 5346 4⟩), bal (d 109) (d 891) 0,
      fees (n 5346 4)]),
    (.market .buy (d 18) 0, all [ok, pos (.long ⟨d 9, d 100, 0⟩),
      bal (d 100 - n 5346 4 - n 108 2 - d 9) (d 900) 0])] = true := by decide +kernel

/-! ## src/tests/submit_limit_buy_order.rs -/

-- submit_limit_buy_order_no_position
example : test linear [(bba 99 100 0, quiet),
    (.limit .buy (d 98) (d 5) 0, all [ok, pos .neutral, bal (d 510) 0 (d 490)]),
    (trade 97 (d 5) .sell 0,
      fillsAre [.fullyFilled ⟨0, .buy, d 98, 0, 0, 0, 0, d 98, d 5⟩]),
    (bba 96 99 1, all [quiet, pos (.long ⟨d 5, d 98, n 98 3⟩), bal (d 510) (d 490) 0,
      fees (n 98 3)]),
    (.limit .sell (d 98) (d 5) 0, ok), (bba 96 97 2, quiet),
    (trade 99 (d 5) .buy 3, all [pos .neutral,
      fillsAre [.fullyFilled ⟨0, .sell, d 98, 0, 1, 1, 3, d 98, d 5⟩]])] = true := by
  decide +kernel

-- submit_limit_buy_order_no_position_max
example : test linear [(bba 100 101 0, quiet), (.limit .buy (d 100) (d 5) 0, ok),
    (.limit .buy (d 100) (d 4) 0, ok), (.limit .buy (d 100) (d 1) 0, ok),
    (.limit .sell (d 101) (d 5) 0, ok), (.limit .sell (d 101) (d 4) 0, ok),
    (.limit .sell (d 101) (d 1) 0, err noFunds)] = true := by decide +kernel

-- submit_limit_buy_order_with_long
example : test linear [(bba 99 100 0, quiet),
    (.market .buy (d 9) 0, all [ok, pos (.long ⟨d 9, d 100, n 54 2⟩), bal (d 100) (d 900) 0,
      fees (n 54 2)]),
    (bba 100 101 1, quiet), (.limit .buy (d 100) (n 11 1) 0, err noFunds),
    (.limit .sell (d 101) (d 9) 0, ok),
    (trade 102 (d 9) .buy 2, all [pos .neutral,
      fillsAre [.fullyFilled ⟨0, .sell, d 101, 0, 2, 1, 2, d 101, d 9⟩]])] = true := by
  decide +kernel

-- submit_limit_buy_order_with_short
example : test linear [(bba 100 101 0, quiet),
    (.market .sell (d 9) 0, all [ok, pos (.short ⟨d 9, d 100, n 54 2⟩), bal (d 100) (d 900) 0,
      fees (n 54 2)]),
    (.limit .sell (d 101) (d 1) 0, err noFunds), (.limit .buy (d 100) (d 9) 0, ok),
    (trade 99 (d 9) .sell 1, all [pos .neutral,
      fillsAre [.fullyFilled ⟨0, .buy, d 100, 0, 2, 0, 1, d 100, d 9⟩]])] = true := by
  decide +kernel

-- submit_limit_buy_order_above_ask (the prices in the error are formatted strings, not modelled)
example : test linear [(bba 99 100 0, quiet),
    (.limit .buy (d 100) (d 9) 0, fun _ r => match r with
      | .limit (.error (.order (.goodTillCrossingRejected _ _))) => true
      | _ => false)] = true := by decide +kernel

/-! ## src/tests/submit_limit_sell_order.rs -/

-- submit_limit_sell_order_no_position
example : test linear [(bba 99 100 0, quiet),
    (.limit .sell (d 100) (d 9) 0, all [ok, pos .neutral]),
    (trade 101 (d 9) .buy 1, fillsAre [.fullyFilled ⟨0, .sell, d 100, 0, 0, 0, 1, d 100, d 9⟩]),
    (bba 101 102 2, all [ok, pos (.short ⟨d 9, d 100, n 18 2⟩), bal (d 100) (d 900) 0,
      fees (n 18 2)]),
    (.limit .buy (d 100) (d 9) 0, ok),
    (trade 99 (d 9) .sell 3, all [pos .neutral, bal (d 1000 - n 18 2 - n 18 2) 0 0,
      fillsAre [.fullyFilled ⟨0, .buy, d 100, 0, 1, 2, 3, d 100, d 9⟩]])] = true := by
  decide +kernel

-- submit_limit_sell_order_no_position_max
example : test linear [(bba 99 100 0, quiet), (.limit .sell (d 100) (d 5) 0, ok),
    (.limit .sell (d 100) (d 4) 0, ok), (.limit .sell (d 100) (d 1) 0, ok),
    (.limit .buy (d 99) (d 5) 0, ok), (.limit .buy (d 99) (d 4) 0, ok),
    (.limit .buy (d 99) (d 2) 0, err noFunds)] = true := by decide +kernel

-- submit_limit_sell_order_below_bid
example : test linear [(bba 99 100 0, quiet),
    (.limit .sell (d 99) (d 9) 0, fun _ r => match r with
      | .limit (.error (.order (.goodTillCrossingRejected _ _))) => true
      | _ => false)] = true := by decide +kernel

/-! ## src/tests/cancel_limit_order.rs, partial_order_fill.rs and amend.rs -/

-- cancel_limit_order
example : test linear [(bba 100 101 0, ok),
    (.limit .buy (d 100) (d 1) 0, all [ok, active 1, bal (d 900) 0 (d 100), fees 0,
      fun s _ => decide (s.active.getById 0 = some ⟨0, .buy, d 100, d 1, 0, 0, .unfilled⟩)]),
    (.cancel (.orderId 0), all [ok, active 0, bal (d 1000) 0 0])] = true := by decide +kernel

-- partial_limit_order_fill, with buy order
example : test linear [(bba 100 101 1, quiet), (.limit .buy (d 100) (d 2) 0, all [ok, active 1]),
    (trade 99 (d 1) .sell 1, fillsAre
      [.partiallyFilled ⟨0, .buy, d 100, d 1, 0, 1, .filled (d 1) (d 100)⟩])] = true := by
  decide +kernel

-- partial_limit_order_fill, with sell order
example : test linear [(bba 100 101 1, quiet), (.limit .sell (d 101) (d 2) 0, all [ok, active 1]),
    (trade 102 (d 1) .buy 1, fillsAre
      [.partiallyFilled ⟨0, .sell, d 101, d 1, 0, 1, .filled (d 1) (d 101)⟩])] = true := by
  decide +kernel

-- amend_limit_order_qty
example : [1, 3, 5, 10].all (fun q => test linear [(bba 100 101 1, quiet),
    (.limit .buy (d 100) (d 5) 0, all [ok, active 1]),
    (.amend 0 .buy (d 100) (d q) 0, all [ok, fun s _ => match s.active.getById 1 with
      | some o => decide (o.price = d 100 ∧ o.remaining = d q ∧ o.side = .buy)
      | none => false])]) = true := by decide +kernel

-- amend_limit_order_qty_with_partial_fill_leading_to_cancel
example : [1, 2, 3].all (fun q => test linear [(bba 100 101 1, quiet),
    (.limit .buy (d 100) (d 5) 0, all [ok, active 1]),
    (trade 99 (d 3) .sell 0, all [ok, fun s _ =>
      decide ((s.active.getById 0).map (·.remaining) = some (d 2))]),
    (.amend 0 .buy (d 100) (d q) 0, err .amendQtyAlreadyFilled)]) = true := by decide +kernel

-- amend_limit_order_qty_with_partial_fill
example : [4, 5, 6].all (fun q => test linear [(bba 100 101 1, quiet),
    (.limit .buy (d 100) (d 5) 0, all [ok, active 1]),
    (trade 99 (d 3) .sell 2, all [ok, fun s _ =>
      decide ((s.active.getById 0).map (·.remaining) = some (d 2))]),
    (.amend 0 .buy (d 100) (d q) 0, all [ok, fun s _ => match s.active.getById 1 with
      | some o => decide (o.price = d 100 ∧ o.remaining = d 2 + (d q - d 5) ∧ o.side = .buy)
      | none => false])]) = true := by decide +kernel

/-! ## tests/limit_orders_only.rs and tests/linear_futures.rs -/

/-- Check the tracker after a prefix of the history. -/
def stats (c : Cfg) (ops : List Op) (p : State → FullTracker → Bool) : Bool :=
  tracked c ops (fun s _ t => p s t)

def counts (limits cancelled filled markets marketFills : Nat) (buys sells : Int)
    (t : FullTracker) : Bool :=
  decide (t.submittedLimit = limits ∧ t.cancelledLimit = cancelled ∧ t.fullyFilledLimit = filled ∧
    t.submittedMarket = markets ∧ t.filledMarket = marketFills ∧ t.buyVolume = buys ∧
    t.sellVolume = sells)

def limitsOnly : List Op := [bba 100 101 0, .limit .buy (d 100) (n 99 1) 0,
  trade 99 (d 10) .sell 1, bba 98 99 2, .limit .sell (d 105) (n 99 1) 0, trade 106 (d 10) .buy 3,
  bba 106 107 4]

-- limit_orders_only
example : test linearTracked [(bba 100 101 0, quiet),
    (.limit .buy (d 100) (n 99 1) 0, all [ok, bal (d 10) 0 (d 990), fees 0,
      fun s _ => decide (s.feesPaid = 0)]),
    (trade 99 (d 10) .sell 1, fills 1),
    (bba 98 99 2, all [quiet, pos (.long ⟨n 99 1, d 100, n 198 3⟩),
      upnl linear.env (d 98) (d 99) (n (-198) 1), bal (d 10) (d 990) 0, fees (n 198 3)]),
    (.limit .sell (d 105) (n 99 1) 0, ok),
    (trade 106 (d 10) .buy 3, all [fills 1, bal (n 10495 1 - n 198 3 - n 2079 4) 0 0]),
    (bba 106 107 4, all [quiet, pos .neutral, bal (n 10495 1 - n 198 3 - n 2079 4) 0 0,
      fun s _ => decide (s.feesPaid = n 4059 4)])] = true := by decide +kernel
example : stats linearTracked (limitsOnly.take 2) (fun _ t => counts 1 0 0 0 0 0 0 t) = true := by
  decide +kernel
example : stats linearTracked (limitsOnly.take 4) (fun _ t => counts 1 0 1 0 0 (d 990) 0 t) =
    true := by decide +kernel
example : stats linearTracked limitsOnly (fun _ t => counts 2 0 2 0 0 (d 990) (n 10395 1) t) =
    true := by decide +kernel

-- limit_orders_2
example : test linear [(bba 100 101 0, quiet), (.limit .sell (d 101) (n 75 2) 0, ok),
    (.limit .buy (d 100) (n 5 1) 0, ok), (trade 98 (d 2) .sell 1, fills 1), (bba 98 99 2, ok)] =
    true := by decide +kernel

def winFull : List Op := [bba 99 100 0, .market .buy (d 5) 0, bba 100 101 1, bba 200 201 2,
  .market .sell (d 5) 0]

-- lin_long_market_win_full
example : test linearTracked [(bba 99 100 0, all [ok, fun s _ => decide (s.feesPaid = 0)]),
    (.market .buy (d 5) 0, ok),
    (bba 100 101 1, all [quiet, pos (.long ⟨d 5, d 100, n 3 1⟩), upnl linear.env (d 100) (d 101) 0,
      bal (d 500) (d 500) 0]),
    (bba 200 201 2, all [quiet, upnl linear.env (d 200) (d 201) (d 500)]),
    (.market .sell (d 5) 0, all [ok, pos .neutral, upnl linear.env (d 200) (d 201) 0,
      bal (n 14991 1) 0 0, fun s _ => decide (s.feesPaid = n 9 1)])] = true := by decide +kernel
example : stats linearTracked (winFull.take 1) (fun _ t => counts 0 0 0 0 0 0 0 t) = true := by
  decide +kernel
example : stats linearTracked (winFull.take 3) (fun _ t => counts 0 0 0 1 1 (d 500) 0 t) = true := by
  decide +kernel
example : stats linearTracked winFull (fun _ t => counts 0 0 0 2 2 (d 500) (d 1000) t) = true := by
  decide +kernel

/-! ## tests/inverse_futures.rs -/

-- inv_long_market_win_full
example : test inverse [(bba 999 1000 0, ok), (.market .buy (d 800) 0, ok),
    (bba 1000 1001 1, all [quiet, pos (.long ⟨d 800, d 1000, n 48 5⟩),
      upnl inverse.env (d 1000) (d 1001) 0, bal (n 2 1) (n 8 1) 0, fees (n 48 5)]),
    (bba 2000 2001 1, all [quiet, upnl inverse.env (d 2000) (d 2001) (n 4 1)]),
    (.market .sell (d 800) 0, all [ok, pos .neutral, upnl inverse.env (d 2000) (d 2001) 0,
      bal (n 14 1 - n 48 5 - n 24 5) 0 0])] = true := by decide +kernel

-- inv_long_market_loss_full
example : test inverse [(bba 999 1000 0, quiet),
    (.market .buy (d 800) 0, all [ok, pos (.long ⟨d 800, d 1000, n 48 5⟩),
      upnl inverse.env (d 1000) (d 1000) 0, bal (n 2 1) (n 8 1) 0, fees (n 48 5)]),
    (bba 800 801 2, all [quiet, upnl inverse.env (d 800) (d 801) (n (-2) 1)]),
    (.market .sell (d 800) 0, all [ok, pos .neutral, upnl inverse.env (d 800) (d 801) 0,
      bal (n 8 1 - (n 48 5 + n 60 5)) 0 0])] = true := by decide +kernel

-- inv_short_market_win_full
example : test inverse [(bba 1000 1001 0, quiet),
    (.market .sell (d 800) 0, all [ok, pos (.short ⟨d 800, d 1000, n 48 5⟩),
      bal (n 2 1) (n 8 1) 0, fees (n 48 5)]),
    (bba 799 800 1, all [quiet, upnl inverse.env (d 799) (d 800) (n 2 1)]),
    (.market .buy (d 800) 0, ok),
    (bba 799 800 2, all [quiet, pos .neutral, upnl inverse.env (d 799) (d 800) 0,
      bal (n 12 1 - (n 48 5 + n 60 5)) 0 0])] = true := by decide +kernel

-- inv_short_market_loss_full
example : test inverse [(bba 1000 1001 0, quiet), (.market .sell (d 400) 0, ok),
    (bba 999 1000 1, all [quiet, pos (.short ⟨d 400, d 1000, n 24 5⟩),
      upnl inverse.env (d 999) (d 1000) 0, bal (n 6 1) (n 4 1) 0, fees (n 24 5)]),
    (bba 1999 2000 2, all [err (.risk .liquidate), pos .neutral, bal (n 79964 5) 0 0])] = true := by
  decide +kernel

-- inv_long_market_win_partial
example : test inverse [(bba 999 1000 0, quiet), (.market .buy (d 800) 0, ok),
    (bba 1000 1001 1, all [quiet, pos (.long ⟨d 800, d 1000, n 48 5⟩),
      upnl inverse.env (d 1000) (d 1001) 0, bal (n 2 1) (n 8 1) 0, fees (n 48 5)]),
    (bba 2000 2001 1, all [quiet, upnl inverse.env (d 2000) (d 2001) (n 4 1)]),
    (.market .sell (d 400) 0, ok),
    (bba 2000 2001 2, all [quiet, pos (.long ⟨d 400, d 1000, 0⟩),
      upnl inverse.env (d 2000) (d 2001) (n 2 1), fun s _ => match s.pos.totalCost inverse.env with
        | .ok v => decide (v = n 4 1)
        | .error _ => false,
      bal (n 8 1 - n 48 5 - n 12 5) (n 4 1) 0])] = true := by decide +kernel

-- inv_long_market_loss_partial
example : test inverse [(bba 999 1000 0, quiet), (.market .buy (d 800) 0, ok),
    (bba 999 1000 1, all [quiet, pos (.long ⟨d 800, d 1000, n 48 5⟩)]),
    (bba 800 801 2, all [quiet, upnl inverse.env (d 800) (d 801) (n (-2) 1)]),
    (.market .sell (d 400) 0, ok),
    (bba 800 801 3, all [quiet, pos (.long ⟨d 400, d 1000, 0⟩),
      upnl inverse.env (d 800) (d 801) (n (-1) 1), bal (n 5 1 - n 48 5 - n 30 5) (n 4 1) 0])] =
    true := by decide +kernel

-- inv_short_market_win_partial
example : test inverse [(bba 1000 1001 0, ok), (.market .sell (d 800) 0, ok),
    (bba 999 1000 1, all [quiet, pos (.short ⟨d 800, d 1000, n 48 5⟩),
      upnl inverse.env (d 999) (d 1000) 0, bal (n 2 1) (n 8 1) 0]),
    (bba 799 800 2, all [quiet, upnl inverse.env (d 799) (d 800) (n 2 1)]),
    (.market .buy (d 400) 0, ok),
    (bba 799 800 3, all [quiet, pos (.short ⟨d 400, d 1000, 0⟩),
      upnl inverse.env (d 799) (d 800) (n 1 1), bal (n 7 1 - n 48 5 - n 30 5) (n 4 1) 0])] =
    true := by decide +kernel

-- inv_short_market_loss_partial
example : test inverse [(bba 1000 1001 0, quiet), (.market .sell (d 800) 0, ok),
    (bba 999 1000 1, all [quiet, pos (.short ⟨d 800, d 1000, n 48 5⟩),
      upnl inverse.env (d 999) (d 1000) 0, bal (n 2 1) (n 8 1) 0, fees (n 48 5)]),
    (bba 1999 2000 2, all [err (.risk .liquidate), pos .neutral, bal (n 59928 5) 0 0])] = true := by
  decide +kernel

-- inv_test_market_roundtrip
example : test inverse [(bba 999 1000 0, quiet), (.market .buy (d 900) 0, ok),
    (bba 1000 1001 1, quiet),
    (.market .sell (d 900) 0, all [ok, pos .neutral, upnl inverse.env (d 1000) (d 1001) 0,
      bal (d 1 - 2 * n 54 5) 0 0])] = true := by decide +kernel

-- inv_execute_limit
example : test inverse [(bba 1000 1001 0, ok),
    (.limit .buy (d 900) (d 450) 0, all [ok, active 1, bal (n 5 1) 0 (n 5 1)]),
    (trade 899 (d 450) .sell 1, fills 1),
    (bba 750 751 2, all [quiet, active 0, pos (.long ⟨d 450, d 900, n 10 5⟩),
      bal (n 5 1) (n 5 1) 0, fees (n 10 5)]),
    (.limit .sell (d 1000) (d 450) 0, all [ok, active 1]),
    (trade 1001 (d 450) .buy 3, fills 1),
    (bba 1199 1200 4, all [quiet, active 0, pos .neutral,
      bal (n 105 2 - n 10 5 - n 9 5) 0 0]),
    (.limit .sell (d 1200) (d 600) 0, all [ok, active 1]),
    (trade 1201 (d 600) .buy 5, fills 1),
    (bba 1201 1202 2, all [quiet, pos (.short ⟨d 600, d 1200, n 10 5⟩),
      bal (n 105 2 - n 10 5 - n 9 5 - n 5 1) (n 5 1) 0])] = true := by decide +kernel

/-! ## Unit tests -/

/-- Did the computation return this value? -/
def gives {α} [DecidableEq α] (r : Res α) (v : α) : Bool :=
  match r with
  | .ok x => decide (x = v)
  | .error _ => false

/-- Did the computation panic here? -/
def panicked {α} (r : Res α) (p : Panic) : Bool :=
  match r with
  | .ok _ => false
  | .error q => decide (q = p)

/-- A resting order without fills. -/
def rest (side : Side) (price qty : Int) (id : Nat) : Limit :=
  ⟨0, side, price, qty, id, 0, .unfilled⟩

/-- Linear and inverse contracts with `D` decimals. -/
def lin' (D : Nat) : Env := ⟨.linear, D, true⟩
def inv' (D : Nat) : Env := ⟨.inverse, D, true⟩

-- types/smol_currency/mod.rs: convert_base_to_quote, convert_quote_to_base,
-- quote_currency_pnl, base_currency_pnl
example : gives (convert (lin' 4) 5000 1000000) 500000 = true := by decide +kernel
example : gives (convert (inv' 4) 2500000 10000000) 2500 = true := by decide +kernel
example : gives (pnl (lin' 4) 1000000 1100000 50000) 500000 = true := by decide +kernel
example : gives (pnl (inv' 4) 1000000 2000000 5000000) 25000 = true := by decide +kernel

-- types/side.rs: side_from_taker_quantity, side_from_taker_quantity_panic
example : gives (Side.fromTakerQuantity 10000) .buy = true := by decide +kernel
example : gives (Side.fromTakerQuantity (-10000)) .sell = true := by decide +kernel
example : (match Side.fromTakerQuantity 0 with | .ok _ => false | .error _ => true) = true := by
  decide +kernel

-- types/leverage.rs: leverage, leverage_init_margin_req (zero decimals: 1 / 2 is 0)
example : (List.range 99).all (fun i => match leverageNew 1 (i + 1) with
    | .ok _ => true
    | .error _ => false) = true := by decide +kernel
example : gives (initMarginReq 1 1) 1 = true := by decide +kernel
example : gives (initMarginReq 1 2) 0 = true := by decide +kernel

-- types/limit_order.rs: limit_order_fill_full, limit_order_fill_partial
example : [Side.buy, Side.sell].all (fun side => [100, 110, 120].all fun price =>
    [1, 2, 3].all fun q =>
      let o := (⟨0, side, price * 10000, q * 10000⟩ : NewLimit).intoPending 0 0
      (match o.fill 10000 (q * 10000) 0 with
        | .ok (_, some f) => decide (f.avgFillPrice = price * 10000 ∧ f.filledQty = q * 10000)
        | _ => false) &&
      match o.fill 10000 (q * 5000) 0 with
        | .ok (o', none) => decide (o'.fq = .filled (q * 5000) (price * 10000))
        | _ => false) = true := by decide +kernel

-- sample_returns_trigger.rs: sample_returns_trigger
example :
    let t0 := Trigger.new (100 * 1000000000)
    let r1 := t0.fire (200 * 1000000000)
    let r2 := r1.1.fire (250 * 1000000000)
    let r3 := r2.1.fire (300 * 1000000000)
    r1.2 = true ∧ r1.1.init = false ∧ r1.1.last = 200 * 1000000000 ∧ r2.2 = false ∧
      r3.2 = true := by decide +kernel

/-- order_filters/price_filter.rs, the filter of the test (two decimals) -/
def filter : PriceFilter := ⟨some 10, some 100000, 10, 120, 80⟩

-- order_filters/price_filter.rs: price_filter
example : gives (filter.validate 100 9900 10000) (.ok ()) = true := by decide +kernel
example : gives (filter.validate 100 5 10000) (.error .limitPriceBelowMin) = true := by
  decide +kernel
example : gives (filter.validate 100 100100 10000) (.error .limitPriceAboveMax) = true := by
  decide +kernel
example : gives (filter.validate 100 12000 10000) (.ok ()) = true := by decide +kernel
example : gives (filter.validate 100 12100 10000) (.error .limitPriceAboveMultiple) = true := by
  decide +kernel
example : gives (filter.validate 100 8000 10000) (.ok ()) = true := by decide +kernel
example : gives (filter.validate 100 7900 10000) (.error .limitPriceBelowMultiple) = true := by
  decide +kernel
example : gives (filter.validate 100 10005 10000) (.error .invalidOrderPriceStepSize) = true := by
  decide +kernel

-- order_filters/quantity_filter.rs: quantity_filter, quantity_filter_2
example : [(0, Except.error .quantityTooLow), (5000, .ok ()), (500, .error .quantityTooLow),
    (500000, .error .quantityTooHigh), (5050, .error .invalidQuantityStepSize)].all (fun x =>
      gives ((⟨some 1000, some 100000, 100⟩ : QuantityFilter).validate x.1) x.2) = true := by
  decide +kernel
example : [(0, Except.error .quantityTooLow), (50, .error .invalidQuantityStepSize)].all (fun x =>
      gives ((⟨none, none, 100⟩ : QuantityFilter).validate x.1) x.2) = true := by
  decide +kernel

-- market_update/trade_update.rs: trade_limit_order_filled_some, trade_limit_order_filled_none
example : [100, 110, 120].all (fun price => [1, 2, 3].all fun q =>
    [(Side.buy, -100), (Side.sell, 100)].all fun x =>
      gives ((⟨0, price * 100, q * 100, x.1⟩ : Trade).filled true
        (rest x.1.inverted (price * 100 + x.2) (q * 100) 0)) (some (q * 100)) &&
      gives ((⟨0, price * 100, q * 100, x.1⟩ : Trade).filled true
        (rest x.1.inverted (price * 100 + x.2) (q * 50) 0)) (some (q * 50))) = true := by
  decide +kernel

/-- the filter of the smart candle tests -/
def pf : PriceFilter := ⟨none, none, d 1, d 2, n 5 1⟩
def quotes : Bba := ⟨d 100, d 101, 0⟩
def buys : List Trade := [⟨0, d 100, d 1, .buy⟩, ⟨1, d 100, d 1, .buy⟩, ⟨2, d 99, d 3, .buy⟩,
  ⟨3, d 101, d 1, .buy⟩]
def sells : List Trade := [⟨0, d 100, d 1, .sell⟩, ⟨1, d 100, d 1, .sell⟩, ⟨2, d 99, d 3, .sell⟩,
  ⟨3, d 101, d 1, .sell⟩]
def mixed : List Trade := buys ++ [⟨3, d 102, d 1, .buy⟩, ⟨4, d 100, d 1, .sell⟩,
  ⟨5, d 100, d 1, .sell⟩, ⟨6, d 99, d 3, .sell⟩, ⟨7, d 98, d 2, .sell⟩, ⟨8, d 101, d 1, .sell⟩]
def mixedCandle : SmartCandle :=
  ⟨d 102, d 98, [(d 102, d 1), (d 101, d 2), (d 100, d 4), (d 99, d 7)],
    [(d 98, d 2), (d 99, d 5), (d 100, d 7), (d 101, d 8)], quotes, 8⟩

-- market_update/smart_candle.rs: smart_candle_no_buys, smart_candle_no_sells,
-- smart_candle_simple, smart_candle_sell_side, smart_candle_buy_side,
-- smart_candle_execute_limit_order
example : gives (SmartCandle.new true [⟨0, d 100, d 1, .sell⟩] quotes pf)
    ⟨d 100, d 100, [], [(d 100, d 1)], quotes, 0⟩ = true := by decide +kernel
example : gives (SmartCandle.new true [⟨0, d 100, d 2, .buy⟩] quotes pf)
    ⟨d 100, d 100, [(d 100, d 2)], [], quotes, 0⟩ = true := by decide +kernel
example : gives (SmartCandle.new true [⟨0, d 100, d 2, .buy⟩, ⟨0, d 100, d 1, .sell⟩] quotes pf)
    ⟨d 100, d 100, [(d 100, d 2)], [(d 100, d 1)], quotes, 0⟩ = true := by decide +kernel
example : gives (SmartCandle.new true sells quotes pf)
    ⟨d 101, d 99, [], [(d 99, d 3), (d 100, d 5), (d 101, d 6)], quotes, 3⟩ = true := by
  decide +kernel
example : gives (SmartCandle.new true buys quotes pf)
    ⟨d 101, d 99, [(d 101, d 1), (d 100, d 3), (d 99, d 6)], [], quotes, 3⟩ = true := by
  decide +kernel
example : gives (SmartCandle.new true mixed quotes pf) mixedCandle = true := by decide +kernel
example : mixedCandle.filled (rest .buy (d 100) (d 15) 0) = some (d 5) := by decide +kernel
example : mixedCandle.filled (rest .sell (d 100) (d 15) 0) = some (d 2) := by decide +kernel

-- active_limit_orders.rs: active_limit_orders
example :
    (match Book.insert 3 [] (rest .buy (d 100) (d 5) 0) with
      | .ok (b, none) => decide (b = [rest .buy (d 100) (d 5) 0]) &&
          decide (b.getById 0 = some (rest .buy (d 100) (d 5) 0)) &&
          decide (b.getById 1 = none) &&
          decide (b.removeById 0 = some (rest .buy (d 100) (d 5) 0, []))
      | _ => false) = true := by decide +kernel
example :
    (match Book.insert 3 [rest .buy (d 200) (d 1) 2, rest .buy (d 200) (d 1) 3,
        rest .buy (d 200) (d 1) 4] (rest .buy (d 200) (d 1) 1) with
      | .ok _ => false
      | .error _ => true) = true := by decide +kernel

/-- A contract with the given leverage, as in the tests of isolated_margin.rs. -/
def leveraged (lev : Nat) : Res (Except ConfigError ContractSpec) :=
  ContractSpec.new 100000 (lev * 100000) (n 5 1) (.default 100000) (.default 100000) (n 2 4) (n 6 4)

/-- The outcome of the maintenance margin check for a position of 1 at 100. -/
def maintained (lev : Nat) (bid ask : Int) (p : Position) : Option Bool :=
  match leveraged lev with
  | .ok (.ok cs) =>
    match checkMaintenanceMargin { linear with spec := cs } ⟨d bid, d ask, 0, 0⟩ p with
    | .ok () => some true
    | .error _ => some false
  | _ => none

-- risk_engine/isolated_margin.rs: isolated_margin_check_maintenance_margin_long and _short
example : [(2, 75), (3, 84), (5, 90)].all (fun x =>
    decide (maintained x.1 100 101 .neutral = some true) &&
    decide (maintained x.1 100 101 (.long ⟨d 1, d 100, n 2 2⟩) = some true) &&
    decide (maintained x.1 200 201 (.long ⟨d 1, d 100, n 2 2⟩) = some true) &&
    decide (maintained x.1 (x.2 - 1) x.2 (.long ⟨d 1, d 100, n 2 2⟩) = some false) &&
    decide (maintained x.1 x.2 (x.2 + 1) (.long ⟨d 1, d 100, n 2 2⟩) = some true)) = true := by
  decide +kernel
example : [(2, 126), (3, 117), (5, 111)].all (fun x =>
    decide (maintained x.1 100 101 (.short ⟨d 1, d 100, n 2 2⟩) = some true) &&
    decide (maintained x.1 (x.2 - 1) x.2 (.short ⟨d 1, d 100, n 2 2⟩) = some false) &&
    decide (maintained x.1 (x.2 - 2) (x.2 - 1) (.short ⟨d 1, d 100, n 2 2⟩) = some true)) =
    true := by decide +kernel

-- order_margin.rs: order_margin_neutral_no_orders, order_margin_long_no_orders,
-- order_margin_short_no_orders
example : [10000, 5000, 2000].all (fun imr => [1, 2, 5].all fun q => [100, 200, 300].all fun p =>
    gives (orderMargin (lin' 4) imr [] .neutral) 0 &&
    gives (orderMargin (lin' 4) imr [] (.long ⟨q * 10000, p * 10000, 0⟩)) 0 &&
    gives (orderMargin (lin' 4) imr [] (.short ⟨q * 10000, p * 10000, 0⟩)) 0) = true := by
  decide +kernel

-- order_margin.rs: order_margin_neutral_orders_of_same_side and _of_opposite_side
example : [10000, 5000, 2000].all (fun imr => [100, 150, 200].all fun p => [1, 2, 3].all fun q =>
    [1, 2, 3].all fun k =>
      let bs := (List.range k).map fun i => rest .buy (p * 10000) (q * 10000) i
      let ss := (List.range k).map fun i => rest .sell (p * 10000) (q * 10000) (k + i)
      gives (orderMargin (lin' 4) imr bs .neutral) (k * q * p * imr) &&
      gives (orderMargin (lin' 4) imr ss .neutral) (k * q * p * imr) &&
      gives (orderMargin (lin' 4) imr (bs ++ ss) .neutral) (k * q * p * imr)) = true := by
  decide +kernel

-- order_margin.rs: order_margin_long_orders_of_same_qty
example : [10000, 5000, 2000].all (fun imr => [70, 90, 110].all fun p => [1, 2, 3].all fun q =>
    [85, 100, 125].all fun entry =>
      gives (orderMargin (lin' 4) imr [rest .buy (p * 10000) (q * 10000) 0]
        (.short ⟨q * 10000, entry * 10000, q * p * 10000⟩)) 0 &&
      gives (orderMargin (lin' 4) imr [rest .sell (p * 10000) (q * 10000) 0]
        (.long ⟨q * 10000, entry * 10000, q * p * 10000⟩)) 0) = true := by decide +kernel

-- order_margin.rs: order_margin_neutral_update_partial_fills
example : [100000, 50000, 20000].all (fun imr => [70, 90, 110].all fun p => [1, 2, 3].all fun q =>
    [Side.buy, Side.sell].all fun side =>
      match (rest side (d p) (d q) 0).fill 100000 (q * 50000) 0 with
      | .ok (o, none) => match omUpdate 10 [rest side (d p) (d q) 0] o with
        | .ok (.ok b) => decide (o.remaining = q * 50000) &&
            gives (orderMargin (lin' 5) imr b .neutral) ((q * p * 50000 * imr).tdiv 100000)
        | _ => false
      | _ => false) = true := by decide +kernel

/-- the orders of order_margin_no_position, order_margin_with_long and order_margin_with_short -/
def four : Book := [rest .buy (d 90) (d 1) 0, rest .sell (d 100) (d 1) 1,
  rest .sell (d 120) (d 1) 2, rest .buy (d 95) (d 1) 3]

-- order_margin.rs: order_margin_no_position, order_margin_with_long, order_margin_with_short
example : [(0, 0), (1, d 90), (2, d 100), (3, d 220)].all (fun x =>
    gives (orderMargin (lin' 5) 100000 (four.take x.1) .neutral) x.2) = true := by decide +kernel
example : [(0, 0), (1, d 90), (2, d 90), (3, d 120), (4, d 185)].all (fun x =>
    gives (orderMargin (lin' 5) 100000 (four.take x.1) (.long ⟨d 1, d 100, n 2 2⟩)) x.2) =
    true := by decide +kernel
example : [(0, 0), (1, 0), (2, d 100), (3, d 220), (4, d 220)].all (fun x =>
    gives (orderMargin (lin' 5) 100000 (four.take x.1) (.short ⟨d 1, d 100, n 2 2⟩)) x.2) =
    true := by decide +kernel

-- position_inner.rs: position_inner_new, position_inner_increase_contracts
example : [100000, 50000, 20000].all (fun imr =>
    match Inner.new (lin' 5) imr (Accounts.new (d 1000)) (n 5 1) (d 100) (n 1 2) with
    | .ok (p, a) =>
      decide (p = ⟨n 5 1, d 100, n 1 2⟩ ∧ a.balance .positionMargin = 50 * imr ∧
        a.balance .wallet = d 1000 - 50 * imr) &&
      match p.increase (lin' 5) imr a (n 5 1) (d 150) (n 15 3) with
      | .ok (p', a') => decide (p' = ⟨d 1, d 125, n 1 2 + n 15 3⟩ ∧
          a'.balance .positionMargin = 125 * imr ∧ a'.balance .wallet = d 1000 - 125 * imr)
      | .error _ => false
    | .error _ => false) = true := by decide +kernel

-- position_inner.rs: position_inner_decrease_contracts_basic
example : [100000, 50000, 20000].all (fun imr =>
    match Inner.new (lin' 5) imr (Accounts.new (d 1000)) (d 5) (d 100) (n 1 1) with
    | .ok (p, a) => match p.decrease (lin' 5) imr a (n 25 1) (d 100) 1 (n 5 2) with
      | .ok (p', a') =>
        decide (p' = ⟨n 25 1, d 100, 0⟩ ∧ a'.balance .positionMargin = 250 * imr ∧
          a'.balance .wallet = d 1000 - 250 * imr - n 15 2) &&
        match p'.decrease (lin' 5) imr a' (n 25 1) (d 100) 1 (n 5 2) with
        | .ok (q, b) => decide (q = ⟨0, d 100, 0⟩ ∧ b.balance .positionMargin = 0 ∧
            b.balance .wallet = d 1000 - n 2 1)
        | .error _ => false
      | .error _ => false
    | .error _ => false) = true := by decide +kernel

-- position_inner.rs: position_inner_decrease_contracts_win and _2
example : [100000, 50000, 20000].all (fun imr => [1, -1].all fun (dir : Int) =>
    [(110, 1), (90, -1)].all fun ((exit : Int), (sign : Int)) =>
    match Inner.new (lin' 5) imr (Accounts.new (d 1000)) (d 5) (d 100) (n 1 1) with
    | .ok (p, a) => match p.decrease (lin' 5) imr a (n 25 1) (d exit) dir (n 5 2) with
      | .ok (p', a') => gives (p'.totalCost (lin' 5)) (d 250) &&
        decide (p'.qty = n 25 1 ∧ p'.entry = d 100 ∧ a'.balance .positionMargin = 250 * imr ∧
          a'.balance .wallet = d 1000 + sign * dir * d 25 - 250 * imr - n 15 2)
      | .error _ => false
    | .error _ => false) = true := by decide +kernel

-- position_inner.rs: position_inner_decrease_contracts_inverse (marked `ignore`)
example : [100000, 50000, 20000].all (fun imr =>
    match Inner.new (inv' 5) imr (Accounts.new (d 10)) (d 500) (d 100) (n 1 3) with
    | .ok (p, a) => match p.decrease (inv' 5) imr a (d 250) (d 200) 1 (n 5 4) with
      | .ok (p', a') => gives (p'.totalCost (inv' 5)) (n 25 1) &&
        decide (p'.qty = d 250 ∧ p'.entry = d 100 ∧
          a'.balance .positionMargin = n 25 1 * imr / 100000 ∧
          a'.balance .wallet = n 1125 2 - n 25 1 * imr / 100000 - n 15 4)
      | .error _ => false
    | .error _ => false) = true := by decide +kernel

/-- The accounts of position_change_position_2. -/
def recorded : Accounts :=
  ⟨⟨1499293480, 1498785120⟩, ⟨499293480, 499293480⟩, ⟨999491640, 0⟩, ⟨0, 0⟩, ⟨0, 0⟩,
    ⟨0, 1000000000⟩⟩

-- position.rs: position_change_position_2. The test makes no assertion of its own, but in debug
-- builds the model stops at the assertion of position.rs:158-163: closing 0.168 entered at
-- 59493.54994 frees 9994.91638, while 9994.91640 were locked. In release builds it passes.
-- 999491640 is not what 0.168 * 59493.54994 rounds to in any direction, so this does not
-- depend on how the decimal library rounds.
example : panicked (changePosition (lin' 5) 100000 recorded (.long ⟨16800, 5949354994, 600056⟩)
    16800 6001260000 .sell 0) .closedMargin = true := by decide +kernel
example : (match changePosition ⟨.linear, 5, false⟩ 100000 recorded
    (.long ⟨16800, 5949354994, 600056⟩) 16800 6001260000 .sell 0 with
    | .ok (.neutral, a) => decide (a.balance .positionMargin = 2)
    | _ => false) = true := by decide +kernel

-- position_inner.rs: position_inner_entry_price_linear, position_inner_entry_price_inverse
example : [1, 2, 5, 9].all (fun q =>
    (match Inner.new (lin' 5) 100000 (Accounts.new (d 1000)) (d q) (d 100) 0 with
      | .ok (p, _) => decide (p.entry = d 100)
      | .error _ => false) &&
    match Inner.new (inv' 5) 100000 (Accounts.new (d 10)) (d (10 * q)) (d 100) 0 with
    | .ok (p, _) => decide (p.entry = d 100)
    | .error _ => false) = true := by decide +kernel

-- account_tracker/full_track.rs: full_track_update
example : (match FullTracker.replay (lin' 4) 10000000 [.update ⟨1000000, 1010000, 1000000, 0⟩] with
    | .ok t => decide (t.submittedLimit = 0 ∧ t.cancelledLimit = 0 ∧ t.fullyFilledLimit = 0 ∧
        t.submittedMarket = 0 ∧ t.filledMarket = 0 ∧ t.tsFirst = 1000000 ∧ t.tsLast = 1000000 ∧
        t.priceFirst = 1005000 ∧ t.priceLast = 1005000)
    | .error _ => false) = true := by decide +kernel

end Lfest.Conformance
