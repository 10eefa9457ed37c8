import Verif.Model.Exchange

/-!
# Specification

Small definitions used by the property theorems. Apart from `Reachable` they do not refer to
the functions of the model, only to its data types. Amounts are raw integers scaled by
`10^D` (`Env.scale`); `Int.tdiv` is integer division rounding toward zero.
-/

namespace Lfest.Spec

/-! ## Contract arithmetic -/

/-- Value of `q` contracts at price `p` in margin currency, rounded toward zero. -/
def value (e : Env) (q p : Int) : Int :=
  match e.kind with
  | .linear => (q * p).tdiv e.scale
  | .inverse => (q * e.scale).tdiv p

/-- Profit of holding `q` contracts (negative: short) from price `entry` to price `exit`. -/
def pnl (e : Env) (entry exit q : Int) : Int :=
  match e.kind with
  | .linear => value e q exit - value e q entry
  | .inverse => value e q entry - value e q exit

/-- The fraction `rate` of `x`, rounded toward zero. -/
def share (e : Env) (x rate : Int) : Int := (x * rate).tdiv e.scale

/-- Average of two prices weighted by quantities: the two products and the quotient are each
rounded toward zero. -/
def weighted (e : Env) (p0 w0 p1 w1 : Int) : Int :=
  (((p0 * w0).tdiv e.scale + (p1 * w1).tdiv e.scale) * e.scale).tdiv (w0 + w1)

/-- Absolute value -/
def abs (x : Int) : Int := if 0 ≤ x then x else -x

/-! ## Fills and the ledger -/

/-- A fill as reported to the account tracker: maker (limit order) or taker (market order),
side, price and quantity. -/
structure Fill where
  maker : Bool
  side : Side
  price : Int
  qty : Int
  deriving DecidableEq, Repr

/-- The fills in a record of tracker calls. Both lists are newest first. Each fill is reported
by `log_limit_order_fill` or `log_market_order_fill` followed by `log_trade`. -/
def fills : List Event → List Fill
  | [] => []
  | .trade side price qty :: .limitFill _ _ :: rest => ⟨true, side, price, qty⟩ :: fills rest
  | .trade side price qty :: .marketFill :: rest => ⟨false, side, price, qty⟩ :: fills rest
  | _ :: rest => fills rest

/-- Signed quantity of a fill. -/
def Fill.signed (f : Fill) : Int :=
  match f.side with
  | .buy => f.qty
  | .sell => -f.qty

/-- Fee of a fill under the fee schedule. -/
def Fill.fee (c : Cfg) (f : Fill) : Int :=
  share c.env (value c.env f.qty f.price) (if f.maker = true then c.spec.feeMaker else c.spec.feeTaker)

/-- What a bookkeeper needs to know about the account. -/
structure Ledger where
  /-- signed position -/
  qty : Int
  /-- average entry price, 0 when flat -/
  entry : Int
  /-- fees incurred but not paid -/
  owed : Int
  /-- fees paid -/
  paid : Int
  /-- profit and loss realised so far -/
  realised : Int
  deriving DecidableEq, Repr

/-- The ledger of an account that never traded. -/
def Ledger.empty : Ledger := ⟨0, 0, 0, 0, 0⟩

/-- Bookkeeping of one fill: a fill in the direction of the position enlarges it at the
weighted price; an opposite fill first closes, realising profit and paying all fees due
(if positive), and what is left opens a position at the fill price. -/
def Ledger.fill (c : Cfg) (l : Ledger) (f : Fill) : Ledger :=
  let fee := f.fee c
  if l.qty = 0 then { l with qty := f.signed, entry := f.price, owed := fee }
  else if (0 < l.qty ∧ f.side = .buy) ∨ (l.qty < 0 ∧ f.side = .sell) then
    { l with qty := l.qty + f.signed
             entry := weighted c.env l.entry (abs l.qty) f.price f.qty
             owed := l.owed + fee }
  else
    let closed := if f.qty ≤ abs l.qty then f.qty else abs l.qty
    let due := l.owed + fee
    { qty := l.qty + f.signed
      entry := if f.qty < abs l.qty then l.entry else if f.qty = abs l.qty then 0 else f.price
      owed := if f.qty < abs l.qty ∧ due ≤ 0 then due else 0
      paid := l.paid + (if due > 0 then due else 0)
      realised := l.realised + pnl c.env l.entry f.price (if 0 < l.qty then closed else -closed) }

/-- Replay of a list of fills, newest first. -/
def ledger (c : Cfg) : List Fill → Ledger
  | [] => .empty
  | f :: fs => (ledger c fs).fill c f

/-- Net quantity bought. -/
def netBought : List Fill → Int
  | [] => 0
  | f :: fs => f.signed + netBought fs

/-- Exact cost of everything bought minus exact proceeds of everything sold, in units of
`10^(-2D)`, for linear contracts. -/
def spent : List Fill → Int
  | [] => 0
  | f :: fs => f.signed * f.price + spent fs

/-- Allowance for the rounding of the profit of a linear contract, in units of `10^(-2D)`: per fill
two units in the last place plus one unit of price for the whole position after the fill. -/
def profitRounding (c : Cfg) : List Fill → Int
  | [] => 0
  | f :: fs => profitRounding c fs + 2 * c.scale + abs (netBought (f :: fs))

/-- Sum of the fees of all fills under the fee schedule. -/
def feeSum (c : Cfg) : List Fill → Int
  | [] => 0
  | f :: fs => f.fee c + feeSum c fs

/-- Does the fill close the whole position of the ledger (or more)? -/
def Ledger.closedBy (l : Ledger) (f : Fill) : Prop :=
  (0 < l.qty ∧ f.side = .sell ∨ l.qty < 0 ∧ f.side = .buy) ∧ abs l.qty ≤ f.qty

instance (l : Ledger) (f : Fill) : Decidable (l.closedBy f) := by
  unfold Ledger.closedBy; infer_instance

/-- Rebates that were outstanding when the position was closed, summed over all closes. -/
def forfeited (c : Cfg) : List Fill → Int
  | [] => 0
  | f :: fs =>
    (if (ledger c fs).closedBy f ∧ (ledger c fs).owed + f.fee c < 0 then
      -((ledger c fs).owed + f.fee c) else 0) + forfeited c fs

/-- Value of all fills of one side. -/
def volume (c : Cfg) (side : Side) : List Fill → Int
  | [] => 0
  | f :: fs => (if f.side = side then value c.env f.qty f.price else 0) + volume c side fs

/-- Sum of the balances shown to the user. -/
def equity (s : State) : Int :=
  s.acct.balance .wallet + s.acct.balance .orderMargin + s.acct.balance .positionMargin

/-- Calls that must not trade: limit order submissions, amendments and cancellations, rejected
market orders, and quote updates that do not liquidate. -/
def quiet (op : Op) (r : Resp) : Prop :=
  match op, r with
  | .limit _ _ _ _, _ => True
  | .amend _ _ _ _ _, _ => True
  | .cancel _, _ => True
  | .market _ _ _, .market (.error _) => True
  | .update (.bba _), .update (.ok _) => True
  | .checkActive (.bba _), _ => True
  | _, .invalidOrder _ => True
  | _, _ => False

/-- The exchange can get into state `s` by some sequence of API calls. -/
def Reachable (c : Cfg) (s : State) : Prop := ∃ ops, run c (State.init c) ops = .ok s

/-! ## Histories with responses -/

/-- Run a sequence of API calls and collect the responses, oldest first. -/
def history (c : Cfg) (s : State) : List Op → Res (State × List (Op × Resp))
  | [] => .ok (s, [])
  | op :: ops => do
    let r ← step c s op
    let h ← history c r.1 ops
    .ok (h.1, (op, r.2) :: h.2)

/-- The limit order accepted by a call, as returned to the user. -/
def accepted : Op × Resp → Option Limit
  | (.limit _ _ _ _, .limit (.ok o)) => some o
  | (.amend _ _ _ _ _, .limit (.ok o)) => some o
  | _ => none

/-- The id handed out to the user by a call. -/
def handedOut : Op × Resp → Option Nat
  | (.market _ _ _, .market (.ok f)) => some f.id
  | x => (accepted x).map Limit.id

/-- The price a market order trades at. -/
def touchPrice (ms : MarketState) : Side → Int
  | .buy => ms.ask
  | .sell => ms.bid

/-- Does a limit order cross the book? -/
def crosses (ms : MarketState) (side : Side) (price : Int) : Prop :=
  match side with
  | .buy => ms.ask ≤ price
  | .sell => price ≤ ms.bid

/-- Does a cancellation request name this order? -/
def named : CancelBy → Limit → Prop
  | .orderId id, o => o.id = id
  | .userOrderId uid, o => o.uid = uid

/-- Is `o` a later state of the order `p`: same identity, and what is missing was filled? -/
def LaterState (p o : Limit) : Prop :=
  o.id = p.id ∧ o.uid = p.uid ∧ o.side = p.side ∧ o.price = p.price ∧ o.ts = p.ts ∧
    o.filledQuantity + o.remaining = p.filledQuantity + p.remaining

/-! ## Matching -/

/-- Time of a market update; a smart candle carries the time of its last trade. -/
def updateTime : UpdateArg → Option Int
  | .bba b => some b.ts
  | .trade t => some t.ts
  | .candle k => some k.ts
  | .smart ts _ _ => ts.getLast?.map Trade.ts
  | .custom k => some k.ts

/-- Does the trade hit an order resting on `side` at `price`? A resting buy is hit by a sell
strictly below its price, a resting sell by a buy strictly above it. -/
def hits (t : Trade) (side : Side) (price : Int) : Bool :=
  match side with
  | .buy => decide (t.side = .sell ∧ t.price < price)
  | .sell => decide (t.side = .buy ∧ price < t.price)

/-- Total quantity of a list of trades. -/
def tradeSum : List Trade → Int
  | [] => 0
  | t :: ts => t.qty + tradeSum ts

/-- The smaller of two quantities. -/
def smaller (a b : Int) : Int := if a ≤ b then a else b

/-- The quantity by which a market update fills a resting order, if it does. -/
def fillRule (u : UpdateArg) (o : Limit) : Option Int :=
  match u with
  | .bba _ => none
  | .trade t => if hits t o.side o.price = true then some (smaller t.qty o.remaining) else none
  | .candle k =>
    match o.side with
    | .buy => if k.low < o.price then some o.remaining else none
    | .sell => if o.price < k.high then some o.remaining else none
  | .smart ts _ _ =>
    let hit := ts.filter (fun t => hits t o.side o.price)
    if hit = [] then none else some (smaller (tradeSum hit) o.remaining)
  | .custom k => if k.canFill = true then k.fills.lookup o.id else none

/-- Average price shown on an order after a further fill of `q` at its limit price. -/
def avgAfter (e : Env) (o : Limit) (q : Int) : Int :=
  match o.fq with
  | .unfilled => o.price
  | .filled cum avg => weighted e avg cum o.price q

/-- The order after a partial fill of `q`. -/
def filledBy (e : Env) (o : Limit) (q : Int) : Limit :=
  { o with remaining := o.remaining - q
           fq := .filled (o.filledQuantity + q) (avgAfter e o q) }

/-- What becomes of a resting order: unchanged without a fill, gone when nothing remains. -/
def survivor (e : Env) (u : UpdateArg) (o : Limit) : Option Limit :=
  match fillRule u o with
  | none => some o
  | some q => if q = o.remaining then none else some (filledBy e o q)

/-- The report for a fill of `q` at time `ts`. -/
def report (e : Env) (ts : Int) (o : Limit) (q : Int) : LimitUpdate :=
  if q = o.remaining then
    .fullyFilled ⟨o.uid, o.side, o.price, 0, o.id, o.ts, ts, o.price,
      o.filledQuantity + o.remaining⟩
  else .partiallyFilled (filledBy e o q)

/-- The reports for an update, in the order of the active orders. -/
def reports (e : Env) (u : UpdateArg) (os : List Limit) : List LimitUpdate :=
  os.filterMap (fun o => match fillRule u o, updateTime u with
    | some q, some ts => some (report e ts o q)
    | _, _ => none)

/-- The fills caused by an update, in the order of the active orders. -/
def makerFills (u : UpdateArg) (os : List Limit) : List Fill :=
  os.filterMap (fun o => (fillRule u o).map (fun q => ⟨true, o.side, o.price, q⟩))

/-- Open quantity of the order with the given id, 0 if it is not active. -/
def openQty (s : State) (id : Nat) : Int :=
  match s.active.find? (fun o => o.id == id) with
  | some o => o.remaining
  | none => 0

/-- Total quantity of a list of fills. -/
def fillSum : List Fill → Int
  | [] => 0
  | f :: fs => f.qty + fillSum fs

/-! ## Margin requirement of the active orders -/

/-- `x` limited to the range from 0 to `q`. -/
def clip (x q : Int) : Int := if x ≤ 0 then 0 else if q ≤ x then q else x

/-- Is `a` better priced than `b` on the given side? -/
def better (side : Side) (a b : Int) : Bool :=
  match side with
  | .buy => decide (b < a)
  | .sell => decide (a < b)

/-- Does `a` come before `b`? Orders are paired with their place in the list of active orders;
the better price comes first, at equal prices the earlier place. -/
def before (side : Side) (a b : Limit × Nat) : Bool :=
  better side a.1.price b.1.price || (decide (a.1.price = b.1.price) && decide (a.2 < b.2))

/-- Sum of the remaining quantities. -/
def qtyOf (l : List (Limit × Nat)) : Int := (l.map (fun x => x.1.remaining)).sum

/-- The part of order `x` that is not covered by `covered` contracts which offset the orders
`l` of its side in turn. -/
def uncovered (side : Side) (covered : Int) (l : List (Limit × Nat)) (x : Limit × Nat) : Int :=
  clip (qtyOf (l.filter (fun y => before side y x)) + x.1.remaining - covered) x.1.remaining

/-- Value of the uncovered parts of the orders of one side. -/
def sideValue (e : Env) (side : Side) (covered : Int) (os : List Limit) : Int :=
  let l := (os.filter (fun o => o.side == side)).zipIdx
  (l.map (fun x => value e (uncovered side covered l x) x.1.price)).sum

/-- The larger of two amounts. -/
def larger (a b : Int) : Int := if a ≤ b then b else a

/-- Margin required by a list of orders next to a position of signed quantity `pos`: the
initial margin of the more valuable side, after a short position has offset the buys and a
long position the sells. -/
def marginReq (c : Cfg) (os : List Limit) (pos : Int) : Int :=
  share c.env (larger (sideValue c.env .buy (larger (-pos) 0) os)
    (sideValue c.env .sell (larger pos 0) os)) c.spec.initMarginReq

/-- On each side the active orders have pairwise different prices. -/
def distinctPrices (os : List Limit) : Prop :=
  os.Pairwise (fun a b => a.side = b.side → a.price ≠ b.price)

instance (os : List Limit) : Decidable (distinctPrices os) :=
  inferInstanceAs (Decidable (List.Pairwise _ os))

/-- The part of the position an order on `side` would reduce. -/
def opposing (pos : Int) (side : Side) : Int :=
  match side with
  | .buy => larger (-pos) 0
  | .sell => larger pos 0

/-- The order margin balance equals the requirement of the active orders. -/
def inLine (c : Cfg) (s : State) : Prop :=
  s.acct.balance .orderMargin = marginReq c s.active s.pos.quantity

/-- The fills of an update all enlarge the position, or they only hit the best priced order of
a side. -/
def cleanFills (u : UpdateArg) (s : State) : Prop :=
  (∃ side, opposing s.pos.quantity side = 0 ∧
    ∀ o ∈ s.active, fillRule u o ≠ none → o.side = side) ∨
  (∀ o ∈ s.active, fillRule u o ≠ none →
    ∀ y ∈ s.active, y.side = o.side → y.id ≠ o.id → better o.side o.price y.price = true)

/-- Market updates whose fills, if any, are clean and meet no price ties. -/
def orderly (s : State) : Op → Prop
  | .update u => (∀ o ∈ s.active, fillRule u o = none) ∨ (distinctPrices s.active ∧ cleanFills u s)
  | .checkActive u =>
    (∀ o ∈ s.active, fillRule u o = none) ∨ (distinctPrices s.active ∧ cleanFills u s)
  | _ => True

/-- Did the call execute a market order, for the user or as a liquidation? -/
def taker : Op → Resp → Prop
  | .market _ _ _, .market (.ok _) => True
  | .update _, .update (.error _) => True
  | _, _ => False

/-! ## Filters and configuration -/

/-- What a configuration must satisfy: steps that are not zero, a margin rate between 0 and 1, a
limit on the number of orders within the hard-coded capacity. -/
def soundConfig (c : Cfg) : Prop :=
  c.spec.quantityFilter.tickSize ≠ 0 ∧ c.spec.priceFilter.tickSize ≠ 0 ∧
  0 ≤ c.spec.initMarginReq ∧ c.spec.initMarginReq ≤ c.env.scale ∧ c.maxOpen ≤ 10000

/-- Calls that manage limit orders, and updates that carry only quotes. -/
def quoting : Op → Prop
  | .limit _ _ _ _ => True
  | .amend _ _ _ _ _ => True
  | .cancel _ => True
  | .update (.bba _) => True
  | _ => False

/-- Is `x` within the optional bounds? -/
def within (lo hi : Option Int) (x : Int) : Prop :=
  (∀ m, lo = some m → m ≤ x) ∧ (∀ m, hi = some m → x ≤ m)

/-- Is `x` a whole number of ticks away from the optional minimum, or else from zero? -/
def onGrid (lo : Option Int) (tick x : Int) : Prop := tick ∣ x - lo.getD 0

/-- Prices a limit order may have when the mark price is `mark`. A multiplier of zero disables
the corresponding rule. -/
def priceOk (e : Env) (f : PriceFilter) (price mark : Int) : Prop :=
  0 < price ∧ within f.minPrice f.maxPrice price ∧ onGrid f.minPrice f.tickSize price ∧
  (f.multiplierUp ≠ 0 → price ≤ share e mark f.multiplierUp) ∧
  (f.multiplierDown ≠ 0 → share e mark f.multiplierDown ≤ price)

/-- Quantities an order may have. -/
def quantityOk (f : QuantityFilter) (q : Int) : Prop :=
  q ≠ 0 ∧ within f.minQuantity f.maxQuantity q ∧ onGrid f.minQuantity f.tickSize q

/-- Mid price, rounded toward zero. -/
def mid (ms : MarketState) : Int := (ms.bid + ms.ask).tdiv 2

/-- The configuration was built with the constructors, from a leverage `v` and a maintenance
margin fraction. -/
def Built (c : Cfg) (v : Nat) (fraction : Int) : Prop :=
  ∃ lev pf qf maker taker, leverageNew c.env.scale v = .ok lev ∧
    ContractSpec.new c.env.scale lev fraction pf qf maker taker = .ok (.ok c.spec) ∧
    Cfg.new c.env c.start c.maxOpen c.spec c.sampleSecs = .ok c

/-! ## Risk checks -/

/-- Initial margin plus taker fee of `q` contracts at price `p`. -/
def needed (c : Cfg) (q p : Int) : Int :=
  share c.env (value c.env q p) c.spec.initMarginReq + share c.env (value c.env q p) c.spec.feeTaker

/-- May a market order of `q` be executed? Opening or increasing needs margin and fee from the
wallet; reducing is always allowed; for a flip the margin and fee of the new part must be
covered by wallet and position margin. -/
def marketAllowed (c : Cfg) (s : State) (side : Side) (q : Int) : Prop :=
  let opp := opposing s.pos.quantity side
  if opp = 0 then needed c q (touchPrice s.ms side) ≤ s.acct.balance .wallet
  else if q ≤ opp then True
  else needed c (q - opp) (touchPrice s.ms side) ≤
    s.acct.balance .wallet + s.acct.balance .positionMargin

/-! ## Liquidation -/

/-- Bid and ask after an update; trades carry no quotes. -/
def quotesAfter (ms : MarketState) : UpdateArg → Int × Int
  | .bba b => (b.bid, b.ask)
  | .trade _ => (ms.bid, ms.ask)
  | .candle k => (k.bid, k.ask)
  | .smart _ b _ => (b.bid, b.ask)
  | .custom k => match k.market with
    | none => (ms.bid, ms.ask)
    | some x => (x.1, x.2.1)

/-- The number of updates the market state counts, after an update. -/
def stepAfter (ms : MarketState) : UpdateArg → Nat
  | .custom k => match k.market with
    | none => ms.step + 1
    | some x => x.2.2 + 1
  | _ => ms.step + 1

/-- A market update of the user's own type does not put a market state in place whose bid is above
its ask. -/
def uncrossed : UpdateArg → Prop
  | .custom k => match k.market with
    | none => True
    | some x => x.1 ≤ x.2.1
  | _ => True

instance (u : UpdateArg) : Decidable (uncrossed u) := by
  unfold uncrossed; split
  · split <;> infer_instance
  · infer_instance

/-- The price below which a long position is liquidated: entry*(1-m), rounded down. -/
def longLimit (c : Cfg) (entry : Int) : Int :=
  (entry * (c.env.scale - c.spec.maintenanceMargin)).tdiv c.env.scale

/-- The price above which a short position is liquidated: entry*(1+m), rounded down. -/
def shortLimit (c : Cfg) (entry : Int) : Int :=
  (entry * (c.env.scale + c.spec.maintenanceMargin)).tdiv c.env.scale

/-- Must the position be liquidated at these quotes? -/
def breach (c : Cfg) (pos : Position) (quotes : Int × Int) : Prop :=
  (0 < pos.quantity ∧ quotes.1 < longLimit c pos.entryPrice) ∨
  (pos.quantity < 0 ∧ shortLimit c pos.entryPrice < quotes.2)

instance (c : Cfg) (pos : Position) (quotes : Int × Int) : Decidable (breach c pos quotes) :=
  inferInstanceAs (Decidable (_ ∨ _))

/-- The fill that closes a position at the given quotes. -/
def closingFill (pos : Position) (quotes : Int × Int) : Fill :=
  if 0 < pos.quantity then ⟨false, .sell, quotes.1, pos.quantity⟩
  else ⟨false, .buy, quotes.2, -pos.quantity⟩

/-- The price at which a position of `q` contracts would be closed at market. -/
def exitPrice (q : Int) (quotes : Int × Int) : Int := if 0 < q then quotes.1 else quotes.2

/-! ## Mirror images -/

/-- The other side. -/
def opposite : Side → Side
  | .buy => .sell
  | .sell => .buy

/-- The same position in the other direction. -/
def mirror : Position → Position
  | .neutral => .neutral
  | .long p => .short p
  | .short p => .long p

/-- Does a fill on this side enlarge the position (or open one)? -/
def enlarges (pos : Position) (side : Side) : Prop := opposing pos.quantity side = 0

instance (pos : Position) (side : Side) : Decidable (enlarges pos side) :=
  inferInstanceAs (Decidable (_ = _))

/-- Do the margins moved by a market order of `q` work out? A part that opens or enlarges a position
reserves, and a part that closes frees, at least one unit in the last place. When the position
is closed completely (and, for an order that closes it exactly, in debug builds), the position
margin held is exactly the margin of the position at its entry price. -/
def marginsWorkOut (c : Cfg) (s : State) (side : Side) (q : Int) : Prop :=
  let opp := opposing s.pos.quantity side
  (opp < q → 0 < share c.env (value c.env (q - opp) (touchPrice s.ms side)) c.spec.initMarginReq) ∧
  (0 < opp → 0 < share c.env (value c.env (smaller q opp) s.pos.entryPrice) c.spec.initMarginReq) ∧
  (0 < opp → (opp < q ∨ (opp = q ∧ c.env.debug = true)) →
    s.acct.balance .positionMargin =
      share c.env (value c.env opp s.pos.entryPrice) c.spec.initMarginReq)

/-- The fills (newest first) come in pairs: one that opens a position and one that closes all of
it. -/
def roundTrips : List Fill → Prop
  | [] => True
  | [_] => False
  | g :: f :: fs => g.side = opposite f.side ∧ g.qty = f.qty ∧ roundTrips fs

instance decRoundTrips : (fs : List Fill) → Decidable (roundTrips fs)
  | [] => inferInstanceAs (Decidable True)
  | [_] => inferInstanceAs (Decidable False)
  | g :: f :: fs =>
    have := decRoundTrips fs
    inferInstanceAs (Decidable (g.side = opposite f.side ∧ g.qty = f.qty ∧ roundTrips fs))

/-! ## What was observed -/

/-- Bid, ask, time and number of updates after a sequence of API calls, starting from `m`. Only
market updates count; a trade carries no quotes. -/
def seen (m : MarketState) : List Op → MarketState
  | [] => m
  | .update u :: ops =>
    seen ⟨(quotesAfter m u).1, (quotesAfter m u).2, (updateTime u).getD m.ts, stepAfter m u⟩ ops
  | _ :: ops => seen m ops

/-- Times of the market updates in a sequence of API calls. -/
def times : List Op → List Int
  | [] => []
  | .update u :: ops => (updateTime u).toList ++ times ops
  | _ :: ops => times ops

/-- Number of limit order submissions turned down by a call. An amendment submits a new order
unless the old one is unknown or the new quantity is already filled. -/
def rejected : Op × Resp → Nat
  | (.limit _ _ _ _, .limit (.error _)) => 1
  | (.amend _ _ _ _ _, .limit (.error err)) =>
    match err with
    | .orderIdNotFound _ => 0
    | .orderNoLongerActive => 0
    | .amendQtyAlreadyFilled => 0
    | _ => 1
  | _ => 0

/-- Number of market orders turned down by a call. -/
def rejectedMarket : Op × Resp → Nat
  | (.market _ _ _, .market (.error _)) => 1
  | _ => 0

/-- Number of taker fills. -/
def takerFills (fs : List Fill) : Nat := (fs.filter (fun f => !f.maker)).length

/-- The time from which on the next sample of the balances is due, given the times of the
updates so far, oldest first: the first update samples, and each sample moves the due time by
one interval. -/
def dueAfter (interval : Int) : Option Int → List Int → Option Int
  | d, [] => d
  | none, t :: ts => dueAfter interval (some (t + interval)) ts
  | some d, t :: ts => dueAfter interval (some (if d ≤ t then d + interval else d)) ts

/-- Is a sample taken at time `t`, when the next one is due at `due`? -/
def samples (due : Option Int) (t : Int) : Prop := ∀ d, due = some d → d ≤ t

instance (due : Option Int) (t : Int) : Decidable (samples due t) :=
  match due with
  | none => .isTrue (by simp [samples])
  | some d => decidable_of_iff (d ≤ t) (by simp [samples])

/-- Number of samples taken over a list of update times. -/
def sampleCount (interval : Int) : Option Int → List Int → Nat
  | _, [] => 0
  | none, t :: ts => 1 + sampleCount interval (some (t + interval)) ts
  | some d, t :: ts =>
    if d ≤ t then 1 + sampleCount interval (some (d + interval)) ts
    else sampleCount interval (some d) ts

/-- Consecutive times are at most `i` apart. -/
def gapsAtMost (i : Int) : List Int → Prop
  | a :: b :: ts => b ≤ a + i ∧ gapsAtMost i (b :: ts)
  | _ => True

/-- Sampling interval in nanoseconds. -/
def interval (c : Cfg) : Int := c.sampleSecs * 1000000000

/-- Number of calls of `sample_user_balances` in a record of tracker calls. -/
def samplesIn (log : List Event) : Nat :=
  (log.filter (fun ev => match ev with | .sample _ _ => true | _ => false)).length

/-! ## What market updates have to satisfy -/

/-- Prices a market update may carry: within the bounds of the filter, where a bound of zero is
ignored, and a whole number of ticks. -/
def updatePrice (f : PriceFilter) (p : Int) : Prop :=
  (∀ m, f.minPrice = some m → m = 0 ∨ m ≤ p) ∧ (∀ m, f.maxPrice = some m → m = 0 ∨ p ≤ m) ∧
    f.tickSize ∣ p

/-- Quotes a market update may carry. -/
def updateQuotes (f : PriceFilter) (bid ask : Int) : Prop :=
  updatePrice f bid ∧ updatePrice f ask ∧ bid < ask

/-- The market updates a debug build accepts. A smart candle is not checked against the price
filter `f` of the exchange but against the one it was built with: its quotes, one of its trades,
and that all its trades have a positive quantity. -/
def updateOk (f : PriceFilter) : UpdateArg → Prop
  | .bba b => updateQuotes f b.bid b.ask
  | .trade t => updatePrice f t.price
  | .candle k =>
    updateQuotes f k.bid k.ask ∧ updatePrice f k.low ∧ updatePrice f k.high ∧ k.low < k.high
  | .smart ts b f' =>
    updateQuotes f' b.bid b.ask ∧ (∃ t ∈ ts, updatePrice f' t.price) ∧ ∀ t ∈ ts, 0 < t.qty
  | .custom k => k.valid = true

/-- The price filter an update is checked against. -/
def filterOf (f : PriceFilter) : UpdateArg → PriceFilter
  | .smart _ _ f' => f'
  | _ => f

/-! ## One position at a time -/

/-- The quotes an update carries. -/
def quotesOf : UpdateArg → List Int
  | .bba b => [b.bid, b.ask]
  | .trade _ => []
  | .candle k => [k.bid, k.ask]
  | .smart _ b _ => [b.bid, b.ask]
  | .custom k => match k.market with
    | none => []
    | some x => [x.1, x.2.1]

/-- The calls of a strategy that trades with market orders only and holds one position at a time.
Updates are valid, with positive quotes. A position is opened by one order, is neither enlarged
nor partly reduced, and is closed or reversed by one order. The margin of a position that is
opened is at least one unit in the last place, and a position that is left after a reversal
satisfies the quantity filter. -/
def oneAtATime (c : Cfg) (s : State) : Op → Prop
  | .update a => updateOk c.spec.priceFilter a ∧ (filterOf c.spec.priceFilter a).tickSize ≠ 0 ∧
      ∀ x ∈ quotesOf a, 0 < x
  | .market side q _ =>
      let opp := opposing s.pos.quantity side
      0 < touchPrice s.ms side ∧ (s.pos = .neutral ∨ 0 < opp) ∧ opp ≤ q ∧
      (opp < q → 0 < share c.env (value c.env (q - opp) (touchPrice s.ms side))
        c.spec.initMarginReq) ∧
      (0 < opp → opp < q → quantityOk c.spec.quantityFilter (q - opp))
  | _ => False

/-- A list of such calls, made one after the other. -/
def followed (c : Cfg) : State → List Op → Prop
  | _, [] => True
  | s, op :: ops => oneAtATime c s op ∧ ∀ s' r, step c s op = .ok (s', r) → followed c s' ops

/-! ## Tracker calls -/

/-- The calls for the fills a market update causes, oldest first: for each filled order, in the
order of the active orders, the fill and the trade. -/
def fillCalls (u : UpdateArg) (os : List Limit) : List Event :=
  os.flatMap (fun o => match fillRule u o with
    | none => []
    | some q => [.limitFill (decide (q = o.remaining)) q, .trade o.side o.price q])

/-- The calls for an executed market order, oldest first. -/
def takerCalls (uid : Nat) (f : Fill) : List Event :=
  [.marketSubmit ⟨uid, f.side, f.qty⟩, .marketFill, .trade f.side f.price f.qty]

/-- What an amendment to a total of `qty` leaves open: the part not filled yet. -/
def amendedQty (s : State) (id : Nat) (qty : Int) : Int :=
  match s.active.find? (fun o => o.id == id) with
  | some o => qty - o.filledQuantity
  | none => qty

/-- The calls an update makes before it looks at orders and position: the new market state, then
a sample of the balances if one is due. -/
def observeCalls (s : State) (due : Option Int) (ms : MarketState) : List Event :=
  if samples due ms.ts then
    [.update ms, .sample ⟨s.acct.balance .wallet, s.acct.balance .positionMargin,
      s.acct.balance .orderMargin⟩ (mid ms)]
  else [.update ms]

/-- All calls of the account tracker during one API call, oldest first. `due` is the time from
which on the next sample of the balances is due. -/
def calls (s : State) (due : Option Int) : Op → Resp → List Event
  | .update u, .update (.ok _) =>
    observeCalls s due (seen s.ms [.update u]) ++ fillCalls u s.active
  | .update u, .update (.error _) =>
    observeCalls s due (seen s.ms [.update u]) ++
      takerCalls 0 (closingFill s.pos (quotesAfter s.ms u))
  | .checkActive u, .unit => fillCalls u s.active
  | .market side q uid, .market (.ok _) => takerCalls uid ⟨false, side, touchPrice s.ms side, q⟩
  | .market side q uid, .market (.error _) => [.marketSubmit ⟨uid, side, q⟩]
  | .limit side p q uid, .limit _ => [.limitSubmit ⟨uid, side, p, q⟩]
  | .cancel _, .limit (.ok _) => [.limitCancel]
  | .amend id side p q uid, .limit r =>
    match r with
    | .error (.orderIdNotFound _) => []
    | .error .orderNoLongerActive => []
    | .error .amendQtyAlreadyFilled => [.limitCancel]
    | _ => [.limitCancel, .limitSubmit ⟨uid, side, p, amendedQty s id q⟩]
  | _, _ => []

/-- The market states observed along a sequence of API calls, oldest first. -/
def observed (m : MarketState) : List Op → List MarketState
  | [] => []
  | .update u :: ops => seen m [.update u] :: observed (seen m [.update u]) ops
  | _ :: ops => observed m ops

/-- Number of contracts `amount` of margin currency buys at price `p`. -/
def contracts (e : Env) (amount p : Int) : Int :=
  match e.kind with
  | .linear => (amount * e.scale).tdiv p
  | .inverse => (amount * p).tdiv e.scale

/-! ## Assertions that can fail -/

/-- Can the update fill limit orders? Quotes cannot, and a user's own type says so itself. -/
def mayFill : UpdateArg → Bool
  | .bba _ => false
  | .custom k => k.canFill
  | _ => true

/-- Is it an update of the user's own type? -/
def isCustom : UpdateArg → Bool
  | .custom _ => true
  | _ => false

/-- Does the update carry a trade without a positive quantity? -/
def badQuantity : UpdateArg → Bool
  | .trade t => decide (t.qty ≤ 0)
  | .smart ts _ _ => ts.any (fun t => decide (t.qty ≤ 0))
  | _ => false

/-- Settling a fill: division by an entry price that rounds to zero, a margin that rounds to zero,
position margin that does not cancel exactly. -/
def fillPanics (debug : Bool) : List Panic :=
  [.divByZero, .txnAmount, .flipMargin] ++ if debug then [.marginToFree, .closedMargin] else []

/-- Market orders, also those of a liquidation. -/
def marketPanics (debug : Bool) : List Panic := .settlePrice :: fillPanics debug

/-- Matching the resting orders against an update. -/
def matchPanics (debug : Bool) (u : UpdateArg) : List Panic :=
  if mayFill u = false then []
  else .walletNegative :: fillPanics debug ++
    (if debug then [.matchMarginMismatch, .matchMarginIncrease, .finalMarginMismatch] else []) ++
    (if badQuantity u then [if debug then .tradeQty else .fillNotPositive] else []) ++
    (if isCustom u then [.fillTooLarge, if debug then .matchQty else .fillNotPositive] else [])

/-- Building the market update. -/
def buildPanics (debug : Bool) : UpdateArg → List Panic
  | .smart ts _ f =>
    (if ts = [] then [.smartEmpty] else []) ++ (if f.tickSize = 0 then [.divByZero] else []) ++
      [.smartBba] ++ if debug then [.smartNoValidTrade, .smartTradeQty] else []
  | _ => []

/-- The assertions that a call can fail. -/
def possiblePanics (debug : Bool) : Op → List Panic
  | .update u => buildPanics debug u ++ (if debug then [.invalidUpdate] else []) ++
      .liquidateSubmit :: marketPanics debug ++ matchPanics debug u
  | .checkActive u => buildPanics debug u ++ matchPanics debug u
  | .market _ _ _ => marketPanics debug
  | .limit _ _ _ _ => [.walletNegative]
  | .cancel _ => [.cancelMarginMismatch, .cancelMarginIncrease]
  | .amend _ _ _ _ _ => [.cancelMarginMismatch, .cancelMarginIncrease, .walletNegative]

/-! ## Bounded integers -/

/-- The most one contract can be worth at prices up to `P`, times the scale: `P` itself for linear
contracts, one unit at the smallest price for inverse ones. -/
def unitValue (c : Cfg) (P : Int) : Int :=
  match c.env.kind with
  | .linear => P
  | .inverse => if c.env.scale * c.env.scale ≤ P then P else c.env.scale * c.env.scale

/-- The contracts asked for by a call. -/
def asked : Op → Int
  | .market _ qty _ => if 0 < qty then qty else 0
  | .limit _ _ qty _ => if 0 < qty then qty else 0
  | .amend _ _ _ qty _ => if 0 < qty then qty else 0
  | _ => 0

/-- Does a call submit a limit order? -/
def submissions : Op → Int
  | .limit .. => 1
  | .amend .. => 1
  | _ => 0

/-- The volume a smart candle adds up. -/
def volumeOf : UpdateArg → Int
  | .smart ts _ _ => (ts.map fun t => abs t.qty).sum
  | _ => 0

/-- The quotes and limit prices of a call are at most `P`, and the volume of a smart candle fits. -/
def Within (w P : Int) : Op → Prop
  | .update a => (∀ x ∈ quotesOf a, 0 ≤ x ∧ x ≤ P) ∧ volumeOf a ≤ w
  | .checkActive a => volumeOf a ≤ w
  | .limit _ price _ _ => price ≤ P
  | .amend _ _ price _ _ => price ≤ P
  | _ => True

instance (w P : Int) (op : Op) : Decidable (Within w P op) := by
  cases op <;> unfold Within <;> infer_instance

/-- Limits within which integers from `-w` to `w` are wide enough: prices up to `P`, `Q` contracts
asked for in total, `n` limit order submissions. -/
structure Fits (c : Cfg) (w P Q n : Int) : Prop where
  price : 0 ≤ P
  start : 0 ≤ c.start
  capacity : c.maxOpen ≤ 10000
  initial : 0 ≤ c.spec.initMarginReq ∧ c.spec.initMarginReq ≤ c.env.scale
  maintenance : 0 ≤ c.spec.maintenanceMargin ∧ c.spec.maintenanceMargin ≤ c.env.scale
  fees : abs c.spec.feeMaker ≤ c.env.scale ∧ abs c.spec.feeTaker ≤ c.env.scale
  width : 2 * P ≤ w ∧ 2 * Q ≤ w ∧ 2 * c.env.scale ≤ w
  filters : P + abs (c.spec.priceFilter.minPrice.getD 0) ≤ w ∧
    Q + abs (c.spec.quantityFilter.minQuantity.getD 0) ≤ w
  bands : P * abs c.spec.priceFilter.multiplierUp ≤ w * c.env.scale ∧
    P * abs c.spec.priceFilter.multiplierDown ≤ w * c.env.scale
  money : 2 * (n + 1) * (c.start * c.env.scale + 5 * (Q * unitValue c P)) ≤ w * c.env.scale

/-- The amounts of an order. -/
def orderAmounts (o : Limit) : List Int :=
  [o.price, o.remaining] ++ match o.fq with
    | .unfilled => []
    | .filled c avg => [c, avg]

/-- The running totals of the accounts. -/
def accountAmounts (a : Accounts) : List Int :=
  [a.wallet.debits, a.wallet.credits, a.orderMargin.debits, a.orderMargin.credits,
    a.positionMargin.debits, a.positionMargin.credits, a.exchangeFee.debits, a.exchangeFee.credits,
    a.broker.debits, a.broker.credits, a.treasury.debits, a.treasury.credits]

/-- All amounts an exchange stores. -/
def amounts (s : State) : List Int :=
  [s.ms.bid, s.ms.ask, s.pos.quantity, s.pos.entryPrice, s.pos.outstandingFees] ++
    accountAmounts s.acct ++ s.active.flatMap orderAmounts ++ s.om.flatMap orderAmounts

/-- The amounts passed to a call that it may store. -/
def inputs : Op → List Int
  | .update a => quotesOf a
  | .market _ qty _ => [qty]
  | .limit _ price qty _ => [price, qty]
  | .amend _ _ price qty _ => [price, qty]
  | _ => []

/-! ## One position and its exit -/

/-- The update fills each of the orders whole or not at all. -/
def wholeFills (a : UpdateArg) (os : List Limit) : Prop :=
  ∀ o ∈ os, fillRule a o = none ∨ fillRule a o = some o.remaining

/-- A limit order that may be placed next to the resting orders `rest`, once quotes are known.
Without a position it opens one, reserving at least one unit in the last place, and the orders at
rest are on the other side with the same quantity. With a position it closes exactly that and is
the only order. -/
def fits (c : Cfg) (s : State) (rest : List Limit) (side : Side) (price q : Int) : Prop :=
  0 < s.ms.bid ∧
  ((s.pos = .neutral ∧ 0 < share c.env (value c.env q price) c.spec.initMarginReq ∧
      ∀ o ∈ rest, o.side ≠ side ∧ o.remaining = q) ∨
   (0 < q ∧ q = opposing s.pos.quantity side ∧ rest = []))

/-- The calls of a strategy that holds one position at a time and works with limit orders as well
as market orders. Without a position it rests a buy, a sell or one of each of equal quantity, and
with a position at most the one order that closes it; these orders may be amended and cancelled.
Market orders are sent when nothing rests, as in `oneAtATime`. Updates are valid, fill orders
whole, and do not liquidate the position while its closing order rests. -/
def bracket (c : Cfg) (s : State) : Op → Prop
  | .update a => oneAtATime c s (.update a) ∧ badQuantity a = false ∧ wholeFills a s.active ∧
      (breach c s.pos (quotesAfter s.ms a) → s.active = [])
  | .checkActive a => updateOk c.spec.priceFilter a ∧
      (filterOf c.spec.priceFilter a).tickSize ≠ 0 ∧ badQuantity a = false ∧ wholeFills a s.active
  | .market side q uid => s.active = [] ∧ oneAtATime c s (.market side q uid)
  | .limit side price q _ => fits c s s.active side price q
  | .amend id side price q _ => (∃ o ∈ s.active, o.id = id) →
      fits c s (s.active.filter (fun o => decide (o.id ≠ id))) side price q
  | .cancel _ => True

/-- A list of such calls, made one after the other. -/
def bracketed (c : Cfg) : State → List Op → Prop
  | _, [] => True
  | s, op :: ops => bracket c s op ∧ ∀ s' r, step c s op = .ok (s', r) → bracketed c s' ops

/-- The wallet once the fills of an update are settled: starting balance, profit and fees paid
according to the ledger, less the margin of the position that results and the margin of the
orders that still rest. -/
def walletAfter (c : Cfg) (s : State) (a : UpdateArg) : Int :=
  let l := (makerFills a s.active).foldl (Ledger.fill c) (ledger c (fills s.log))
  c.start + l.realised - l.paid -
    share c.env (value c.env (abs l.qty) l.entry) c.spec.initMarginReq -
    marginReq c (s.active.filter (fun o => decide (fillRule a o = none))) l.qty

end Lfest.Spec
