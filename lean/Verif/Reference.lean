import Verif.Spec

/-!
# A reference exchange

A short description of what every API call does when it returns, written without the
mechanics of the code: one list of orders instead of two arenas, one bookkeeping rule per fill
instead of a chain of account transfers, formulas instead of loops. It says nothing about
panics. The theorems in `Props/Reference.lean` show that the modelled code agrees with it.
-/

namespace Lfest.Ref

open Spec

/-- What there is to know about an exchange with one account. -/
structure Exchange where
  /-- bid, ask, time and number of updates -/
  market : MarketState
  /-- active orders -/
  orders : List Limit
  /-- the next order id -/
  next : Nat
  /-- position, fees and realised profit -/
  book : Ledger
  /-- margin reserved for orders -/
  reserved : Int
  /-- margin locked in the position -/
  locked : Int
  deriving DecidableEq, Repr

/-- A fresh exchange. -/
def Exchange.new : Exchange := ⟨⟨0, 0, 0, 0⟩, [], 0, .empty, 0, 0⟩

/-- What is left to spend. -/
def Exchange.wallet (c : Cfg) (x : Exchange) : Int :=
  c.start + x.book.realised - x.book.paid - x.reserved - x.locked

/-- Initial margin of `q` contracts at price `p`. -/
def initial (c : Cfg) (q p : Int) : Int := share c.env (value c.env q p) c.spec.initMarginReq

/-- Position margin after a fill: more for a position that grows, less, at the entry price, for
one that shrinks, and that of the new position alone after a flip. -/
def lockedAfter (c : Cfg) (l : Ledger) (locked : Int) (f : Fill) : Int :=
  if opposing l.qty f.side = 0 then locked + initial c f.qty f.price
  else if f.qty ≤ opposing l.qty f.side then locked - initial c f.qty l.entry
  else initial c (f.qty - opposing l.qty f.side) f.price

/-- Position margin held after a list of fills, newest first. -/
def locked (c : Cfg) : List Fill → Int
  | [] => 0
  | f :: fs => lockedAfter c (ledger c fs) (locked c fs) f

/-- Allowance for the rounding of the position margin, in units of `10^(-3D)`: per fill, one unit in
the last place for the margin, one for the value, and what rounding the entry price of the resulting
position can amount to. -/
def rounding (c : Cfg) : List Fill → Int
  | [] => 0
  | f :: fs => rounding c fs + c.scale * c.scale +
      (abs (ledger c (f :: fs)).qty + 3 * c.scale) * c.spec.initMarginReq

/-- A fill on the account. -/
def Exchange.fill (c : Cfg) (x : Exchange) (f : Fill) : Exchange :=
  { x with book := x.book.fill c f, locked := lockedAfter c x.book x.locked f }

/-- Margin required by the active orders. -/
def Exchange.required (c : Cfg) (x : Exchange) : Int := marginReq c x.orders x.book.qty

/-- Take out the first order with the given property; the last order moves to its place. -/
def takeOut (p : Limit → Bool) : List Limit → List Limit
  | [] => []
  | o :: os =>
    if p o = true then
      match os.getLast? with
      | none => []
      | some z => z :: os.dropLast
    else o :: takeOut p os

/-! ## Why orders are turned down -/

/-- What is wrong with a quantity? -/
def quantityError (f : QuantityFilter) (q : Int) : Option OrderError :=
  if q = 0 then some .quantityTooLow
  else if f.maxQuantity.any (fun m => decide (m < q)) = true then some .quantityTooHigh
  else if f.minQuantity.any (fun m => decide (q < m)) = true then some .quantityTooLow
  else if ¬ f.tickSize ∣ q - f.minQuantity.getD 0 then some .invalidQuantityStepSize
  else none

/-- What is wrong with a limit price, when the mark price is `mark`? -/
def priceError (e : Env) (f : PriceFilter) (p mark : Int) : Option OrderError :=
  if p ≤ 0 then some .limitPriceBelowMin
  else if f.maxPrice.any (fun m => decide (m < p)) = true then some .limitPriceAboveMax
  else if f.minPrice.any (fun m => decide (p < m)) = true then some .limitPriceBelowMin
  else if ¬ f.tickSize ∣ p - f.minPrice.getD 0 then some .invalidOrderPriceStepSize
  else if f.multiplierUp ≠ 0 ∧ share e mark f.multiplierUp < p then
    some .limitPriceAboveMultiple
  else if f.multiplierDown ≠ 0 ∧ p < share e mark f.multiplierDown then
    some .limitPriceBelowMultiple
  else none

/-- Does a limit order cross the book? -/
def crossing (m : MarketState) (side : Side) (price : Int) : Bool :=
  match side with
  | .buy => decide (m.ask ≤ price)
  | .sell => decide (price ≤ m.bid)

/-- Is there money for a market order? A reduction is free; the new part of a flip may also use
the margin of the position it replaces. -/
def affordable (c : Cfg) (x : Exchange) (side : Side) (q : Int) : Bool :=
  let opp := opposing x.book.qty side
  let p := touchPrice x.market side
  if opp = 0 then decide (needed c q p ≤ x.wallet c)
  else decide (q ≤ opp ∨ needed c (q - opp) p ≤ x.wallet c + x.locked)

/-! ## The API -/

/-- `submit_market_order` -/
def Exchange.marketOrder (c : Cfg) (x : Exchange) (side : Side) (q : Int) (uid : Nat) :
    Exchange × Except Error FilledMarket :=
  match quantityError c.spec.quantityFilter q with
  | some err => (x, .error (.order err))
  | none =>
    let x1 := { x with next := x.next + 1 }
    if affordable c x side q = true then
      let p := touchPrice x.market side
      (x1.fill c ⟨false, side, p, q⟩,
        .ok ⟨uid, side, q, x.next, x.market.ts, x.market.ts, p, q⟩)
    else (x1, .error (.risk .notEnoughAvailableBalance))

/-- `submit_limit_order` -/
def Exchange.limitOrder (c : Cfg) (x : Exchange) (side : Side) (p q : Int) (uid : Nat) :
    Exchange × Except Error Limit :=
  match quantityError c.spec.quantityFilter q with
  | some err => (x, .error (.order err))
  | none =>
    match priceError c.env c.spec.priceFilter p (mid x.market) with
    | some err => (x, .error (.order err))
    | none =>
      let o : Limit := ⟨uid, side, p, q, x.next, x.market.ts, .unfilled⟩
      let x1 := { x with next := x.next + 1 }
      let x2 := { x1 with orders := x.orders ++ [o] }
      if x.wallet c + x.required c < x2.required c then
        (x1, .error (.risk .notEnoughAvailableBalance))
      else if crossing x.market side p = true then
        (x1, .error (.order (.goodTillCrossingRejected p (touchPrice x.market side))))
      else if c.maxOpen ≤ x.orders.length then (x1, .error .maxNumberOfActiveOrders)
      else ({ x2 with reserved := x.reserved + Spec.abs (x2.required c - x.reserved) }, .ok o)

/-- The error for an order id that is not active. -/
def Exchange.missing (x : Exchange) (id : Nat) : Error :=
  if id < x.next then .orderNoLongerActive else .orderIdNotFound id

/-- Does the cancellation name this order? -/
def names : CancelBy → Limit → Bool
  | .orderId id, o => o.id == id
  | .userOrderId uid, o => o.uid == uid

/-- `cancel_limit_order` -/
def Exchange.cancel (c : Cfg) (x : Exchange) (b : CancelBy) : Exchange × Except Error Limit :=
  match x.orders.find? (names b) with
  | none =>
    (x, .error (match b with
      | .orderId id => x.missing id
      | .userOrderId _ => .userOrderIdNotFound))
  | some o =>
    let x1 := { x with orders := takeOut (names b) x.orders }
    ({ x1 with reserved := x1.required c }, .ok o)

/-- `amend_limit_order`: cancel, then submit what is not filled yet. -/
def Exchange.amend (c : Cfg) (x : Exchange) (id : Nat) (side : Side) (p q : Int) (uid : Nat) :
    Exchange × Except Error Limit :=
  match x.orders.find? (fun o => o.id == id) with
  | none => (x, .error (x.missing id))
  | some old =>
    let x1 := (x.cancel c (.orderId id)).1
    if q ≤ old.filledQuantity then (x1, .error .amendQtyAlreadyFilled)
    else x1.limitOrder c side p (q - old.filledQuantity) uid

/-- The fill of one resting order by a market update: the order shrinks or leaves, the fill is
booked, and reserved margin that is no longer required is released. -/
def Exchange.matched (c : Cfg) (u : UpdateArg) (x : Exchange) (o : Limit) : Exchange :=
  match fillRule u o with
  | none => x
  | some q =>
    let orders :=
      if q = o.remaining then takeOut (fun y => y.id == o.id) x.orders
      else x.orders.map (fun y => if y.id = o.id then filledBy c.env o q else y)
    let x1 := { x.fill c ⟨true, o.side, o.price, q⟩ with orders := orders }
    { x1 with reserved := smaller (x1.required c) x.reserved }

/-- `check_active_orders`: every active order in turn. -/
def Exchange.matchAll (c : Cfg) (u : UpdateArg) (x : Exchange) : Exchange :=
  x.orders.foldl (Exchange.matched c u) x

/-- Does the position have to be liquidated? -/
def Exchange.underwater (c : Cfg) (x : Exchange) : Bool :=
  decide ((0 < x.book.qty ∧ x.market.bid < longLimit c x.book.entry) ∨
    (x.book.qty < 0 ∧ shortLimit c x.book.entry < x.market.ask))

/-- `update_state` -/
def Exchange.update (c : Cfg) (x : Exchange) (u : UpdateArg) :
    Exchange × Except Error (List LimitUpdate) :=
  let x1 := { x with market := seen x.market [.update u] }
  if x1.underwater c = true then
    let f : Fill := if 0 < x.book.qty then ⟨false, .sell, x1.market.bid, x.book.qty⟩
      else ⟨false, .buy, x1.market.ask, -x.book.qty⟩
    ({ x1.fill c f with next := x.next + 1 }, .error (.risk .liquidate))
  else (x1.matchAll c u, .ok (reports c.env u x.orders))

/-- One API call, including the construction of the order. -/
def Exchange.call (c : Cfg) (x : Exchange) : Op → Exchange × Resp
  | .update u => let r := x.update c u; (r.1, .update r.2)
  | .checkActive u => (x.matchAll c u, .unit)
  | .market side q uid =>
    if q ≤ 0 then (x, .invalidOrder .orderQuantityLTEZero)
    else let r := x.marketOrder c side q uid; (r.1, .market r.2)
  | .limit side p q uid =>
    if p ≤ 0 then (x, .invalidOrder .limitPriceLTEZero)
    else if q ≤ 0 then (x, .invalidOrder .orderQuantityLTEZero)
    else let r := x.limitOrder c side p q uid; (r.1, .limit r.2)
  | .amend id side p q uid =>
    if p ≤ 0 then (x, .invalidOrder .limitPriceLTEZero)
    else if q ≤ 0 then (x, .invalidOrder .orderQuantityLTEZero)
    else let r := x.amend c id side p q uid; (r.1, .limit r.2)
  | .cancel b => let r := x.cancel c b; (r.1, .limit r.2)

/-- A sequence of API calls with the responses, oldest first. -/
def Exchange.calls (c : Cfg) (x : Exchange) : List Op → Exchange × List (Op × Resp)
  | [] => (x, [])
  | op :: ops =>
    let r := x.call c op
    let rest := r.1.calls c ops
    (rest.1, (op, r.2) :: rest.2)

/-- What a state of the modelled code says about the exchange. -/
def view (c : Cfg) (s : State) : Exchange :=
  { market := s.ms, orders := s.active, next := s.nextId,
    book := ⟨s.pos.quantity, s.pos.entryPrice, s.pos.outstandingFees, s.feesPaid,
      -c.start - s.acct.balance .treasury⟩,
    reserved := s.acct.balance .orderMargin, locked := s.acct.balance .positionMargin }

end Lfest.Ref
