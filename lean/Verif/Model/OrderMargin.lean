import Verif.Model.Book
import Verif.Model.Position

/-!
# `OrderMargin`: the margin required by the active limit orders
-/

namespace Lfest

/-- order_margin.rs:122-123: stable insertion into a list sorted by `key`. -/
def insertBy {α} (key : α → Int) (x : α) : List α → List α
  | [] => [x]
  | y :: ys => if key x ≤ key y then x :: y :: ys else y :: insertBy key x ys

/-- Stable sort by key. Models `slice::sort_by_key` (order_margin.rs:122-123) and
`glidesort::sort_by_key` (smart_candle.rs:75-76); both are stable, so the result is uniquely
determined. -/
def sortBy {α} (key : α → Int) : List α → List α
  | [] => []
  | x :: xs => insertBy key x (sortBy key xs)

/-- order_margin.rs:128-139 and 142-153: the position offsets the orders front to back. -/
def offsetOrders (pos : Int) : List (Int × Int) → List (Int × Int)
  | [] => []
  | (price, q) :: rest =>
    if pos > 0 then (price, umax (q - pos) 0) :: offsetOrders (pos - umin q pos) rest
    else (price, q) :: rest

/-- order_margin.rs:157-165: sum of the values of a side -/
def sumValue (e : Env) (acc : Int) : List (Int × Int) → Res Int
  | [] => .ok acc
  | (price, q) :: rest => do
    let v ← convert e q price
    sumValue e (acc + v) rest

/-- order_margin.rs:99-121: (price, remaining quantity) of the orders of one side, the
candidate order last -/
def sideOrders (side : Side) (b : Book) (new : Option Limit) : List (Int × Int) :=
  ((b.filter (fun o => o.side == side)).map (fun o => (o.price, o.remaining))) ++
    match new with
    | some o => if o.side = side then [(o.price, o.remaining)] else []
    | none => []

/-- order_margin.rs:88-168 `order_margin_internal` -/
def orderMarginInternal (e : Env) (imr : Int) (b : Book) (pos : Position)
    (new : Option Limit) : Res Int := do
  debugP e.debug (imr ≤ e.scale) .imrAboveOne
  let buys := sortBy (fun x => -x.1) (sideOrders .buy b new)
  let sells := sortBy (fun x => x.1) (sideOrders .sell b new)
  let buys' := match pos with
    | .short p => offsetOrders p.qty buys
    | _ => buys
  let sells' := match pos with
    | .long p => offsetOrders p.qty sells
    | _ => sells
  let bv ← sumValue e 0 buys'
  let sv ← sumValue e 0 sells'
  .ok (dmul e.scale (umax bv sv) imr)

/-- order_margin.rs:79-85 `order_margin` -/
def orderMargin (e : Env) (imr : Int) (b : Book) (pos : Position) : Res Int :=
  orderMarginInternal e imr b pos none

/-- order_margin.rs:171-183 `order_margin_with_order` -/
def orderMarginWithOrder (e : Env) (imr : Int) (b : Book) (pos : Position) (o : Limit) :
    Res Int :=
  orderMarginInternal e imr b pos (some o)

/-- order_margin.rs:41-60 `update` -/
def omUpdate (cap : Nat) (b : Book) (o : Limit) : Res (Except Error Book) := do
  assertP (o.remaining > 0) .omRemaining
  match Book.insert cap b o with
  | .error err => .ok (.error err)
  | .ok (b', none) => .ok (.ok b')
  | .ok (b', some old) => do
    assertP (old ≠ o) .omSame
    assertP (o.remaining < old.remaining) .omNotSmaller
    .ok (.ok b')

/-- order_margin.rs:63-76, exchange.rs:500-530: removal by `CancelBy` on an arena -/
def Book.removeCancel (b : Book) : CancelBy → Option (Limit × Book)
  | .orderId id => b.removeById id
  | .userOrderId uid => b.removeByUid uid

/-- order_margin.rs:63-76 `remove` -/
def omRemove (b : Book) (by_ : CancelBy) : Res Book := do
  let r ← expectSome (b.removeCancel by_) .omRemove
  .ok r.2

end Lfest
