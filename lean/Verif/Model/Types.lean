import Verif.Model.Decimal

/-!
# Sides, orders and order states
-/

namespace Lfest

/-- types/side.rs:5-10 -/
inductive Side where
  | buy | sell
  deriving DecidableEq, Repr

/-- types/side.rs:14-19 -/
def Side.inverted : Side → Side
  | .buy => .sell
  | .sell => .buy

/-- types/side.rs:22-33 -/
def Side.fromTakerQuantity (q : Int) : Res Side := do
  assertP (q ≠ 0) .sideZero
  if q < 0 then .ok .sell else .ok .buy

/-- types/order_status.rs:59-74 `FilledQuantity` -/
inductive FilledQty where
  | unfilled
  | filled (cumulative avgPrice : Int)
  deriving DecidableEq, Repr

/-- types/limit_order.rs:22-52 `LimitOrder<.., NewOrder>`. The field `re_pricing` has a single
possible value (types/re_pricing.rs) and is omitted. -/
structure NewLimit where
  uid : Nat
  side : Side
  price : Int
  qty : Int
  deriving DecidableEq, Repr

/-- types/limit_order.rs `LimitOrder<.., Pending>` with `ExchangeOrderMeta`
(types/order_meta.rs:8-16) and `Pending` (types/order_status.rs:15-27) flattened. -/
structure Limit where
  uid : Nat
  side : Side
  price : Int
  remaining : Int
  id : Nat
  ts : Int
  fq : FilledQty
  deriving DecidableEq, Repr

/-- types/limit_order.rs `LimitOrder<.., Filled>` with `Filled`
(types/order_status.rs:99-120) flattened. -/
structure FilledLimit where
  uid : Nat
  side : Side
  price : Int
  remaining : Int
  id : Nat
  ts : Int
  tsExecuted : Int
  avgFillPrice : Int
  filledQty : Int
  deriving DecidableEq, Repr

/-- types/order_update.rs:5-15 `LimitOrderUpdate` -/
inductive LimitUpdate where
  | partiallyFilled (o : Limit)
  | fullyFilled (o : FilledLimit)
  deriving DecidableEq, Repr

/-- types/limit_order.rs:125-145 `new_with_user_order_id` (and 86-105 `new`) -/
def NewLimit.new (side : Side) (price qty : Int) (uid : Nat) : Except OrderError NewLimit :=
  if price ≤ 0 then .error .limitPriceLTEZero
  else if qty ≤ 0 then .error .orderQuantityLTEZero
  else .ok { uid, side, price, qty }

/-- types/limit_order.rs:155-157 `total_quantity` of a new order -/
def NewLimit.totalQuantity (o : NewLimit) : Int := o.qty

/-- types/limit_order.rs:160-172 `into_pending` -/
def NewLimit.intoPending (o : NewLimit) (id : Nat) (ts : Int) : Limit :=
  { uid := o.uid, side := o.side, price := o.price, remaining := o.qty, id, ts,
    fq := .unfilled }

/-- types/limit_order.rs:176-179 `set_remaining_quantity` -/
def NewLimit.setRemaining (o : NewLimit) (q : Int) : Res NewLimit := do
  assertP (q > 0) .setRemaining
  .ok { o with qty := q }

/-- types/limit_order.rs:267-275 `filled_quantity` -/
def Limit.filledQuantity (o : Limit) : Int :=
  match o.fq with
  | .unfilled => 0
  | .filled c _ => c

/-- types/limit_order.rs:278-291 `total_quantity` of a pending order -/
def Limit.totalQuantity (o : Limit) : Res Int := do
  let q := match o.fq with
    | .unfilled => o.remaining
    | .filled c _ => o.remaining + c
  assertP (q > 0) .totalQuantity
  .ok q

/-- types/smol_currency/quote_currency.rs:60-68 `new_weighted_price` -/
def newWeightedPrice (s p0 w0 p1 w1 : Int) : Res Int :=
  ddiv s (dmul s p0 w0 + dmul s p1 w1) (w0 + w1)

/-- types/limit_order.rs:194-264 `fill`: the order after the fill, and the filled order if
nothing remains. -/
def Limit.fill (s : Int) (o : Limit) (q ts : Int) : Res (Limit × Option FilledLimit) := do
  assertP (q ≤ o.remaining) .fillTooLarge
  assertP (q > 0) .fillNotPositive
  match o.fq with
  | .unfilled =>
    let o' : Limit := { o with fq := .filled q o.price, remaining := o.remaining - q }
    if q = o.remaining then
      .ok (o', some { uid := o.uid, side := o.side, price := o.price, remaining := 0,
                      id := o.id, ts := o.ts, tsExecuted := ts, avgFillPrice := o.price,
                      filledQty := q })
    else .ok (o', none)
  | .filled c avg =>
    let avg' ← newWeightedPrice s avg c o.price q
    let o' : Limit := { o with fq := .filled (c + q) avg', remaining := o.remaining - q }
    if o'.remaining = 0 then
      .ok (o', some { uid := o.uid, side := o.side, price := o.price, remaining := 0,
                      id := o.id, ts := o.ts, tsExecuted := ts, avgFillPrice := o.price,
                      filledQty := c + q })
    else .ok (o', none)

/-- types/market_order.rs:16-40 `MarketOrder<.., NewOrder>` -/
structure NewMarket where
  uid : Nat
  side : Side
  qty : Int
  deriving DecidableEq, Repr

/-- types/market_order.rs:16-40 `MarketOrder<.., Filled>` -/
structure FilledMarket where
  uid : Nat
  side : Side
  qty : Int
  id : Nat
  ts : Int
  tsExecuted : Int
  avgFillPrice : Int
  filledQty : Int
  deriving DecidableEq, Repr

/-- types/market_order.rs:95-110 `new_with_user_order_id` (and 73-84 `new`, where the user
order id is the default) -/
def NewMarket.new (side : Side) (qty : Int) (uid : Nat) : Except OrderError NewMarket :=
  if qty ≤ 0 then .error .orderQuantityLTEZero else .ok { uid, side, qty }

/-- types/market_order.rs:113-124 `into_pending` followed by 135-153 `into_filled`. -/
def NewMarket.intoFilled (o : NewMarket) (id : Nat) (ts : Int) (price tsExec : Int) :
    FilledMarket :=
  { uid := o.uid, side := o.side, qty := o.qty, id, ts, tsExecuted := tsExec,
    avgFillPrice := price, filledQty := o.qty }

end Lfest
