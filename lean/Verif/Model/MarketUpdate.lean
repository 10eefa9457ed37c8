import Verif.Model.Config
import Verif.Model.OrderMargin

/-!
# Market state and market updates
-/

namespace Lfest

/-- market_state.rs:14-33 -/
structure MarketState where
  bid : Int
  ask : Int
  ts : Int
  step : Nat
  deriving DecidableEq, Repr

/-- market_state.rs:13, derived `Default` -/
def MarketState.init : MarketState := ⟨0, 0, 0, 0⟩

/-- `(bid + ask) / Decimal::TWO`: market_state.rs:77-79, bba_update.rs:32-34. `TWO` is not
zero, so the division cannot panic. -/
def midPrice (s bid ask : Int) : Int := ((bid + ask) * s).tdiv (2 * s)

/-- market_state.rs:77-79 -/
def MarketState.mid (s : Int) (m : MarketState) : Int := midPrice s m.bid m.ask

/-- market_update/bba_update.rs:17-27 -/
structure Bba where
  bid : Int
  ask : Int
  ts : Int
  deriving DecidableEq, Repr

/-- market_update/trade_update.rs:12-27 -/
structure Trade where
  ts : Int
  price : Int
  qty : Int
  side : Side
  deriving DecidableEq, Repr

/-- market_update/candle_update.rs:15-29 -/
structure Candle where
  bid : Int
  ask : Int
  low : Int
  high : Int
  ts : Int
  deriving DecidableEq, Repr

/-- market_update/smart_candle.rs:13-32 -/
structure SmartCandle where
  high : Int
  low : Int
  buyVolume : List (Int × Int)
  sellVolume : List (Int × Int)
  bba : Bba
  ts : Int
  deriving DecidableEq, Repr

/-- bba_update.rs:61-70 `validate_market_update` -/
def Bba.validate (pf : PriceFilter) (b : Bba) : Res (Except FilterError Unit) :=
  checks [enforceMinPrice pf.minPrice b.bid, enforceMinPrice pf.minPrice b.ask,
    enforceMaxPrice pf.maxPrice b.bid, enforceMaxPrice pf.maxPrice b.ask,
    enforceStepSize pf.tickSize b.bid, enforceStepSize pf.tickSize b.ask,
    enforceBidAskSpread b.bid b.ask]

/-- trade_update.rs:75-80 `validate_market_update` -/
def Trade.validate (pf : PriceFilter) (t : Trade) : Res (Except FilterError Unit) :=
  checks [enforceMinPrice pf.minPrice t.price, enforceMaxPrice pf.maxPrice t.price,
    enforceStepSize pf.tickSize t.price]

/-- candle_update.rs:73-89 `validate_market_update` -/
def Candle.validate (pf : PriceFilter) (c : Candle) : Res (Except FilterError Unit) :=
  checks [enforceMinPrice pf.minPrice c.bid, enforceMinPrice pf.minPrice c.ask,
    enforceMinPrice pf.minPrice c.low, enforceMinPrice pf.minPrice c.high,
    enforceMaxPrice pf.maxPrice c.bid, enforceMaxPrice pf.maxPrice c.ask,
    enforceMaxPrice pf.maxPrice c.low, enforceMaxPrice pf.maxPrice c.high,
    enforceStepSize pf.tickSize c.bid, enforceStepSize pf.tickSize c.ask,
    enforceStepSize pf.tickSize c.low, enforceStepSize pf.tickSize c.high,
    enforceBidAskSpread c.bid c.ask, enforceBidAskSpread c.low c.high]

/-- smart_candle.rs:47-49, `any` short-circuits -/
def anyTradeValid (pf : PriceFilter) : List Trade → Res Bool
  | [] => .ok false
  | t :: ts => do
    match ← t.validate pf with
    | .ok () => .ok true
    | .error _ => anyTradeValid pf ts

/-- smart_candle.rs:47-49, evaluated only in debug builds -/
def debugAnyValid (debug : Bool) (pf : PriceFilter) (ts : List Trade) : Res Bool :=
  if debug = true then anyTradeValid pf ts else .ok true

/-- smart_candle.rs:66-71 -/
def lowHigh (lo hi : Int) : List Trade → Int × Int
  | [] => (lo, hi)
  | t :: ts => lowHigh (if t.price < lo then t.price else lo)
      (if t.price > hi then t.price else hi) ts

/-- smart_candle.rs:84-91 and 99-106: cumulative volume per price level, the input sorted -/
def aggregateLoop (last sum : Int) : List (Int × Int) → List (Int × Int)
  | [] => [(last, sum)]
  | (price, q) :: rest =>
    if price ≠ last then (last, sum) :: aggregateLoop price (sum + q) rest
    else aggregateLoop last (sum + q) rest

/-- smart_candle.rs:79-92 and 94-107 -/
def aggregate : List (Int × Int) → List (Int × Int)
  | [] => []
  | (price, q) :: rest => aggregateLoop price 0 ((price, q) :: rest)

/-- (price, quantity) of the trades of one side, smart_candle.rs:62-65 -/
def tradesOf (side : Side) (ts : List Trade) : List (Int × Int) :=
  (ts.filter (fun t => t.side == side)).map (fun t => (t.price, t.qty))

/-- smart_candle.rs:40-117 `SmartCandle::new` -/
def SmartCandle.new (debug : Bool) (trades : List Trade) (bba : Bba) (pf : PriceFilter) :
    Res SmartCandle := do
  match trades with
  | [] => .error .smartEmpty
  | t0 :: rest => do
    let anyOk ← debugAnyValid debug pf (t0 :: rest)
    assertP (anyOk = true) .smartNoValidTrade
    match ← bba.validate pf with
    | .error _ => .error .smartBba
    | .ok () => do
      debugP debug (∀ t ∈ t0 :: rest, t.qty > 0) .smartTradeQty
      let lh := lowHigh t0.price t0.price (t0 :: rest)
      let buys := sortBy (fun x => -x.1) (tradesOf .buy (t0 :: rest))
      let sells := sortBy (fun x => x.1) (tradesOf .sell (t0 :: rest))
      .ok { high := lh.2, low := lh.1, buyVolume := aggregate buys,
            sellVolume := aggregate sells, bba,
            ts := ((t0 :: rest).getLast (by simp)).ts }

/-- A market update of the user's own type: the trait `MarketUpdate`
(market_update/market_update_trait.rs:9-31) is public. The answers of its functions are data:
`validate_market_update` accepts or not (`valid`), `update_market_state` leaves the market state as
it is or puts another one in its place, of which bid, ask and step remain (`market`; the setters of
`MarketState` are private, but it implements `Default` and `Clone`), and `limit_order_filled`
answers `fills` at the id of the order. Each order is asked about once per update, so that the
answers may depend on the whole order. Simplification: an implementation that panics, or whose
`timestamp_exchange_ns` changes within one update, is not modelled. -/
structure Custom where
  ts : Int
  canFill : Bool
  valid : Bool
  market : Option (Int × Int × Nat)
  fills : List (Nat × Int)
  deriving DecidableEq, Repr

/-- The types implementing `MarketUpdate` (market_update/market_update_trait.rs:9-31): those of the
library, and any other. -/
inductive Update where
  | bba (b : Bba)
  | trade (t : Trade)
  | candle (c : Candle)
  | smart (c : SmartCandle)
  | custom (k : Custom)
  deriving DecidableEq, Repr

/-- `MarketUpdate::CAN_FILL_LIMIT_ORDERS`: bba_update.rs:51, trade_update.rs:48,
candle_update.rs:49, smart_candle.rs:141 -/
def Update.canFill : Update → Bool
  | .bba _ => false
  | .trade _ => true
  | .candle _ => true
  | .smart _ => true
  | .custom k => k.canFill

/-- `MarketUpdate::timestamp_exchange_ns`: bba_update.rs:79, trade_update.rs:86,
candle_update.rs:98, smart_candle.rs:196 -/
def Update.ts : Update → Int
  | .bba b => b.ts
  | .trade t => t.ts
  | .candle c => c.ts
  | .smart c => c.ts
  | .custom k => k.ts

/-- market_update/market_update_trait.rs:24 `validate_market_update` of a user's type. The error is
discarded by the caller (market_state.rs:66), so that any will do. -/
def Custom.validate (k : Custom) : Except FilterError Unit :=
  if k.valid = true then .ok () else .error .priceTooLow

/-- `MarketUpdate::validate_market_update`; smart_candle.rs:180-186 accepts everything. -/
def Update.validate (pf : PriceFilter) : Update → Res (Except FilterError Unit)
  | .bba b => b.validate pf
  | .trade t => t.validate pf
  | .candle c => c.validate pf
  | .smart _ => .ok (.ok ())
  | .custom k => .ok k.validate

/-- `MarketUpdate::update_market_state`: bba_update.rs:73-76, trade_update.rs:83,
candle_update.rs:92-95, smart_candle.rs:190-193 -/
def Update.applyQuotes (m : MarketState) : Update → MarketState
  | .bba b => { m with bid := b.bid, ask := b.ask }
  | .trade _ => m
  | .candle c => { m with bid := c.bid, ask := c.ask }
  | .smart c => { m with bid := c.bba.bid, ask := c.bba.ask }
  | .custom k => match k.market with
    | none => m
    | some x => { m with bid := x.1, ask := x.2.1, step := x.2.2 }

/-- market_state.rs:66, evaluated only in debug builds -/
def debugValidate (debug : Bool) (pf : PriceFilter) (u : Update) :
    Res (Except FilterError Unit) :=
  if debug = true then u.validate pf else .ok (.ok ())

/-- market_state.rs:56-73 `update_state` -/
def MarketState.update (debug : Bool) (pf : PriceFilter) (m : MarketState) (u : Update) :
    Res MarketState := do
  let okU ← debugValidate debug pf u
  match okU with
  | .error _ => .error .invalidUpdate
  | .ok () =>
    let m' := u.applyQuotes m
    .ok { m' with ts := u.ts, step := m'.step + 1 }

/-- trade_update.rs:51-73 `limit_order_filled` -/
def Trade.filled (debug : Bool) (t : Trade) (o : Limit) : Res (Option Int) := do
  debugP debug (t.qty > 0) .tradeQty
  debugP debug (o.remaining > 0) .orderRemaining
  match o.side with
  | .buy =>
    if t.price < o.price ∧ t.side = .sell then .ok (some (umin t.qty o.remaining))
    else .ok none
  | .sell =>
    if t.price > o.price ∧ t.side = .buy then .ok (some (umin t.qty o.remaining))
    else .ok none

/-- candle_update.rs:52-71 `limit_order_filled` -/
def Candle.filled (debug : Bool) (c : Candle) (o : Limit) : Res (Option Int) := do
  debugP debug (o.remaining > 0) .orderRemaining
  match o.side with
  | .buy => if c.low < o.price then .ok (some o.remaining) else .ok none
  | .sell => if c.high > o.price then .ok (some o.remaining) else .ok none

/-- smart_candle.rs:145-177 `limit_order_filled` -/
def SmartCandle.filled (c : SmartCandle) (o : Limit) : Option Int :=
  match o.side with
  | .buy =>
    if c.low ≥ o.price then none
    else (c.sellVolume.reverse.find? (fun v => decide (v.1 < o.price))).map
      (fun v => umin v.2 o.remaining)
  | .sell =>
    if c.high ≤ o.price then none
    else (c.buyVolume.reverse.find? (fun v => decide (v.1 > o.price))).map
      (fun v => umin v.2 o.remaining)

/-- `MarketUpdate::limit_order_filled`: bba_update.rs:54, trade_update.rs:51,
candle_update.rs:52, smart_candle.rs:145. Not called for an update that cannot fill
(exchange.rs:574-576). -/
def Update.filled (debug : Bool) (u : Update) (o : Limit) : Res (Option Int) :=
  match u with
  | .bba _ => .error .bbaUnreachable
  | .trade t => t.filled debug o
  | .candle c => c.filled debug o
  | .smart c => .ok (c.filled o)
  | .custom k => .ok (if k.canFill = true then k.fills.lookup o.id else none)

end Lfest
