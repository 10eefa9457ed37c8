import Verif.Model.Currency

/-!
# Leverage, filters, contract specification and configuration
-/

namespace Lfest

/-- types/leverage.rs:28-36 `Leverage::new(val: u8)`; the result is the raw decimal. -/
def leverageNew (s : Int) (val : Nat) : Except ConfigError Int :=
  if val < 1 then .error .invalidLeverage else .ok (val * s)

/-- types/leverage.rs:40-42 `init_margin_req`. Also reached with `Leverage::default()`, whose
raw value is 0 (derived `Default`, types/leverage.rs:20). -/
def initMarginReq (s lev : Int) : Res Int := ddiv s s lev

/-- order_filters/price_filter.rs:12-38 -/
structure PriceFilter where
  minPrice : Option Int
  maxPrice : Option Int
  tickSize : Int
  multiplierUp : Int
  multiplierDown : Int
  deriving DecidableEq, Repr

/-- order_filters/price_filter.rs:44-52 `default` -/
def PriceFilter.default (s : Int) : PriceFilter :=
  { minPrice := none, maxPrice := none, tickSize := s, multiplierUp := 2 * s,
    multiplierDown := 0 }

/-- order_filters/price_filter.rs:92-96 and quantity_filter.rs:58-62: is the optional
minimum not a multiple of the tick size? (panics on a zero tick size) -/
def minNotMultiple (mn : Option Int) (tick : Int) : Res Bool :=
  match mn with
  | none => .ok false
  | some m => do
    let r ← drem m tick
    .ok (decide (r ≠ 0))

/-- order_filters/price_filter.rs:85-117 `new`. The outer layer is a panic, the inner one
the returned `Result`. -/
def PriceFilter.new (s : Int) (mn mx : Option Int) (tick up down : Int) :
    Res (Except ConfigError PriceFilter) := do
  let bad ← minNotMultiple mn tick
  if bad = true then .ok (.error .invalidMinPrice)
  else if tick = 0 then .ok (.error .invalidTickSize)
  else if up ≤ s then .ok (.error .invalidUpMultiplier)
  else if down ≥ s then .ok (.error .invalidDownMultiplier)
  else .ok (.ok { minPrice := mn, maxPrice := mx, tickSize := tick, multiplierUp := up,
                  multiplierDown := down })

/-- order_filters/price_filter.rs:129-133, order_filters/quantity_filter.rs:83-87: is `x` above
the optional maximum? -/
def aboveMax (mx : Option Int) (x : Int) : Bool :=
  match mx with
  | none => false
  | some m => decide (x > m)

/-- order_filters/price_filter.rs:135-139, order_filters/quantity_filter.rs:89-93: is `x` below
the optional minimum? -/
def belowMin (mn : Option Int) (x : Int) : Bool :=
  match mn with
  | none => false
  | some m => decide (x < m)

/-- order_filters/price_filter.rs:120-156 `validate_limit_price` -/
def PriceFilter.validate (s : Int) (f : PriceFilter) (price mark : Int) :
    Res (Except OrderError Unit) :=
  if price ≤ 0 then .ok (.error .limitPriceBelowMin)
  else if aboveMax f.maxPrice price = true then .ok (.error .limitPriceAboveMax)
  else if belowMin f.minPrice price = true then .ok (.error .limitPriceBelowMin)
  else do
    let r ← drem (price - f.minPrice.getD 0) f.tickSize
    if r ≠ 0 then .ok (.error .invalidOrderPriceStepSize)
    else if price > dmul s mark f.multiplierUp ∧ f.multiplierUp ≠ 0 then
      .ok (.error .limitPriceAboveMultiple)
    else if price < dmul s mark f.multiplierDown ∧ f.multiplierDown ≠ 0 then
      .ok (.error .limitPriceBelowMultiple)
    else .ok (.ok ())

/-- order_filters/price_filter.rs:160-171 `enforce_bid_ask_spread` -/
def enforceBidAskSpread (bid ask : Int) : Res (Except FilterError Unit) :=
  if bid ≥ ask then .ok (.error .bidAskSpread) else .ok (.ok ())

/-- order_filters/price_filter.rs:175-188 `enforce_min_price` -/
def enforceMinPrice (mn : Option Int) (price : Int) : Res (Except FilterError Unit) :=
  match mn with
  | none => .ok (.ok ())
  | some m => if price < m ∧ m ≠ 0 then .ok (.error .priceTooLow) else .ok (.ok ())

/-- order_filters/price_filter.rs:192-205 `enforce_max_price` -/
def enforceMaxPrice (mx : Option Int) (price : Int) : Res (Except FilterError Unit) :=
  match mx with
  | none => .ok (.ok ())
  | some m => if price > m ∧ m ≠ 0 then .ok (.error .priceTooHigh) else .ok (.ok ())

/-- order_filters/price_filter.rs:208-222 `enforce_step_size` -/
def enforceStepSize (step price : Int) : Res (Except FilterError Unit) := do
  let r ← drem price step
  if r ≠ 0 then .ok (.error (.priceStepSize price step)) else .ok (.ok ())

/-- sequencing of checks with `?`, e.g. market_update/bba_update.rs:62-69 -/
def checks : List (Res (Except FilterError Unit)) → Res (Except FilterError Unit)
  | [] => .ok (.ok ())
  | c :: cs => do
    let r ← c
    match r with
    | .error err => .ok (.error err)
    | .ok () => checks cs

/-- order_filters/quantity_filter.rs:10-29 -/
structure QuantityFilter where
  minQuantity : Option Int
  maxQuantity : Option Int
  tickSize : Int
  deriving DecidableEq, Repr

/-- order_filters/quantity_filter.rs:36-43 `default` -/
def QuantityFilter.default (s : Int) : QuantityFilter :=
  { minQuantity := none, maxQuantity := none, tickSize := s }

/-- order_filters/quantity_filter.rs:53-73 `new` -/
def QuantityFilter.new (mn mx : Option Int) (tick : Int) :
    Res (Except ConfigError QuantityFilter) := do
  let bad ← minNotMultiple mn tick
  if bad = true then .ok (.error .invalidMinQuantity)
  else if tick = 0 then .ok (.error .invalidTickSize)
  else .ok (.ok { minQuantity := mn, maxQuantity := mx, tickSize := tick })

/-- order_filters/quantity_filter.rs:75-102 `validate_order_quantity` -/
def QuantityFilter.validate (f : QuantityFilter) (q : Int) : Res (Except OrderError Unit) :=
  if q = 0 then .ok (.error .quantityTooLow)
  else if aboveMax f.maxQuantity q = true then .ok (.error .quantityTooHigh)
  else if belowMin f.minQuantity q = true then .ok (.error .quantityTooLow)
  else do
    let r ← drem (q - f.minQuantity.getD 0) f.tickSize
    if r ≠ 0 then .ok (.error .invalidQuantityStepSize) else .ok (.ok ())

/-- contract_specification.rs:14-56 (`ticker` and `mark_method` are not used by the modelled
code and omitted) -/
structure ContractSpec where
  initMarginReq : Int
  maintenanceMargin : Int
  priceFilter : PriceFilter
  quantityFilter : QuantityFilter
  feeMaker : Int
  feeTaker : Int
  deriving DecidableEq, Repr

/-- contract_specification.rs:74-98 `new` -/
def ContractSpec.new (s lev mmFraction : Int) (pf : PriceFilter) (qf : QuantityFilter)
    (maker taker : Int) : Res (Except ConfigError ContractSpec) :=
  if mmFraction > s ∨ mmFraction ≤ 0 then .ok (.error .invalidMaintenanceMarginFraction)
  else do
    let imr ← Lfest.initMarginReq s lev
    .ok (.ok { initMarginReq := imr, maintenanceMargin := dmul s imr mmFraction,
               priceFilter := pf, quantityFilter := qf, feeMaker := maker,
               feeTaker := taker })

/-- config.rs:15-41, together with the compile time parameters -/
structure Cfg where
  env : Env
  start : Int
  maxOpen : Nat
  spec : ContractSpec
  sampleSecs : Nat
  deriving DecidableEq, Repr

/-- config.rs:61-80 `new` -/
def Cfg.new (env : Env) (start : Int) (maxOpen : Nat) (spec : ContractSpec)
    (sampleSecs : Nat) : Except ConfigError Cfg :=
  if maxOpen = 0 then .error .invalidMaxNumOpenOrders
  else if start ≤ 0 then .error .invalidStartingBalance
  else .ok { env, start, maxOpen, spec, sampleSecs }

/-- The scale `10^D`, the raw value of `Decimal::one()` (order_filters/price_filter.rs:102). -/
def Cfg.scale (c : Cfg) : Int := c.env.scale

end Lfest
