import Verif.Model.Exchange

/-!
# The exchange on bounded integers

The rest of the model computes on unbounded `Int`s. This file is the same program on a signed
integer type `I` whose values are `-w … w`: every result of an addition, subtraction,
multiplication or division is checked, and the run ends with `Panic.overflow` at the first one that
does not fit. (A debug build panics there; a release build wraps around. The value `-w - 1` of a
two's complement type is treated as an overflow, so negation never overflows.) Functions that do no
arithmetic are shared with the unbounded model. Timestamps, order ids and counters are not of type
`I` and stay unbounded.
-/

namespace Lfest.Mach

variable (w : Int)

/-- A result of type `I` (any arithmetic operator, e.g. accounting/account.rs:38). -/
def chk (x : Int) : Res Int := if -w ≤ x ∧ x ≤ w then .ok x else .error .overflow

/-- `Decimal` multiplication on a widened integer, narrowed to `I` (base_currency.rs:211). -/
def dmul (s a b : Int) : Res Int := chk w (Lfest.dmul s a b)

/-- `Decimal` division on a widened integer, narrowed to `I` (base_currency.rs:223). -/
def ddiv (s a b : Int) : Res Int := do
  let x ← Lfest.ddiv s a b
  chk w x

/-- quote_currency.rs:102-104, base_currency.rs:86-88 `convert_from` -/
def convert (e : Env) (units price : Int) : Res Int :=
  match e.kind with
  | .linear => dmul w e.scale units price
  | .inverse => ddiv w e.scale units price

/-- quote_currency.rs:117-127, base_currency.rs:100-110 `pnl` -/
def pnl (e : Env) (entry exit qty : Int) : Res Int :=
  if qty = 0 then .ok 0
  else match e.kind with
    | .linear => do
      let a ← convert w e qty exit
      let b ← convert w e qty entry
      chk w (a - b)
    | .inverse => do
      let a ← convert w e qty entry
      let b ← convert w e qty exit
      chk w (a - b)

/-- quote_currency.rs:51-53 -/
def liquidationPriceLong (s entry mm : Int) : Res Int := do
  let r ← chk w (s - mm)
  dmul w s entry r

/-- quote_currency.rs:56-58 -/
def liquidationPriceShort (s entry mm : Int) : Res Int := do
  let r ← chk w (s + mm)
  dmul w s entry r

/-- quote_currency.rs:60-68 `new_weighted_price` -/
def newWeightedPrice (s p0 w0 p1 w1 : Int) : Res Int := do
  let total ← chk w (w0 + w1)
  let x ← dmul w s p0 w0
  let y ← dmul w s p1 w1
  let z ← chk w (x + y)
  ddiv w s z total

/-! ## Orders and filters -/

/-- types/limit_order.rs:278-291 `total_quantity` -/
def totalQuantity (o : Limit) : Res Int := do
  let q ← match o.fq with
    | .unfilled => .ok o.remaining
    | .filled c _ => chk w (o.remaining + c)
  assertP (q > 0) .totalQuantity
  .ok q

/-- types/limit_order.rs:194-264 `fill` -/
def fill (s : Int) (o : Limit) (q ts : Int) : Res (Limit × Option FilledLimit) := do
  assertP (q ≤ o.remaining) .fillTooLarge
  assertP (q > 0) .fillNotPositive
  let rest ← chk w (o.remaining - q)
  match o.fq with
  | .unfilled =>
    let o' : Limit := { o with fq := .filled q o.price, remaining := rest }
    if q = o.remaining then
      .ok (o', some { uid := o.uid, side := o.side, price := o.price, remaining := 0,
                      id := o.id, ts := o.ts, tsExecuted := ts, avgFillPrice := o.price,
                      filledQty := q })
    else .ok (o', none)
  | .filled c avg => do
    let avg' ← newWeightedPrice w s avg c o.price q
    let sum ← chk w (c + q)
    let o' : Limit := { o with fq := .filled sum avg', remaining := rest }
    if o'.remaining = 0 then
      .ok (o', some { uid := o.uid, side := o.side, price := o.price, remaining := 0,
                      id := o.id, ts := o.ts, tsExecuted := ts, avgFillPrice := o.price,
                      filledQty := sum })
    else .ok (o', none)

/-- order_filters/price_filter.rs:120-156 `validate_limit_price` -/
def validatePrice (s : Int) (f : PriceFilter) (price mark : Int) : Res (Except OrderError Unit) :=
  if price ≤ 0 then .ok (.error .limitPriceBelowMin)
  else if aboveMax f.maxPrice price = true then .ok (.error .limitPriceAboveMax)
  else if belowMin f.minPrice price = true then .ok (.error .limitPriceBelowMin)
  else do
    let d ← chk w (price - f.minPrice.getD 0)
    let r ← drem d f.tickSize
    if r ≠ 0 then .ok (.error .invalidOrderPriceStepSize)
    else do
      let up ← dmul w s mark f.multiplierUp
      if price > up ∧ f.multiplierUp ≠ 0 then .ok (.error .limitPriceAboveMultiple)
      else do
        let down ← dmul w s mark f.multiplierDown
        if price < down ∧ f.multiplierDown ≠ 0 then .ok (.error .limitPriceBelowMultiple)
        else .ok (.ok ())

/-- order_filters/quantity_filter.rs:75-102 `validate_order_quantity` -/
def validateQty (f : QuantityFilter) (q : Int) : Res (Except OrderError Unit) :=
  if q = 0 then .ok (.error .quantityTooLow)
  else if aboveMax f.maxQuantity q = true then .ok (.error .quantityTooHigh)
  else if belowMin f.minQuantity q = true then .ok (.error .quantityTooLow)
  else do
    let d ← chk w (q - f.minQuantity.getD 0)
    let r ← drem d f.tickSize
    if r ≠ 0 then .ok (.error .invalidQuantityStepSize) else .ok (.ok ())

/-! ## Accounts -/

/-- accounting/account.rs:47-49 and in_memory_accounting.rs:96-101 `margin_balance_of` -/
def balance (a : Accounts) (i : AccountId) : Res Int := chk w (a.balance i)

/-- accounting/utils.rs:16-20: a running sum -/
def sum (acc : Int) : List Int → Res Int
  | [] => .ok acc
  | x :: xs => do
    let y ← chk w (acc + x)
    sum y xs

/-- accounting/utils.rs:13-24 `debug_assert_accounting_equation` -/
def debugEquation (debug : Bool) (a : Accounts) : Res Unit :=
  if debug = true then do
    let d ← sum w 0 [a.wallet.debits, a.orderMargin.debits, a.positionMargin.debits,
      a.exchangeFee.debits, a.broker.debits, a.treasury.debits]
    let c ← sum w 0 [a.wallet.credits, a.orderMargin.credits, a.positionMargin.credits,
      a.exchangeFee.credits, a.broker.credits, a.treasury.credits]
    assertP (d = c) .accountingEquation
  else .ok ()

/-- accounting/transaction.rs:59-78, accounting/in_memory_accounting.rs:69-93 and
accounting/account.rs:37-44 -/
def transfer (e : Env) (a : Accounts) (debit credit : AccountId) (amount : Int) :
    Res Accounts := do
  assertP (amount > 0) .txnAmount
  assertP (debit ≠ credit) .txnAccounts
  let da := a.get debit
  let ca := a.get credit
  let d ← chk w (da.debits + amount)
  let k ← chk w (ca.credits + amount)
  let a1 := a.set { ca with credits := k } credit
  let a2 := a1.set { da with debits := d } debit
  debugEquation w e.debug a2
  .ok a2

/-! ## Positions -/

/-- position_inner.rs:74-101 `PositionInner::new` -/
def new (e : Env) (imr : Int) (a : Accounts) (qty price fees : Int) : Res (Inner × Accounts) := do
  assertP (qty > 0) .newQty
  assertP (price > 0) .newPrice
  let v ← convert w e qty price
  let margin ← dmul w e.scale v imr
  let a' ← transfer w e a .positionMargin .wallet margin
  .ok ({ qty, entry := price, fees }, a')

/-- position_inner.rs:120-155 `increase_contracts` -/
def increase (e : Env) (imr : Int) (a : Accounts) (p : Inner) (qty price fees : Int) :
    Res (Inner × Accounts) := do
  assertP (qty > 0) .increaseQty
  assertP (price > 0) .increasePrice
  let v ← convert w e qty price
  let entry ← newWeightedPrice w e.scale p.entry p.qty price qty
  let margin ← dmul w e.scale v imr
  let a' ← transfer w e a .positionMargin .wallet margin
  let q ← chk w (p.qty + qty)
  let f ← chk w (p.fees + fees)
  .ok ({ qty := q, entry, fees := f }, a')

/-- position_inner.rs:189-204 -/
def settlePnl (e : Env) (a : Accounts) (v : Int) : Res Accounts :=
  if v > 0 then transfer w e a .wallet .treasury v
  else if v < 0 then transfer w e a .treasury .wallet (-v)
  else .ok a

/-- position_inner.rs:217-227 -/
def settleFees (e : Env) (a : Accounts) (fees : Int) : Res (Int × Accounts) :=
  if fees > 0 then do
    let a' ← transfer w e a .exchangeFee .wallet fees
    .ok (0, a')
  else .ok (fees, a)

/-- position_inner.rs:158-228 `decrease_contracts` -/
def decrease (e : Env) (imr : Int) (a : Accounts) (p : Inner) (qty price : Int)
    (dir : Int) (fees : Int) : Res (Inner × Accounts) := do
  assertP (qty > 0) .decreaseQty
  assertP (qty ≤ p.qty) .decreaseTooMuch
  let q ← chk w (p.qty - qty)
  debugP e.debug (q ≥ 0) .decreaseNegative
  let f ← chk w (p.fees + fees)
  let v ← pnl w e p.entry price (if dir = 1 then qty else -qty)
  let a1 ← settlePnl w e a v
  let c ← convert w e qty p.entry
  let free ← dmul w e.scale c imr
  debugP e.debug (free > 0) .marginToFree
  let a2 ← transfer w e a1 .wallet .positionMargin free
  let (fees', a3) ← settleFees w e a2 f
  .ok ({ qty := q, entry := p.entry, fees := fees' }, a3)

/-- position.rs:102, 160, 216: `debug_assert_eq!(margin balance, 0)` -/
def debugNoMargin (debug : Bool) (a : Accounts) (p : Panic) : Res Unit :=
  if debug = true then do
    let b ← balance w a .positionMargin
    assertP (b = 0) p
  else .ok ()

/-- position.rs:165-190 and 221-246: close the position and open one on the other side -/
def flip (e : Env) (imr : Int) (a : Accounts) (p : Inner) (qty price dir fees : Int) :
    Res (Inner × Accounts) := do
  let newQty ← chk w (qty - p.qty)
  let (p', a') ← decrease w e imr a p p.qty price dir fees
  assertP (p'.qty = 0) .flipQty
  let b ← balance w a' .positionMargin
  assertP (b = 0) .flipMargin
  new w e imr a' newQty price 0

/-- position.rs:85-260 `change_position` -/
def changePosition (e : Env) (imr : Int) (a : Accounts) (pos : Position)
    (qty price : Int) (side : Side) (fees : Int) : Res (Position × Accounts) := do
  debugP e.debug (qty > 0) .changeQty
  match pos with
  | .neutral => do
    debugNoMargin w e.debug a .neutralMargin
    match side with
    | .buy => do
      let (p, a') ← new w e imr a qty price fees
      .ok (.long p, a')
    | .sell => do
      let (p, a') ← new w e imr a qty price fees
      .ok (.short p, a')
  | .long p =>
    match side with
    | .buy => do
      let (p', a') ← increase w e imr a p qty price fees
      .ok (.long p', a')
    | .sell =>
      if qty < p.qty then do
        let (p', a') ← decrease w e imr a p qty price 1 fees
        .ok (.long p', a')
      else if qty = p.qty then do
        let (_, a') ← decrease w e imr a p qty price 1 fees
        debugNoMargin w e.debug a' .closedMargin
        .ok (.neutral, a')
      else do
        let (q, a') ← flip w e imr a p qty price 1 fees
        .ok (.short q, a')
  | .short p =>
    match side with
    | .buy =>
      if qty < p.qty then do
        let (p', a') ← decrease w e imr a p qty price (-1) fees
        .ok (.short p', a')
      else if qty = p.qty then do
        let (_, a') ← decrease w e imr a p qty price (-1) fees
        debugNoMargin w e.debug a' .closedMargin
        .ok (.neutral, a')
      else do
        let (q, a') ← flip w e imr a p qty price (-1) fees
        .ok (.long q, a')
    | .sell => do
      let (p', a') ← increase w e imr a p qty price fees
      .ok (.short p', a')

/-! ## Order margin -/

/-- order_margin.rs:128-139 and 142-153 -/
def offsetOrders (pos : Int) : List (Int × Int) → Res (List (Int × Int))
  | [] => .ok []
  | (price, q) :: rest =>
    if pos > 0 then do
      let d ← chk w (q - pos)
      let pos' ← chk w (pos - umin q pos)
      let rest' ← offsetOrders pos' rest
      .ok ((price, umax d 0) :: rest')
    else .ok ((price, q) :: rest)

/-- order_margin.rs:157-165 -/
def sumValue (e : Env) (acc : Int) : List (Int × Int) → Res Int
  | [] => .ok acc
  | (price, q) :: rest => do
    let v ← convert w e q price
    let acc' ← chk w (acc + v)
    sumValue e acc' rest

/-- order_margin.rs:125-154: the orders of each side after the position has offset them -/
def offsetBuys (pos : Position) (buys : List (Int × Int)) : Res (List (Int × Int)) :=
  match pos with
  | .short p => offsetOrders w p.qty buys
  | _ => .ok buys

/-- order_margin.rs:125-154 -/
def offsetSells (pos : Position) (sells : List (Int × Int)) : Res (List (Int × Int)) :=
  match pos with
  | .long p => offsetOrders w p.qty sells
  | _ => .ok sells

/-- order_margin.rs:88-168 `order_margin_internal` -/
def orderMarginInternal (e : Env) (imr : Int) (b : Book) (pos : Position)
    (new : Option Limit) : Res Int := do
  debugP e.debug (imr ≤ e.scale) .imrAboveOne
  let buys ← offsetBuys w pos (sortBy (fun x => -x.1) (sideOrders .buy b new))
  let sells ← offsetSells w pos (sortBy (fun x => x.1) (sideOrders .sell b new))
  let bv ← sumValue w e 0 buys
  let sv ← sumValue w e 0 sells
  dmul w e.scale (umax bv sv) imr

/-- order_margin.rs:79-85 `order_margin` -/
def orderMargin (e : Env) (imr : Int) (b : Book) (pos : Position) : Res Int :=
  orderMarginInternal w e imr b pos none

/-- order_margin.rs:171-183 `order_margin_with_order` -/
def orderMarginWithOrder (e : Env) (imr : Int) (b : Book) (pos : Position) (o : Limit) :
    Res Int :=
  orderMarginInternal w e imr b pos (some o)

/-! ## Risk engine -/

/-- isolated_margin.rs:138-145 and 186-193 -/
def checkFunds (c : Cfg) (qty price funds : Int) : Res (Except RiskError Unit) := do
  let v ← convert w c.env qty price
  let margin ← dmul w c.scale v c.spec.initMarginReq
  let fee ← dmul w c.scale v c.spec.feeTaker
  let need ← chk w (margin + fee)
  if need > funds then .ok (.error .notEnoughAvailableBalance) else .ok (.ok ())

/-- isolated_margin.rs:150-165 and 198-213: an order that turns the position around -/
def checkFlip (c : Cfg) (p : Inner) (posMargin qty price wallet : Int) :
    Res (Except RiskError Unit) :=
  if qty ≤ p.qty then .ok (.ok ())
  else do
    let q ← chk w (qty - p.qty)
    let funds ← chk w (wallet + posMargin)
    checkFunds w c q price funds

/-- isolated_margin.rs:39-63, 122-169, 171-217 `check_market_order` -/
def checkMarketOrder (c : Cfg) (pos : Position) (posMargin : Int) (side : Side)
    (qty price wallet : Int) : Res (Except RiskError Unit) :=
  match side, pos with
  | .buy, .short p => checkFlip w c p posMargin qty price wallet
  | .sell, .long p => checkFlip w c p posMargin qty price wallet
  | _, _ => checkFunds w c qty price wallet

/-- isolated_margin.rs:65-86 `check_limit_order` -/
def checkLimitOrder (c : Cfg) (pos : Position) (o : Limit) (wallet : Int) (om : Book) :
    Res (Except RiskError Unit) := do
  let m ← orderMargin w c.env c.spec.initMarginReq om pos
  let m' ← orderMarginWithOrder w c.env c.spec.initMarginReq om pos o
  let funds ← chk w (wallet + m)
  if m' > funds then .ok (.error .notEnoughAvailableBalance) else .ok (.ok ())

/-- isolated_margin.rs:88-114 `check_maintenance_margin` -/
def checkMaintenanceMargin (c : Cfg) (ms : MarketState) (pos : Position) :
    Res (Except RiskError Unit) :=
  match pos with
  | .neutral => .ok (.ok ())
  | .long p => do
    let x ← liquidationPriceLong w c.scale p.entry c.spec.maintenanceMargin
    if ms.bid < x then .ok (.error .liquidate) else .ok (.ok ())
  | .short p => do
    let x ← liquidationPriceShort w c.scale p.entry c.spec.maintenanceMargin
    if ms.ask > x then .ok (.error .liquidate) else .ok (.ok ())

/-! ## Market updates -/

/-- market_state.rs:77-79 `mid_price` -/
def mid (s : Int) (m : MarketState) : Res Int := do
  let x ← chk w (m.bid + m.ask)
  chk w ((x * s).tdiv (2 * s))

/-- smart_candle.rs:84-91 and 99-106 -/
def aggregateLoop (last sum : Int) : List (Int × Int) → Res (List (Int × Int))
  | [] => .ok [(last, sum)]
  | (price, q) :: rest => do
    let sum' ← chk w (sum + q)
    if price ≠ last then do
      let r ← aggregateLoop price sum' rest
      .ok ((last, sum) :: r)
    else aggregateLoop last sum' rest

/-- smart_candle.rs:79-92 and 94-107 -/
def aggregate : List (Int × Int) → Res (List (Int × Int))
  | [] => .ok []
  | (price, q) :: rest => aggregateLoop w price 0 ((price, q) :: rest)

/-- smart_candle.rs:40-117 `SmartCandle::new` -/
def smartNew (debug : Bool) (trades : List Trade) (bba : Bba) (pf : PriceFilter) :
    Res SmartCandle := do
  match trades with
  | [] => .error .smartEmpty
  | t0 :: rest => do
    let anyOk ← debugAnyValid debug pf (t0 :: rest)
    assertP (anyOk = true) .smartNoValidTrade
    match ← bba.validate pf with
    | .error _ => .error .smartBba
    | .ok () => do
      debugP debug (∀ t ∈ t0 :: rest, t.qty > 0) .smartTradeQty
      let lh := lowHigh t0.price t0.price (t0 :: rest)
      let buys ← aggregate w (sortBy (fun x => -x.1) (tradesOf .buy (t0 :: rest)))
      let sells ← aggregate w (sortBy (fun x => x.1) (tradesOf .sell (t0 :: rest)))
      .ok { high := lh.2, low := lh.1, buyVolume := buys, sellVolume := sells, bba,
            ts := ((t0 :: rest).getLast (by simp)).ts }

/-! ## The exchange -/

/-- exchange.rs:279-302 `settle_filled_market_order` -/
def settleMarket (c : Cfg) (s : State) (o : FilledMarket) : Res State := do
  assertP (o.qty > 0) .settleQty
  assertP (o.avgFillPrice > 0) .settlePrice
  let value ← convert w c.env o.qty o.avgFillPrice
  let fees ← dmul w c.scale value c.spec.feeTaker
  let (pos', acct') ←
    changePosition w c.env c.spec.initMarginReq s.acct s.pos o.qty o.avgFillPrice o.side fees
  .ok { s with pos := pos', acct := acct',
               log := .trade o.side o.avgFillPrice o.qty :: .marketFill :: s.log }

/-- exchange.rs:237-277 `submit_market_order` -/
def submitMarket (c : Cfg) (s : State) (o : NewMarket) :
    Res (State × Except Error FilledMarket) := do
  let s1 := { s with log := .marketSubmit o :: s.log }
  match ← validateQty w c.spec.quantityFilter o.qty with
  | .error err => .ok (s1, .error (.order err))
  | .ok () => do
    let id := s1.nextId
    let s2 := { s1 with nextId := s1.nextId + 1 }
    let price := touch s2.ms o.side
    let pm ← balance w s2.acct .positionMargin
    let wallet ← balance w s2.acct .wallet
    match ← checkMarketOrder w c s2.pos pm o.side o.qty price wallet with
    | .error err => .ok (s2, .error (.risk err))
    | .ok () => do
      let filled := o.intoFilled id s2.ms.ts price s2.ms.ts
      let s3 ← settleMarket w c s2 filled
      .ok (s3, .ok filled)

/-- exchange.rs:467-473, 537-543: no order margin without orders -/
def emptyCheck (active : Book) (a : Accounts) : Res Unit :=
  if active = [] then do
    let b ← balance w a .orderMargin
    assertP (b = 0) .emptyButMargin
  else .ok ()

/-- utils.rs:44-55 `assert_user_wallet_balance` -/
def walletCheck (a : Accounts) : Res Unit := do
  let b ← balance w a .wallet
  assertP (b ≥ 0) .walletNegative

/-- exchange.rs:465-477 -/
def appendChecks (s : State) : Res State := do
  assertP (s.om = s.active) .booksDiffer
  emptyCheck w s.active s.acct
  walletCheck w s.acct
  .ok s

/-- exchange.rs:426-480 `append_limit_order` -/
def appendLimit (c : Cfg) (s : State) (o : Limit) : Res (State × Except Error Unit) := do
  match ← omUpdate c.maxOpen s.om o with
  | .error err => .ok (s, .error err)
  | .ok om' =>
    let s1 := { s with om := om' }
    match Book.insert activeCap s1.active o with
    | .error err => .ok (s1, .error err)
    | .ok (active', _) => do
      let s2 := { s1 with active := active' }
      let newMargin ← orderMargin w c.env c.spec.initMarginReq s2.om s2.pos
      let margin ← balance w s2.acct .orderMargin
      if newMargin > margin then do
        let d ← chk w (newMargin - margin)
        let a ← transfer w c.env s2.acct .orderMargin .wallet d
        let s3 ← appendChecks w { s2 with acct := a }
        .ok (s3, .ok ())
      else if newMargin < margin then do
        let d ← chk w (margin - newMargin)
        let a ← transfer w c.env s2.acct .orderMargin .wallet d
        let s3 ← appendChecks w { s2 with acct := a }
        .ok (s3, .ok ())
      else .ok (s2, .ok ())

/-- exchange.rs:317-374 `submit_limit_order` -/
def submitLimit (c : Cfg) (s : State) (o : NewLimit) :
    Res (State × Except Error Limit) := do
  let s1 := { s with log := .limitSubmit o :: s.log }
  match ← validateQty w c.spec.quantityFilter o.qty with
  | .error err => .ok (s1, .error (.order err))
  | .ok () => do
    let mark ← mid w c.scale s1.ms
    match ← validatePrice w c.scale c.spec.priceFilter o.price mark with
    | .error err => .ok (s1, .error (.order err))
    | .ok () => do
      let s2 := { s1 with nextId := s1.nextId + 1 }
      let p := o.intoPending s1.nextId s2.ms.ts
      let wallet ← balance w s2.acct .wallet
      match ← checkLimitOrder w c s2.pos p wallet s2.om with
      | .error err => .ok (s2, .error (.risk err))
      | .ok () =>
        if marketable s2.ms p.side p.price = true then
          .ok (s2, .error (.order (.goodTillCrossingRejected p.price (touch s2.ms p.side))))
        else do
          match ← appendLimit w c s2 p with
          | (s3, .error err) => .ok (s3, .error err)
          | (s3, .ok ()) => .ok (s3, .ok p)

/-- exchange.rs:524-531 and 649-656 -/
def refund (e : Env) (a : Accounts) (margin newMargin : Int) : Res Accounts :=
  if newMargin < margin then do
    let d ← chk w (margin - newMargin)
    transfer w e a .wallet .orderMargin d
  else .ok a

/-- exchange.rs:484-549 `cancel_limit_order` -/
def cancelLimit (c : Cfg) (s : State) (by_ : CancelBy) :
    Res (State × Except Error Limit) := do
  let margin ← balance w s.acct .orderMargin
  let computed ← orderMargin w c.env c.spec.initMarginReq s.om s.pos
  assertP (margin = computed) .cancelMarginMismatch
  match s.active.removeCancel by_ with
  | none => .ok (s, .error (cancelError s by_))
  | some (removed, active') => do
    let om' ← omRemove s.om by_
    let newMargin ← orderMargin w c.env c.spec.initMarginReq om' s.pos
    assertP (newMargin ≤ margin) .cancelMarginIncrease
    let a ← refund w c.env s.acct margin newMargin
    assertP (om' = active') .booksDiffer
    emptyCheck w active' a
    .ok ({ s with active := active', om := om', acct := a, log := .limitCancel :: s.log },
      .ok removed)

/-- exchange.rs:382-420 `amend_limit_order` -/
def amendLimit (c : Cfg) (s : State) (id : Nat) (new : NewLimit) :
    Res (State × Except Error Limit) := do
  match s.active.getById id with
  | none => .ok (s, .error (missingOrder s id))
  | some old => do
    let total ← totalQuantity w old
    let delta ← chk w (new.totalQuantity - total)
    let leaves ← chk w (old.remaining + delta)
    if leaves ≤ 0 then do
      match ← cancelLimit w c s (.orderId id) with
      | (_, .error _) => .error .amendCancel
      | (s', .ok _) => .ok (s', .error .amendQtyAlreadyFilled)
    else do
      let new' ← new.setRemaining leaves
      match ← cancelLimit w c s (.orderId id) with
      | (s', .error err) => .ok (s', .error err)
      | (s', .ok _) => submitLimit w c s' new'

/-- exchange.rs:600-606 and 680-688 -/
def debugMarginEq (c : Cfg) (a : Accounts) (om : Book) (pos : Position) (p : Panic) :
    Res Unit :=
  if c.env.debug = true then do
    let m ← orderMargin w c.env c.spec.initMarginReq om pos
    let b ← balance w a .orderMargin
    assertP (b = m) p
  else .ok ()

/-- exchange.rs:608-624 -/
def applyFill (c : Cfg) (ts : Int) (l : Loop) (o : Limit) (q : Int) : Res (Loop × Limit) := do
  match ← fill w c.scale o q ts with
  | (o', some f) => do
    let om' ← omRemove l.om (.orderId o'.id)
    .ok ({ l with ids := l.ids ++ [o'.id], log := .limitFill true q :: l.log, om := om',
                  updates := l.updates ++ [.fullyFilled f] }, o')
  | (o', none) => do
    debugP c.env.debug (o'.remaining > 0) .matchRemaining
    match ← omUpdate c.maxOpen l.om o' with
    | .error _ => .error .matchUpdate
    | .ok om' =>
      .ok ({ l with log := .limitFill false q :: l.log, om := om',
                    updates := l.updates ++ [.partiallyFilled o'] }, o')

/-- exchange.rs:626-639 -/
def settleLimit (c : Cfg) (l : Loop) (o : Limit) (q : Int) : Res Loop := do
  let value ← convert w c.env q o.price
  let fees ← dmul w c.scale value c.spec.feeMaker
  let (pos', acct') ←
    changePosition w c.env c.spec.initMarginReq l.acct l.pos q o.price o.side fees
  .ok { l with pos := pos', acct := acct', log := .trade o.side o.price q :: l.log }

/-- exchange.rs:640-656 -/
def releaseMargin (c : Cfg) (l : Loop) (margin : Int) : Res Loop := do
  let newMargin ← orderMargin w c.env c.spec.initMarginReq l.om l.pos
  debugP c.env.debug (newMargin ≤ margin) .matchMarginIncrease
  let a ← refund w c.env l.acct margin newMargin
  .ok { l with acct := a }

/-- exchange.rs:583-657 -/
def matchOrder (c : Cfg) (u : Update) (l : Loop) (o : Limit) : Res (Loop × Limit) := do
  match ← u.filled c.env.debug o with
  | none => .ok (l, o)
  | some q => do
    debugP c.env.debug (q > 0) .matchQty
    let margin ← balance w l.acct .orderMargin
    debugMarginEq w c l.acct l.om l.pos .matchMarginMismatch
    let (l1, o') ← applyFill w c u.ts l o q
    let l2 ← settleLimit w c l1 o' q
    let l3 ← releaseMargin w c l2 margin
    .ok (l3, o')

/-- exchange.rs:582-658 -/
def matchLoop (c : Cfg) (u : Update) (l : Loop) : List Limit → Res (Loop × List Limit)
  | [] => .ok (l, [])
  | o :: os => do
    let (l1, o') ← matchOrder w c u l o
    let (l2, os') ← matchLoop c u l1 os
    .ok (l2, o' :: os')

/-- exchange.rs:672-676: the same as `emptyCheck`, in debug builds -/
def debugEmpty (debug : Bool) (active : Book) (a : Accounts) : Res Unit :=
  if debug = true then emptyCheck w active a else .ok ()

/-- exchange.rs:566-690 `check_active_orders` -/
def checkActive (c : Cfg) (s : State) (u : Update) : Res State :=
  if u.canFill = false then .ok { s with updates := [] }
  else do
    debugP c.env.debug (s.om = s.active) .booksDiffer
    let (l, orders) ← matchLoop w c u
      { acct := s.acct, pos := s.pos, om := s.om, log := s.log, updates := [], ids := [] }
      s.active
    let active' ← removeExecuted orders l.ids
    debugP c.env.debug (l.ids.length ≤ c.maxOpen) .idsCapacity
    debugP c.env.debug (l.om = active') .booksDiffer
    debugEmpty w c.env.debug active' l.acct
    debugMarginEq w c l.acct l.om l.pos .finalMarginMismatch
    walletCheck w l.acct
    .ok { s with acct := l.acct, pos := l.pos, om := l.om, log := l.log,
                 updates := l.updates, active := active' }

/-- exchange.rs:213-227 `liquidate` -/
def liquidate (c : Cfg) (s : State) : Res State := do
  let o ← liquidationOrder s.pos
  match ← submitMarket w c s o with
  | (_, .error _) => .error .liquidateSubmit
  | (s', .ok _) => .ok s'

/-- exchange.rs:694-710 `user_balances` -/
def userBalances (a : Accounts) : Res UserBalances := do
  let x ← balance w a .wallet
  let y ← balance w a .positionMargin
  let z ← balance w a .orderMargin
  .ok { wallet := x, positionMargin := y, orderMargin := z }

/-- exchange.rs:190-194: the sample, if one is due -/
def sampleLog (c : Cfg) (fired : Bool) (a : Accounts) (ms : MarketState) (log : List Event) :
    Res (List Event) :=
  if fired = true then do
    let b ← userBalances w a
    let m ← mid w c.scale ms
    .ok (.sample b m :: log)
  else .ok log

/-- exchange.rs:184-194 -/
def observe (c : Cfg) (s : State) (u : Update) : Res State := do
  let ms' ← s.ms.update c.env.debug c.spec.priceFilter u
  let fired := s.trigger.fire u.ts
  let log ← sampleLog w c fired.2 s.acct ms' (.update ms' :: s.log)
  .ok { s with ms := ms', trigger := fired.1, log }

/-- exchange.rs:175-210 `update_state` -/
def updateState (c : Cfg) (s : State) (u : Update) :
    Res (State × Except Error (List LimitUpdate)) := do
  let s1 ← observe w c s u
  match ← checkMaintenanceMargin w c s1.ms s1.pos with
  | .error err => do
    let s2 ← liquidate w c s1
    .ok (s2, .error (.risk err))
  | .ok () => do
    let s2 ← checkActive w c s1 u
    .ok (s2, .ok s2.updates)

/-- market_update/smart_candle.rs:40-117 -/
def build (debug : Bool) : UpdateArg → Res Update
  | .bba b => .ok (.bba b)
  | .trade t => .ok (.trade t)
  | .candle c => .ok (.candle c)
  | .smart ts b pf => do
    let sc ← smartNew w debug ts b pf
    .ok (.smart sc)
  | .custom k => .ok (.custom k)

/-- One API call on bounded integers: exchange.rs:175, 237, 317, 382, 484. -/
def step (c : Cfg) (s : State) : Op → Res (State × Resp)
  | .update a => do
    let u ← build w c.env.debug a
    let (s', r) ← updateState w c s u
    .ok (s', .update r)
  | .checkActive a => do
    let u ← build w c.env.debug a
    let s' ← checkActive w c s u
    .ok (s', .unit)
  | .market side qty uid =>
    match NewMarket.new side qty uid with
    | .error err => .ok (s, .invalidOrder err)
    | .ok o => do
      let (s', r) ← submitMarket w c s o
      .ok (s', .market r)
  | .limit side price qty uid =>
    match NewLimit.new side price qty uid with
    | .error err => .ok (s, .invalidOrder err)
    | .ok o => do
      let (s', r) ← submitLimit w c s o
      .ok (s', .limit r)
  | .amend id side price qty uid =>
    match NewLimit.new side price qty uid with
    | .error err => .ok (s, .invalidOrder err)
    | .ok o => do
      let (s', r) ← amendLimit w c s id o
      .ok (s', .limit r)
  | .cancel by_ => do
    let (s', r) ← cancelLimit w c s by_
    .ok (s', .limit r)

/-- A sequence of API calls on bounded integers (exchange.rs:122). -/
def run (c : Cfg) (s : State) : List Op → Res State
  | [] => .ok s
  | op :: ops => do
    let r ← step w c s op
    run c r.1 ops

end Lfest.Mach
