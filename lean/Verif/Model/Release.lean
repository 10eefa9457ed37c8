import Verif.Model.Machine

/-!
# The exchange with the arithmetic of a release build

`Model/Machine` stops at the first result that does not fit, as a debug build does. A release build
goes on. This file is the same program once more, with the arithmetic left open: `π` says what an
operation on type `I` delivers. Functions that do no arithmetic are shared with the unbounded
model. `-qty` cannot overflow, because `qty` is positive.

Three ways to fill in `π` are defined here: `checked` stops at the first result that does not fit
(a debug build); `lax` does that too, except that the running totals of the accounts are unbounded;
`wrapping` drops the upper bits of sums, differences and negations (a release build). What a release
build does when a product or quotient of `Decimal`s does not fit is decided by the external crate,
so `wrapping` leaves it open.
-/

namespace Lfest.Rel

/-- What the operators of type `I` deliver for a result `x`. -/
structure Arith where
  /-- `+`, `-` and negation (e.g. base_currency.rs:188-206) -/
  add : Int → Res Int
  /-- `*` and `/` of `Decimal`s (base_currency.rs:211, 223) -/
  mul : Int → Res Int
  /-- `+=` on the totals of an account (accounting/account.rs:37-44) -/
  total : Int → Res Int

/-- A debug build with values `-w … w` (accounting/account.rs:38, base_currency.rs:211). -/
def checked (w : Int) : Arith := ⟨Mach.chk w, Mach.chk w, Mach.chk w⟩

/-- Like `checked`, with account totals of any size. No build does this: it serves to say which
results must fit (accounting/account.rs:38). -/
def lax (w : Int) : Arith := ⟨Mach.chk w, Mach.chk w, .ok⟩

/-- The value of type `I` with the same lower bits: `I` has `2 * (w + 1)` values, from `-w - 1` to `w`
(accounting/account.rs:38, built without overflow checks). -/
def wrap (w x : Int) : Int := x.bmod (2 * (w.toNat + 1))

/-- A release build (accounting/account.rs:38). `mul` is what the external crate does. -/
def wrapping (w : Int) (mul : Int → Res Int) : Arith :=
  ⟨fun x => .ok (wrap w x), mul, fun x => .ok (wrap w x)⟩

variable (π : Arith)

/-- `Decimal` multiplication on a widened integer, narrowed to `I` (base_currency.rs:211). -/
def dmul (s a b : Int) : Res Int := π.mul (Lfest.dmul s a b)

/-- `Decimal` division on a widened integer, narrowed to `I` (base_currency.rs:223). -/
def ddiv (s a b : Int) : Res Int := do
  let x ← Lfest.ddiv s a b
  π.mul x

/-- quote_currency.rs:102-104, base_currency.rs:86-88 `convert_from` -/
def convert (e : Env) (units price : Int) : Res Int :=
  match e.kind with
  | .linear => dmul π e.scale units price
  | .inverse => ddiv π e.scale units price

/-- quote_currency.rs:117-127, base_currency.rs:100-110 `pnl` -/
def pnl (e : Env) (entry exit qty : Int) : Res Int :=
  if qty = 0 then .ok 0
  else match e.kind with
    | .linear => do
      let a ← convert π e qty exit
      let b ← convert π e qty entry
      π.add (a - b)
    | .inverse => do
      let a ← convert π e qty entry
      let b ← convert π e qty exit
      π.add (a - b)

/-- quote_currency.rs:51-53 -/
def liquidationPriceLong (s entry mm : Int) : Res Int := do
  let r ← π.add (s - mm)
  dmul π s entry r

/-- quote_currency.rs:56-58 -/
def liquidationPriceShort (s entry mm : Int) : Res Int := do
  let r ← π.add (s + mm)
  dmul π s entry r

/-- quote_currency.rs:60-68 `new_weighted_price` -/
def newWeightedPrice (s p0 w0 p1 w1 : Int) : Res Int := do
  let total ← π.add (w0 + w1)
  let x ← dmul π s p0 w0
  let y ← dmul π s p1 w1
  let z ← π.add (x + y)
  ddiv π s z total

/-! ## Orders and filters -/

/-- types/limit_order.rs:278-291 `total_quantity` -/
def totalQuantity (o : Limit) : Res Int := do
  let q ← match o.fq with
    | .unfilled => .ok o.remaining
    | .filled c _ => π.add (o.remaining + c)
  assertP (q > 0) .totalQuantity
  .ok q

/-- types/limit_order.rs:194-264 `fill` -/
def fill (s : Int) (o : Limit) (q ts : Int) : Res (Limit × Option FilledLimit) := do
  assertP (q ≤ o.remaining) .fillTooLarge
  assertP (q > 0) .fillNotPositive
  let rest ← π.add (o.remaining - q)
  match o.fq with
  | .unfilled =>
    let o' : Limit := { o with fq := .filled q o.price, remaining := rest }
    if q = o.remaining then
      .ok (o', some { uid := o.uid, side := o.side, price := o.price, remaining := 0,
                      id := o.id, ts := o.ts, tsExecuted := ts, avgFillPrice := o.price,
                      filledQty := q })
    else .ok (o', none)
  | .filled c avg => do
    let avg' ← newWeightedPrice π s avg c o.price q
    let sum ← π.add (c + q)
    let o' : Limit := { o with fq := .filled sum avg', remaining := rest }
    if o'.remaining = 0 then
      .ok (o', some { uid := o.uid, side := o.side, price := o.price, remaining := 0,
                      id := o.id, ts := o.ts, tsExecuted := ts, avgFillPrice := o.price,
                      filledQty := sum })
    else .ok (o', none)

/-- order_filters/price_filter.rs:120-156 `validate_limit_price` -/
def validatePrice (s : Int) (f : PriceFilter) (price mark : Int) : Res (Except OrderError Unit) :=
  if price ≤ 0 then .ok (.error .limitPriceBelowMin)
  else if aboveMax f.maxPrice price = true then .ok (.error .limitPriceAboveMax)
  else if belowMin f.minPrice price = true then .ok (.error .limitPriceBelowMin)
  else do
    let d ← π.add (price - f.minPrice.getD 0)
    let r ← drem d f.tickSize
    if r ≠ 0 then .ok (.error .invalidOrderPriceStepSize)
    else do
      let up ← dmul π s mark f.multiplierUp
      if price > up ∧ f.multiplierUp ≠ 0 then .ok (.error .limitPriceAboveMultiple)
      else do
        let down ← dmul π s mark f.multiplierDown
        if price < down ∧ f.multiplierDown ≠ 0 then .ok (.error .limitPriceBelowMultiple)
        else .ok (.ok ())

/-- order_filters/quantity_filter.rs:75-102 `validate_order_quantity` -/
def validateQty (f : QuantityFilter) (q : Int) : Res (Except OrderError Unit) :=
  if q = 0 then .ok (.error .quantityTooLow)
  else if aboveMax f.maxQuantity q = true then .ok (.error .quantityTooHigh)
  else if belowMin f.minQuantity q = true then .ok (.error .quantityTooLow)
  else do
    let d ← π.add (q - f.minQuantity.getD 0)
    let r ← drem d f.tickSize
    if r ≠ 0 then .ok (.error .invalidQuantityStepSize) else .ok (.ok ())

/-! ## Accounts -/

/-- accounting/account.rs:47-49 and in_memory_accounting.rs:96-101 `margin_balance_of` -/
def balance (a : Accounts) (i : AccountId) : Res Int := π.add (a.balance i)

/-- accounting/utils.rs:16-20: a running sum -/
def sum (acc : Int) : List Int → Res Int
  | [] => .ok acc
  | x :: xs => do
    let y ← π.add (acc + x)
    sum y xs

/-- accounting/utils.rs:13-24 `debug_assert_accounting_equation` -/
def debugEquation (debug : Bool) (a : Accounts) : Res Unit :=
  if debug = true then do
    let d ← sum π 0 [a.wallet.debits, a.orderMargin.debits, a.positionMargin.debits,
      a.exchangeFee.debits, a.broker.debits, a.treasury.debits]
    let c ← sum π 0 [a.wallet.credits, a.orderMargin.credits, a.positionMargin.credits,
      a.exchangeFee.credits, a.broker.credits, a.treasury.credits]
    assertP (d = c) .accountingEquation
  else .ok ()

/-- accounting/transaction.rs:59-78, accounting/in_memory_accounting.rs:69-93 and
accounting/account.rs:37-44 -/
def transfer (e : Env) (a : Accounts) (debit credit : AccountId) (amount : Int) :
    Res Accounts := do
  assertP (amount > 0) .txnAmount
  assertP (debit ≠ credit) .txnAccounts
  let da := a.get debit
  let ca := a.get credit
  let d ← π.total (da.debits + amount)
  let k ← π.total (ca.credits + amount)
  let a1 := a.set { ca with credits := k } credit
  let a2 := a1.set { da with debits := d } debit
  debugEquation π e.debug a2
  .ok a2

/-! ## Positions -/

/-- position_inner.rs:74-101 `PositionInner::new` -/
def new (e : Env) (imr : Int) (a : Accounts) (qty price fees : Int) : Res (Inner × Accounts) := do
  assertP (qty > 0) .newQty
  assertP (price > 0) .newPrice
  let v ← convert π e qty price
  let margin ← dmul π e.scale v imr
  let a' ← transfer π e a .positionMargin .wallet margin
  .ok ({ qty, entry := price, fees }, a')

/-- position_inner.rs:120-155 `increase_contracts` -/
def increase (e : Env) (imr : Int) (a : Accounts) (p : Inner) (qty price fees : Int) :
    Res (Inner × Accounts) := do
  assertP (qty > 0) .increaseQty
  assertP (price > 0) .increasePrice
  let v ← convert π e qty price
  let entry ← newWeightedPrice π e.scale p.entry p.qty price qty
  let margin ← dmul π e.scale v imr
  let a' ← transfer π e a .positionMargin .wallet margin
  let q ← π.add (p.qty + qty)
  let f ← π.add (p.fees + fees)
  .ok ({ qty := q, entry, fees := f }, a')

/-- position_inner.rs:189-204 -/
def settlePnl (e : Env) (a : Accounts) (v : Int) : Res Accounts :=
  if v > 0 then transfer π e a .wallet .treasury v
  else if v < 0 then do
    let loss ← π.add (-v)
    transfer π e a .treasury .wallet loss
  else .ok a

/-- position_inner.rs:217-227 -/
def settleFees (e : Env) (a : Accounts) (fees : Int) : Res (Int × Accounts) :=
  if fees > 0 then do
    let a' ← transfer π e a .exchangeFee .wallet fees
    .ok (0, a')
  else .ok (fees, a)

/-- position_inner.rs:158-228 `decrease_contracts` -/
def decrease (e : Env) (imr : Int) (a : Accounts) (p : Inner) (qty price : Int)
    (dir : Int) (fees : Int) : Res (Inner × Accounts) := do
  assertP (qty > 0) .decreaseQty
  assertP (qty ≤ p.qty) .decreaseTooMuch
  let q ← π.add (p.qty - qty)
  debugP e.debug (q ≥ 0) .decreaseNegative
  let f ← π.add (p.fees + fees)
  let v ← pnl π e p.entry price (if dir = 1 then qty else -qty)
  let a1 ← settlePnl π e a v
  let c ← convert π e qty p.entry
  let free ← dmul π e.scale c imr
  debugP e.debug (free > 0) .marginToFree
  let a2 ← transfer π e a1 .wallet .positionMargin free
  let (fees', a3) ← settleFees π e a2 f
  .ok ({ qty := q, entry := p.entry, fees := fees' }, a3)

/-- position.rs:102, 160, 216: `debug_assert_eq!(margin balance, 0)` -/
def debugNoMargin (debug : Bool) (a : Accounts) (p : Panic) : Res Unit :=
  if debug = true then do
    let b ← balance π a .positionMargin
    assertP (b = 0) p
  else .ok ()

/-- position.rs:165-190 and 221-246: close the position and open one on the other side -/
def flip (e : Env) (imr : Int) (a : Accounts) (p : Inner) (qty price dir fees : Int) :
    Res (Inner × Accounts) := do
  let newQty ← π.add (qty - p.qty)
  let (p', a') ← decrease π e imr a p p.qty price dir fees
  assertP (p'.qty = 0) .flipQty
  let b ← balance π a' .positionMargin
  assertP (b = 0) .flipMargin
  new π e imr a' newQty price 0

/-- position.rs:85-260 `change_position` -/
def changePosition (e : Env) (imr : Int) (a : Accounts) (pos : Position)
    (qty price : Int) (side : Side) (fees : Int) : Res (Position × Accounts) := do
  debugP e.debug (qty > 0) .changeQty
  match pos with
  | .neutral => do
    debugNoMargin π e.debug a .neutralMargin
    match side with
    | .buy => do
      let (p, a') ← new π e imr a qty price fees
      .ok (.long p, a')
    | .sell => do
      let (p, a') ← new π e imr a qty price fees
      .ok (.short p, a')
  | .long p =>
    match side with
    | .buy => do
      let (p', a') ← increase π e imr a p qty price fees
      .ok (.long p', a')
    | .sell =>
      if qty < p.qty then do
        let (p', a') ← decrease π e imr a p qty price 1 fees
        .ok (.long p', a')
      else if qty = p.qty then do
        let (_, a') ← decrease π e imr a p qty price 1 fees
        debugNoMargin π e.debug a' .closedMargin
        .ok (.neutral, a')
      else do
        let (q, a') ← flip π e imr a p qty price 1 fees
        .ok (.short q, a')
  | .short p =>
    match side with
    | .buy =>
      if qty < p.qty then do
        let (p', a') ← decrease π e imr a p qty price (-1) fees
        .ok (.short p', a')
      else if qty = p.qty then do
        let (_, a') ← decrease π e imr a p qty price (-1) fees
        debugNoMargin π e.debug a' .closedMargin
        .ok (.neutral, a')
      else do
        let (q, a') ← flip π e imr a p qty price (-1) fees
        .ok (.long q, a')
    | .sell => do
      let (p', a') ← increase π e imr a p qty price fees
      .ok (.short p', a')

/-! ## Order margin -/

/-- order_margin.rs:128-139 and 142-153 -/
def offsetOrders (pos : Int) : List (Int × Int) → Res (List (Int × Int))
  | [] => .ok []
  | (price, q) :: rest =>
    if pos > 0 then do
      let d ← π.add (q - pos)
      let pos' ← π.add (pos - umin q pos)
      let rest' ← offsetOrders pos' rest
      .ok ((price, umax d 0) :: rest')
    else .ok ((price, q) :: rest)

/-- order_margin.rs:157-165 -/
def sumValue (e : Env) (acc : Int) : List (Int × Int) → Res Int
  | [] => .ok acc
  | (price, q) :: rest => do
    let v ← convert π e q price
    let acc' ← π.add (acc + v)
    sumValue e acc' rest

/-- order_margin.rs:125-154: the orders of each side after the position has offset them -/
def offsetBuys (pos : Position) (buys : List (Int × Int)) : Res (List (Int × Int)) :=
  match pos with
  | .short p => offsetOrders π p.qty buys
  | _ => .ok buys

/-- order_margin.rs:125-154 -/
def offsetSells (pos : Position) (sells : List (Int × Int)) : Res (List (Int × Int)) :=
  match pos with
  | .long p => offsetOrders π p.qty sells
  | _ => .ok sells

/-- order_margin.rs:88-168 `order_margin_internal` -/
def orderMarginInternal (e : Env) (imr : Int) (b : Book) (pos : Position)
    (new : Option Limit) : Res Int := do
  debugP e.debug (imr ≤ e.scale) .imrAboveOne
  let buys ← offsetBuys π pos (sortBy (fun x => -x.1) (sideOrders .buy b new))
  let sells ← offsetSells π pos (sortBy (fun x => x.1) (sideOrders .sell b new))
  let bv ← sumValue π e 0 buys
  let sv ← sumValue π e 0 sells
  dmul π e.scale (umax bv sv) imr

/-- order_margin.rs:79-85 `order_margin` -/
def orderMargin (e : Env) (imr : Int) (b : Book) (pos : Position) : Res Int :=
  orderMarginInternal π e imr b pos none

/-- order_margin.rs:171-183 `order_margin_with_order` -/
def orderMarginWithOrder (e : Env) (imr : Int) (b : Book) (pos : Position) (o : Limit) :
    Res Int :=
  orderMarginInternal π e imr b pos (some o)

/-! ## Risk engine -/

/-- isolated_margin.rs:138-145 and 186-193 -/
def checkFunds (c : Cfg) (qty price funds : Int) : Res (Except RiskError Unit) := do
  let v ← convert π c.env qty price
  let margin ← dmul π c.scale v c.spec.initMarginReq
  let fee ← dmul π c.scale v c.spec.feeTaker
  let need ← π.add (margin + fee)
  if need > funds then .ok (.error .notEnoughAvailableBalance) else .ok (.ok ())

/-- isolated_margin.rs:150-165 and 198-213: an order that turns the position around -/
def checkFlip (c : Cfg) (p : Inner) (posMargin qty price wallet : Int) :
    Res (Except RiskError Unit) :=
  if qty ≤ p.qty then .ok (.ok ())
  else do
    let q ← π.add (qty - p.qty)
    let funds ← π.add (wallet + posMargin)
    checkFunds π c q price funds

/-- isolated_margin.rs:39-63, 122-169, 171-217 `check_market_order` -/
def checkMarketOrder (c : Cfg) (pos : Position) (posMargin : Int) (side : Side)
    (qty price wallet : Int) : Res (Except RiskError Unit) :=
  match side, pos with
  | .buy, .short p => checkFlip π c p posMargin qty price wallet
  | .sell, .long p => checkFlip π c p posMargin qty price wallet
  | _, _ => checkFunds π c qty price wallet

/-- isolated_margin.rs:65-86 `check_limit_order` -/
def checkLimitOrder (c : Cfg) (pos : Position) (o : Limit) (wallet : Int) (om : Book) :
    Res (Except RiskError Unit) := do
  let m ← orderMargin π c.env c.spec.initMarginReq om pos
  let m' ← orderMarginWithOrder π c.env c.spec.initMarginReq om pos o
  let funds ← π.add (wallet + m)
  if m' > funds then .ok (.error .notEnoughAvailableBalance) else .ok (.ok ())

/-- isolated_margin.rs:88-114 `check_maintenance_margin` -/
def checkMaintenanceMargin (c : Cfg) (ms : MarketState) (pos : Position) :
    Res (Except RiskError Unit) :=
  match pos with
  | .neutral => .ok (.ok ())
  | .long p => do
    let x ← liquidationPriceLong π c.scale p.entry c.spec.maintenanceMargin
    if ms.bid < x then .ok (.error .liquidate) else .ok (.ok ())
  | .short p => do
    let x ← liquidationPriceShort π c.scale p.entry c.spec.maintenanceMargin
    if ms.ask > x then .ok (.error .liquidate) else .ok (.ok ())

/-! ## Market updates -/

/-- market_state.rs:77-79 `mid_price` -/
def mid (s : Int) (m : MarketState) : Res Int := do
  let x ← π.add (m.bid + m.ask)
  π.mul ((x * s).tdiv (2 * s))

/-- smart_candle.rs:84-91 and 99-106 -/
def aggregateLoop (last sum : Int) : List (Int × Int) → Res (List (Int × Int))
  | [] => .ok [(last, sum)]
  | (price, q) :: rest => do
    let sum' ← π.add (sum + q)
    if price ≠ last then do
      let r ← aggregateLoop price sum' rest
      .ok ((last, sum) :: r)
    else aggregateLoop last sum' rest

/-- smart_candle.rs:79-92 and 94-107 -/
def aggregate : List (Int × Int) → Res (List (Int × Int))
  | [] => .ok []
  | (price, q) :: rest => aggregateLoop π price 0 ((price, q) :: rest)

/-- smart_candle.rs:40-117 `SmartCandle::new` -/
def smartNew (debug : Bool) (trades : List Trade) (bba : Bba) (pf : PriceFilter) :
    Res SmartCandle := do
  match trades with
  | [] => .error .smartEmpty
  | t0 :: rest => do
    let anyOk ← debugAnyValid debug pf (t0 :: rest)
    assertP (anyOk = true) .smartNoValidTrade
    match ← bba.validate pf with
    | .error _ => .error .smartBba
    | .ok () => do
      debugP debug (∀ t ∈ t0 :: rest, t.qty > 0) .smartTradeQty
      let lh := lowHigh t0.price t0.price (t0 :: rest)
      let buys ← aggregate π (sortBy (fun x => -x.1) (tradesOf .buy (t0 :: rest)))
      let sells ← aggregate π (sortBy (fun x => x.1) (tradesOf .sell (t0 :: rest)))
      .ok { high := lh.2, low := lh.1, buyVolume := buys, sellVolume := sells, bba,
            ts := ((t0 :: rest).getLast (by simp)).ts }

/-! ## The exchange -/

/-- exchange.rs:279-302 `settle_filled_market_order` -/
def settleMarket (c : Cfg) (s : State) (o : FilledMarket) : Res State := do
  assertP (o.qty > 0) .settleQty
  assertP (o.avgFillPrice > 0) .settlePrice
  let value ← convert π c.env o.qty o.avgFillPrice
  let fees ← dmul π c.scale value c.spec.feeTaker
  let (pos', acct') ←
    changePosition π c.env c.spec.initMarginReq s.acct s.pos o.qty o.avgFillPrice o.side fees
  .ok { s with pos := pos', acct := acct',
               log := .trade o.side o.avgFillPrice o.qty :: .marketFill :: s.log }

/-- exchange.rs:237-277 `submit_market_order` -/
def submitMarket (c : Cfg) (s : State) (o : NewMarket) :
    Res (State × Except Error FilledMarket) := do
  let s1 := { s with log := .marketSubmit o :: s.log }
  match ← validateQty π c.spec.quantityFilter o.qty with
  | .error err => .ok (s1, .error (.order err))
  | .ok () => do
    let id := s1.nextId
    let s2 := { s1 with nextId := s1.nextId + 1 }
    let price := touch s2.ms o.side
    let pm ← balance π s2.acct .positionMargin
    let wallet ← balance π s2.acct .wallet
    match ← checkMarketOrder π c s2.pos pm o.side o.qty price wallet with
    | .error err => .ok (s2, .error (.risk err))
    | .ok () => do
      let filled := o.intoFilled id s2.ms.ts price s2.ms.ts
      let s3 ← settleMarket π c s2 filled
      .ok (s3, .ok filled)

/-- exchange.rs:467-473, 537-543: no order margin without orders -/
def emptyCheck (active : Book) (a : Accounts) : Res Unit :=
  if active = [] then do
    let b ← balance π a .orderMargin
    assertP (b = 0) .emptyButMargin
  else .ok ()

/-- utils.rs:44-55 `assert_user_wallet_balance` -/
def walletCheck (a : Accounts) : Res Unit := do
  let b ← balance π a .wallet
  assertP (b ≥ 0) .walletNegative

/-- exchange.rs:465-477 -/
def appendChecks (s : State) : Res State := do
  assertP (s.om = s.active) .booksDiffer
  emptyCheck π s.active s.acct
  walletCheck π s.acct
  .ok s

/-- exchange.rs:426-480 `append_limit_order` -/
def appendLimit (c : Cfg) (s : State) (o : Limit) : Res (State × Except Error Unit) := do
  match ← omUpdate c.maxOpen s.om o with
  | .error err => .ok (s, .error err)
  | .ok om' =>
    let s1 := { s with om := om' }
    match Book.insert activeCap s1.active o with
    | .error err => .ok (s1, .error err)
    | .ok (active', _) => do
      let s2 := { s1 with active := active' }
      let newMargin ← orderMargin π c.env c.spec.initMarginReq s2.om s2.pos
      let margin ← balance π s2.acct .orderMargin
      if newMargin > margin then do
        let d ← π.add (newMargin - margin)
        let a ← transfer π c.env s2.acct .orderMargin .wallet d
        let s3 ← appendChecks π { s2 with acct := a }
        .ok (s3, .ok ())
      else if newMargin < margin then do
        let d ← π.add (margin - newMargin)
        let a ← transfer π c.env s2.acct .orderMargin .wallet d
        let s3 ← appendChecks π { s2 with acct := a }
        .ok (s3, .ok ())
      else .ok (s2, .ok ())

/-- exchange.rs:317-374 `submit_limit_order` -/
def submitLimit (c : Cfg) (s : State) (o : NewLimit) :
    Res (State × Except Error Limit) := do
  let s1 := { s with log := .limitSubmit o :: s.log }
  match ← validateQty π c.spec.quantityFilter o.qty with
  | .error err => .ok (s1, .error (.order err))
  | .ok () => do
    let mark ← mid π c.scale s1.ms
    match ← validatePrice π c.scale c.spec.priceFilter o.price mark with
    | .error err => .ok (s1, .error (.order err))
    | .ok () => do
      let s2 := { s1 with nextId := s1.nextId + 1 }
      let p := o.intoPending s1.nextId s2.ms.ts
      let wallet ← balance π s2.acct .wallet
      match ← checkLimitOrder π c s2.pos p wallet s2.om with
      | .error err => .ok (s2, .error (.risk err))
      | .ok () =>
        if marketable s2.ms p.side p.price = true then
          .ok (s2, .error (.order (.goodTillCrossingRejected p.price (touch s2.ms p.side))))
        else do
          match ← appendLimit π c s2 p with
          | (s3, .error err) => .ok (s3, .error err)
          | (s3, .ok ()) => .ok (s3, .ok p)

/-- exchange.rs:524-531 and 649-656 -/
def refund (e : Env) (a : Accounts) (margin newMargin : Int) : Res Accounts :=
  if newMargin < margin then do
    let d ← π.add (margin - newMargin)
    transfer π e a .wallet .orderMargin d
  else .ok a

/-- exchange.rs:484-549 `cancel_limit_order` -/
def cancelLimit (c : Cfg) (s : State) (by_ : CancelBy) :
    Res (State × Except Error Limit) := do
  let margin ← balance π s.acct .orderMargin
  let computed ← orderMargin π c.env c.spec.initMarginReq s.om s.pos
  assertP (margin = computed) .cancelMarginMismatch
  match s.active.removeCancel by_ with
  | none => .ok (s, .error (cancelError s by_))
  | some (removed, active') => do
    let om' ← omRemove s.om by_
    let newMargin ← orderMargin π c.env c.spec.initMarginReq om' s.pos
    assertP (newMargin ≤ margin) .cancelMarginIncrease
    let a ← refund π c.env s.acct margin newMargin
    assertP (om' = active') .booksDiffer
    emptyCheck π active' a
    .ok ({ s with active := active', om := om', acct := a, log := .limitCancel :: s.log },
      .ok removed)

/-- exchange.rs:382-420 `amend_limit_order` -/
def amendLimit (c : Cfg) (s : State) (id : Nat) (new : NewLimit) :
    Res (State × Except Error Limit) := do
  match s.active.getById id with
  | none => .ok (s, .error (missingOrder s id))
  | some old => do
    let total ← totalQuantity π old
    let delta ← π.add (new.totalQuantity - total)
    let leaves ← π.add (old.remaining + delta)
    if leaves ≤ 0 then do
      match ← cancelLimit π c s (.orderId id) with
      | (_, .error _) => .error .amendCancel
      | (s', .ok _) => .ok (s', .error .amendQtyAlreadyFilled)
    else do
      let new' ← new.setRemaining leaves
      match ← cancelLimit π c s (.orderId id) with
      | (s', .error err) => .ok (s', .error err)
      | (s', .ok _) => submitLimit π c s' new'

/-- exchange.rs:600-606 and 680-688 -/
def debugMarginEq (c : Cfg) (a : Accounts) (om : Book) (pos : Position) (p : Panic) :
    Res Unit :=
  if c.env.debug = true then do
    let m ← orderMargin π c.env c.spec.initMarginReq om pos
    let b ← balance π a .orderMargin
    assertP (b = m) p
  else .ok ()

/-- exchange.rs:608-624 -/
def applyFill (c : Cfg) (ts : Int) (l : Loop) (o : Limit) (q : Int) : Res (Loop × Limit) := do
  match ← fill π c.scale o q ts with
  | (o', some f) => do
    let om' ← omRemove l.om (.orderId o'.id)
    .ok ({ l with ids := l.ids ++ [o'.id], log := .limitFill true q :: l.log, om := om',
                  updates := l.updates ++ [.fullyFilled f] }, o')
  | (o', none) => do
    debugP c.env.debug (o'.remaining > 0) .matchRemaining
    match ← omUpdate c.maxOpen l.om o' with
    | .error _ => .error .matchUpdate
    | .ok om' =>
      .ok ({ l with log := .limitFill false q :: l.log, om := om',
                    updates := l.updates ++ [.partiallyFilled o'] }, o')

/-- exchange.rs:626-639 -/
def settleLimit (c : Cfg) (l : Loop) (o : Limit) (q : Int) : Res Loop := do
  let value ← convert π c.env q o.price
  let fees ← dmul π c.scale value c.spec.feeMaker
  let (pos', acct') ←
    changePosition π c.env c.spec.initMarginReq l.acct l.pos q o.price o.side fees
  .ok { l with pos := pos', acct := acct', log := .trade o.side o.price q :: l.log }

/-- exchange.rs:640-656 -/
def releaseMargin (c : Cfg) (l : Loop) (margin : Int) : Res Loop := do
  let newMargin ← orderMargin π c.env c.spec.initMarginReq l.om l.pos
  debugP c.env.debug (newMargin ≤ margin) .matchMarginIncrease
  let a ← refund π c.env l.acct margin newMargin
  .ok { l with acct := a }

/-- exchange.rs:583-657 -/
def matchOrder (c : Cfg) (u : Update) (l : Loop) (o : Limit) : Res (Loop × Limit) := do
  match ← u.filled c.env.debug o with
  | none => .ok (l, o)
  | some q => do
    debugP c.env.debug (q > 0) .matchQty
    let margin ← balance π l.acct .orderMargin
    debugMarginEq π c l.acct l.om l.pos .matchMarginMismatch
    let (l1, o') ← applyFill π c u.ts l o q
    let l2 ← settleLimit π c l1 o' q
    let l3 ← releaseMargin π c l2 margin
    .ok (l3, o')

/-- exchange.rs:582-658 -/
def matchLoop (c : Cfg) (u : Update) (l : Loop) : List Limit → Res (Loop × List Limit)
  | [] => .ok (l, [])
  | o :: os => do
    let (l1, o') ← matchOrder π c u l o
    let (l2, os') ← matchLoop c u l1 os
    .ok (l2, o' :: os')

/-- exchange.rs:672-676: the same as `emptyCheck`, in debug builds -/
def debugEmpty (debug : Bool) (active : Book) (a : Accounts) : Res Unit :=
  if debug = true then emptyCheck π active a else .ok ()

/-- exchange.rs:566-690 `check_active_orders` -/
def checkActive (c : Cfg) (s : State) (u : Update) : Res State :=
  if u.canFill = false then .ok { s with updates := [] }
  else do
    debugP c.env.debug (s.om = s.active) .booksDiffer
    let (l, orders) ← matchLoop π c u
      { acct := s.acct, pos := s.pos, om := s.om, log := s.log, updates := [], ids := [] }
      s.active
    let active' ← removeExecuted orders l.ids
    debugP c.env.debug (l.ids.length ≤ c.maxOpen) .idsCapacity
    debugP c.env.debug (l.om = active') .booksDiffer
    debugEmpty π c.env.debug active' l.acct
    debugMarginEq π c l.acct l.om l.pos .finalMarginMismatch
    walletCheck π l.acct
    .ok { s with acct := l.acct, pos := l.pos, om := l.om, log := l.log,
                 updates := l.updates, active := active' }

/-- exchange.rs:213-227 `liquidate` -/
def liquidate (c : Cfg) (s : State) : Res State := do
  let o ← liquidationOrder s.pos
  match ← submitMarket π c s o with
  | (_, .error _) => .error .liquidateSubmit
  | (s', .ok _) => .ok s'

/-- exchange.rs:694-710 `user_balances` -/
def userBalances (a : Accounts) : Res UserBalances := do
  let x ← balance π a .wallet
  let y ← balance π a .positionMargin
  let z ← balance π a .orderMargin
  .ok { wallet := x, positionMargin := y, orderMargin := z }

/-- exchange.rs:190-194: the sample, if one is due -/
def sampleLog (c : Cfg) (fired : Bool) (a : Accounts) (ms : MarketState) (log : List Event) :
    Res (List Event) :=
  if fired = true then do
    let b ← userBalances π a
    let m ← mid π c.scale ms
    .ok (.sample b m :: log)
  else .ok log

/-- exchange.rs:184-194 -/
def observe (c : Cfg) (s : State) (u : Update) : Res State := do
  let ms' ← s.ms.update c.env.debug c.spec.priceFilter u
  let fired := s.trigger.fire u.ts
  let log ← sampleLog π c fired.2 s.acct ms' (.update ms' :: s.log)
  .ok { s with ms := ms', trigger := fired.1, log }

/-- exchange.rs:175-210 `update_state` -/
def updateState (c : Cfg) (s : State) (u : Update) :
    Res (State × Except Error (List LimitUpdate)) := do
  let s1 ← observe π c s u
  match ← checkMaintenanceMargin π c s1.ms s1.pos with
  | .error err => do
    let s2 ← liquidate π c s1
    .ok (s2, .error (.risk err))
  | .ok () => do
    let s2 ← checkActive π c s1 u
    .ok (s2, .ok s2.updates)

/-- market_update/smart_candle.rs:40-117 -/
def build (debug : Bool) : UpdateArg → Res Update
  | .bba b => .ok (.bba b)
  | .trade t => .ok (.trade t)
  | .candle c => .ok (.candle c)
  | .smart ts b pf => do
    let sc ← smartNew π debug ts b pf
    .ok (.smart sc)
  | .custom k => .ok (.custom k)

/-- One API call with the arithmetic `π`: exchange.rs:175, 237, 317, 382, 484. -/
def step (c : Cfg) (s : State) : Op → Res (State × Resp)
  | .update a => do
    let u ← build π c.env.debug a
    let (s', r) ← updateState π c s u
    .ok (s', .update r)
  | .checkActive a => do
    let u ← build π c.env.debug a
    let s' ← checkActive π c s u
    .ok (s', .unit)
  | .market side qty uid =>
    match NewMarket.new side qty uid with
    | .error err => .ok (s, .invalidOrder err)
    | .ok o => do
      let (s', r) ← submitMarket π c s o
      .ok (s', .market r)
  | .limit side price qty uid =>
    match NewLimit.new side price qty uid with
    | .error err => .ok (s, .invalidOrder err)
    | .ok o => do
      let (s', r) ← submitLimit π c s o
      .ok (s', .limit r)
  | .amend id side price qty uid =>
    match NewLimit.new side price qty uid with
    | .error err => .ok (s, .invalidOrder err)
    | .ok o => do
      let (s', r) ← amendLimit π c s id o
      .ok (s', .limit r)
  | .cancel by_ => do
    let (s', r) ← cancelLimit π c s by_
    .ok (s', .limit r)

/-- A sequence of API calls with the arithmetic `π` (exchange.rs:122). -/
def run (c : Cfg) (s : State) : List Op → Res State
  | [] => .ok s
  | op :: ops => do
    let r ← step π c s op
    run c r.1 ops

end Lfest.Rel
