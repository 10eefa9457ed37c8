import Verif.Model.Risk
import Verif.Model.Tracker

/-!
# The exchange

Every public method is a function from the exchange state to `Res (State × …)`: the outer
layer is a panic, the inner `Except Error` the returned `Result`. The state is returned also
when the method returns `Err`, because the methods mutate it before failing.
-/

namespace Lfest

/-- exchange.rs:64-107. `config` is passed separately, `risk_engine` only holds a copy of the
contract specification, `ids_to_remove` is empty between calls. `log` is the record of calls
to the account tracker, newest first. -/
structure State where
  ms : MarketState
  log : List Event
  nextId : Nat
  acct : Accounts
  pos : Position
  active : Book
  om : Book
  trigger : Trigger
  updates : List LimitUpdate
  deriving DecidableEq, Repr

/-- exchange.rs:140, the hard-coded capacity of the arena of active orders -/
def activeCap : Nat := 10000

/-- exchange.rs:122-146 `new` -/
def State.init (c : Cfg) : State :=
  { ms := .init, log := [], nextId := 0, acct := .new c.start, pos := .neutral,
    active := [], om := [], trigger := .new (c.sampleSecs * 1000000000), updates := [] }

/-- exchange.rs:159-163 `fees_paid` -/
def State.feesPaid (s : State) : Int := s.acct.balance .exchangeFee

/-- exchange.rs:694-710 `user_balances` -/
def userBalances (a : Accounts) : UserBalances :=
  { wallet := a.balance .wallet, positionMargin := a.balance .positionMargin,
    orderMargin := a.balance .orderMargin }

/-- exchange.rs:279-302 `settle_filled_market_order`, on accounts, position and log -/
def settleMarket (c : Cfg) (s : State) (o : FilledMarket) : Res State := do
  assertP (o.qty > 0) .settleQty
  assertP (o.avgFillPrice > 0) .settlePrice
  let value ← convert c.env o.qty o.avgFillPrice
  let fees := dmul c.scale value c.spec.feeTaker
  let (pos', acct') ←
    changePosition c.env c.spec.initMarginReq s.acct s.pos o.qty o.avgFillPrice o.side fees
  .ok { s with pos := pos', acct := acct',
               log := .trade o.side o.avgFillPrice o.qty :: .marketFill :: s.log }

/-- exchange.rs:255-258, and 362-365 for the price that a rejected limit order would have crossed -/
def touch (ms : MarketState) : Side → Int
  | .buy => ms.ask
  | .sell => ms.bid

/-- exchange.rs:237-277 `submit_market_order` -/
def submitMarket (c : Cfg) (s : State) (o : NewMarket) :
    Res (State × Except Error FilledMarket) := do
  let s1 := { s with log := .marketSubmit o :: s.log }
  match ← c.spec.quantityFilter.validate o.qty with
  | .error err => .ok (s1, .error (.order err))
  | .ok () => do
    let id := s1.nextId
    let s2 := { s1 with nextId := s1.nextId + 1 }
    let price := touch s2.ms o.side
    match ← checkMarketOrder c s2.pos (s2.acct.balance .positionMargin) o.side o.qty price
        (s2.acct.balance .wallet) with
    | .error err => .ok (s2, .error (.risk err))
    | .ok () => do
      let filled := o.intoFilled id s2.ms.ts price s2.ms.ts
      let s3 ← settleMarket c s2 filled
      .ok (s3, .ok filled)

/-- exchange.rs:465-477: the checks at the end of `append_limit_order` -/
def appendChecks (s : State) : Res State := do
  assertP (s.om = s.active) .booksDiffer
  assertP (s.active = [] → s.acct.balance .orderMargin = 0) .emptyButMargin
  assertP (s.acct.balance .wallet ≥ 0) .walletNegative
  .ok s

/-- exchange.rs:426-480 `append_limit_order`. (`marketable` is only logged.) -/
def appendLimit (c : Cfg) (s : State) (o : Limit) : Res (State × Except Error Unit) := do
  match ← omUpdate c.maxOpen s.om o with
  | .error err => .ok (s, .error err)
  | .ok om' =>
    let s1 := { s with om := om' }
    match Book.insert activeCap s1.active o with
    | .error err => .ok (s1, .error err)
    | .ok (active', _) => do
      let s2 := { s1 with active := active' }
      let newMargin ← orderMargin c.env c.spec.initMarginReq s2.om s2.pos
      let margin := s2.acct.balance .orderMargin
      if newMargin > margin then do
        let a ← transfer c.env s2.acct .orderMargin .wallet (newMargin - margin)
        let s3 ← appendChecks { s2 with acct := a }
        .ok (s3, .ok ())
      else if newMargin < margin then do
        let a ← transfer c.env s2.acct .orderMargin .wallet (margin - newMargin)
        let s3 ← appendChecks { s2 with acct := a }
        .ok (s3, .ok ())
      else .ok (s2, .ok ())

/-- exchange.rs:351-354 -/
def marketable (ms : MarketState) (side : Side) (price : Int) : Bool :=
  match side with
  | .buy => decide (price ≥ ms.ask)
  | .sell => decide (price ≤ ms.bid)

/-- exchange.rs:317-374 `submit_limit_order` -/
def submitLimit (c : Cfg) (s : State) (o : NewLimit) :
    Res (State × Except Error Limit) := do
  let s1 := { s with log := .limitSubmit o :: s.log }
  match ← c.spec.quantityFilter.validate o.qty with
  | .error err => .ok (s1, .error (.order err))
  | .ok () => do
    match ← c.spec.priceFilter.validate c.scale o.price (s1.ms.mid c.scale) with
    | .error err => .ok (s1, .error (.order err))
    | .ok () => do
      let s2 := { s1 with nextId := s1.nextId + 1 }
      let p := o.intoPending s1.nextId s2.ms.ts
      match ← checkLimitOrder c s2.pos p (s2.acct.balance .wallet) s2.om with
      | .error err => .ok (s2, .error (.risk err))
      | .ok () =>
        if marketable s2.ms p.side p.price = true then
          .ok (s2, .error (.order (.goodTillCrossingRejected p.price (touch s2.ms p.side))))
        else do
          match ← appendLimit c s2 p with
          | (s3, .error err) => .ok (s3, .error err)
          | (s3, .ok ()) => .ok (s3, .ok p)

/-- exchange.rs:505-509 and 391-397: the error for an order id that is not active -/
def missingOrder (s : State) (id : Nat) : Error :=
  if id < s.nextId then .orderNoLongerActive else .orderIdNotFound id

/-- exchange.rs:500-515: the error of a failing cancellation -/
def cancelError (s : State) : CancelBy → Error
  | .orderId id => missingOrder s id
  | .userOrderId _ => .userOrderIdNotFound

/-- exchange.rs:524-531 (and 649-656): move the order margin that is no longer required back
to the wallet -/
def refund (e : Env) (a : Accounts) (margin newMargin : Int) : Res Accounts :=
  if newMargin < margin then transfer e a .wallet .orderMargin (margin - newMargin)
  else .ok a

/-- exchange.rs:484-549 `cancel_limit_order` -/
def cancelLimit (c : Cfg) (s : State) (by_ : CancelBy) :
    Res (State × Except Error Limit) := do
  let margin := s.acct.balance .orderMargin
  let computed ← orderMargin c.env c.spec.initMarginReq s.om s.pos
  assertP (margin = computed) .cancelMarginMismatch
  match s.active.removeCancel by_ with
  | none => .ok (s, .error (cancelError s by_))
  | some (removed, active') => do
    let om' ← omRemove s.om by_
    let newMargin ← orderMargin c.env c.spec.initMarginReq om' s.pos
    assertP (newMargin ≤ margin) .cancelMarginIncrease
    let a ← refund c.env s.acct margin newMargin
    assertP (om' = active') .booksDiffer
    assertP (active' = [] → a.balance .orderMargin = 0) .emptyButMargin
    .ok ({ s with active := active', om := om', acct := a, log := .limitCancel :: s.log },
      .ok removed)

/-- exchange.rs:382-420 `amend_limit_order` -/
def amendLimit (c : Cfg) (s : State) (id : Nat) (new : NewLimit) :
    Res (State × Except Error Limit) := do
  match s.active.getById id with
  | none => .ok (s, .error (missingOrder s id))
  | some old => do
    let total ← old.totalQuantity
    let leaves := old.remaining + (new.totalQuantity - total)
    if leaves ≤ 0 then do
      match ← cancelLimit c s (.orderId id) with
      | (_, .error _) => .error .amendCancel
      | (s', .ok _) => .ok (s', .error .amendQtyAlreadyFilled)
    else do
      let new' ← new.setRemaining leaves
      match ← cancelLimit c s (.orderId id) with
      | (s', .error err) => .ok (s', .error err)
      | (s', .ok _) => submitLimit c s' new'

/-- exchange.rs:566-690: the fields of the exchange that the loop of `check_active_orders` mutates,
apart from the orders themselves; `ids` in push order. -/
structure Loop where
  acct : Accounts
  pos : Position
  om : Book
  log : List Event
  updates : List LimitUpdate
  ids : List Nat
  deriving DecidableEq, Repr

/-- exchange.rs:600-606 and 680-688: `debug_assert_eq!(account balance, order margin)` -/
def debugMarginEq (c : Cfg) (a : Accounts) (om : Book) (pos : Position) (p : Panic) :
    Res Unit :=
  if c.env.debug = true then do
    let m ← orderMargin c.env c.spec.initMarginReq om pos
    assertP (a.balance .orderMargin = m) p
  else .ok ()

/-- exchange.rs:608-624: fill the order and update the order margin tracker -/
def applyFill (c : Cfg) (ts : Int) (l : Loop) (o : Limit) (q : Int) : Res (Loop × Limit) := do
  match ← o.fill c.scale q ts with
  | (o', some f) => do
    let om' ← omRemove l.om (.orderId o'.id)
    .ok ({ l with ids := l.ids ++ [o'.id], log := .limitFill true q :: l.log, om := om',
                  updates := l.updates ++ [.fullyFilled f] }, o')
  | (o', none) => do
    debugP c.env.debug (o'.remaining > 0) .matchRemaining
    match ← omUpdate c.maxOpen l.om o' with
    | .error _ => .error .matchUpdate
    | .ok om' =>
      .ok ({ l with log := .limitFill false q :: l.log, om := om',
                    updates := l.updates ++ [.partiallyFilled o'] }, o')

/-- exchange.rs:626-639: settle the fill at the limit price with the maker fee -/
def settleLimit (c : Cfg) (l : Loop) (o : Limit) (q : Int) : Res Loop := do
  let value ← convert c.env q o.price
  let fees := dmul c.scale value c.spec.feeMaker
  let (pos', acct') ←
    changePosition c.env c.spec.initMarginReq l.acct l.pos q o.price o.side fees
  .ok { l with pos := pos', acct := acct', log := .trade o.side o.price q :: l.log }

/-- exchange.rs:640-656: release order margin that is no longer required -/
def releaseMargin (c : Cfg) (l : Loop) (margin : Int) : Res Loop := do
  let newMargin ← orderMargin c.env c.spec.initMarginReq l.om l.pos
  debugP c.env.debug (newMargin ≤ margin) .matchMarginIncrease
  let a ← refund c.env l.acct margin newMargin
  .ok { l with acct := a }

/-- exchange.rs:583-657: one iteration of the loop -/
def matchOrder (c : Cfg) (u : Update) (l : Loop) (o : Limit) : Res (Loop × Limit) := do
  match ← u.filled c.env.debug o with
  | none => .ok (l, o)
  | some q => do
    debugP c.env.debug (q > 0) .matchQty
    let margin := l.acct.balance .orderMargin
    debugMarginEq c l.acct l.om l.pos .matchMarginMismatch
    let (l1, o') ← applyFill c u.ts l o q
    let l2 ← settleLimit c l1 o' q
    let l3 ← releaseMargin c l2 margin
    .ok (l3, o')

/-- exchange.rs:582-658: the loop over the active orders, in arena order -/
def matchLoop (c : Cfg) (u : Update) (l : Loop) : List Limit → Res (Loop × List Limit)
  | [] => .ok (l, [])
  | o :: os => do
    let (l1, o') ← matchOrder c u l o
    let (l2, os') ← matchLoop c u l1 os
    .ok (l2, o' :: os')

/-- exchange.rs:659-661 with 554-562: remove the executed orders -/
def removeExecuted (b : Book) : List Nat → Res Book
  | [] => .ok b
  | id :: ids => do
    let r ← expectSome (b.removeById id) .executedNotActive
    removeExecuted r.2 ids

/-- exchange.rs:566-690 `check_active_orders` -/
def checkActive (c : Cfg) (s : State) (u : Update) : Res State :=
  if u.canFill = false then .ok { s with updates := [] }
  else do
    debugP c.env.debug (s.om = s.active) .booksDiffer
    let (l, orders) ← matchLoop c u
      { acct := s.acct, pos := s.pos, om := s.om, log := s.log, updates := [], ids := [] }
      s.active
    let active' ← removeExecuted orders l.ids
    debugP c.env.debug (l.ids.length ≤ c.maxOpen) .idsCapacity
    debugP c.env.debug (l.om = active') .booksDiffer
    debugP c.env.debug (active' = [] → l.acct.balance .orderMargin = 0) .emptyButMargin
    debugMarginEq c l.acct l.om l.pos .finalMarginMismatch
    assertP (l.acct.balance .wallet ≥ 0) .walletNegative
    .ok { s with acct := l.acct, pos := l.pos, om := l.om, log := l.log,
                 updates := l.updates, active := active' }

/-- exchange.rs:215-223: the order that closes the position -/
def liquidationOrder (pos : Position) : Res NewMarket :=
  match pos with
  | .neutral => .error .liquidateNeutral
  | .long p => match NewMarket.new .sell p.qty 0 with
    | .ok o => .ok o
    | .error _ => .error .liquidateOrder
  | .short p => match NewMarket.new .buy p.qty 0 with
    | .ok o => .ok o
    | .error _ => .error .liquidateOrder

/-- exchange.rs:213-227 `liquidate` -/
def liquidate (c : Cfg) (s : State) : Res State := do
  let o ← liquidationOrder s.pos
  match ← submitMarket c s o with
  | (_, .error _) => .error .liquidateSubmit
  | (s', .ok _) => .ok s'

/-- exchange.rs:184-194: market state, tracker and sampling -/
def observe (c : Cfg) (s : State) (u : Update) : Res State := do
  let ms' ← s.ms.update c.env.debug c.spec.priceFilter u
  let fired := s.trigger.fire u.ts
  let log1 := .update ms' :: s.log
  let log2 := if fired.2 = true then .sample (userBalances s.acct) (ms'.mid c.scale) :: log1
    else log1
  .ok { s with ms := ms', trigger := fired.1, log := log2 }

/-- exchange.rs:175-210 `update_state`. On `Ok` the returned reference is `updates` of the
new state. -/
def updateState (c : Cfg) (s : State) (u : Update) :
    Res (State × Except Error (List LimitUpdate)) := do
  let s1 ← observe c s u
  match checkMaintenanceMargin c s1.ms s1.pos with
  | .error err => do
    let s2 ← liquidate c s1
    .ok (s2, .error (.risk err))
  | .ok () => do
    let s2 ← checkActive c s1 u
    .ok (s2, .ok s2.updates)

/-- The argument of exchange.rs:175 `update_state`: market updates as the user supplies them. All
fields of `Bba`, `Trade` and `Candle` are public, a `SmartCandle` can only be built by its
constructor, and the user may implement `MarketUpdate` for further types. -/
inductive UpdateArg where
  | bba (b : Bba)
  | trade (t : Trade)
  | candle (c : Candle)
  | smart (trades : List Trade) (bba : Bba) (pf : PriceFilter)
  | custom (k : Custom)
  deriving DecidableEq, Repr

/-- Build the market update: market_update/smart_candle.rs:40-117 `SmartCandle::new`; the others are
plain structures. -/
def UpdateArg.build (debug : Bool) : UpdateArg → Res Update
  | .bba b => .ok (.bba b)
  | .trade t => .ok (.trade t)
  | .candle c => .ok (.candle c)
  | .smart ts b pf => do
    let sc ← SmartCandle.new debug ts b pf
    .ok (.smart sc)
  | .custom k => .ok (.custom k)

/-- A call of the public API (exchange.rs:175, 237, 317, 382, 484) together with its arguments. Orders are built by their
constructors, the only way a user can obtain one. -/
inductive Op where
  | update (u : UpdateArg)
  | checkActive (u : UpdateArg)
  | market (side : Side) (qty : Int) (uid : Nat)
  | limit (side : Side) (price qty : Int) (uid : Nat)
  | amend (id : Nat) (side : Side) (price qty : Int) (uid : Nat)
  | cancel (by_ : CancelBy)
  deriving DecidableEq, Repr

/-- What the call returns: the return types at exchange.rs:175, 237, 317, 382, 484. -/
inductive Resp where
  | update (r : Except Error (List LimitUpdate))
  | unit
  | market (r : Except Error FilledMarket)
  | limit (r : Except Error Limit)
  /-- the order constructor failed, the exchange was not called -/
  | invalidOrder (err : OrderError)
  deriving DecidableEq

/-- One API call: exchange.rs:175, 237, 317, 382, 484, after the constructor of its order
(types/limit_order.rs:86-105, types/market_order.rs:73-84). -/
def step (c : Cfg) (s : State) : Op → Res (State × Resp)
  | .update a => do
    let u ← a.build c.env.debug
    let (s', r) ← updateState c s u
    .ok (s', .update r)
  | .checkActive a => do
    let u ← a.build c.env.debug
    let s' ← checkActive c s u
    .ok (s', .unit)
  | .market side qty uid =>
    match NewMarket.new side qty uid with
    | .error err => .ok (s, .invalidOrder err)
    | .ok o => do
      let (s', r) ← submitMarket c s o
      .ok (s', .market r)
  | .limit side price qty uid =>
    match NewLimit.new side price qty uid with
    | .error err => .ok (s, .invalidOrder err)
    | .ok o => do
      let (s', r) ← submitLimit c s o
      .ok (s', .limit r)
  | .amend id side price qty uid =>
    match NewLimit.new side price qty uid with
    | .error err => .ok (s, .invalidOrder err)
    | .ok o => do
      let (s', r) ← amendLimit c s id o
      .ok (s', .limit r)
  | .cancel by_ => do
    let (s', r) ← cancelLimit c s by_
    .ok (s', .limit r)

/-- A sequence of API calls on the `Exchange` of exchange.rs:122; a panic ends it. -/
def run (c : Cfg) (s : State) : List Op → Res State
  | [] => .ok s
  | op :: ops => do
    let r ← step c s op
    run c r.1 ops

end Lfest
