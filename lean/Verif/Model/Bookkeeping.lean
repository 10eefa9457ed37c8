import Verif.Model.Exchange

/-!
# The exchange over an accounting of the user's own

`Exchange` is generic in its accounting (exchange.rs:52-64): `TransactionAccounting`
(accounting/mod.rs:13-28) is a public trait. Model/Exchange.lean models the exchange with the
implementation that the crate ships. Here the implementation is a parameter, and every question to
it may fail. Simplification: an answer to a question leaves the accounting as it was, so an
implementation with interior mutability is not covered. Not modelled: the questions asked only to
fill in the text of a log message (exchange.rs:226).
-/

namespace Lfest.Acct

/-- accounting/mod.rs:13-28, the trait, implemented for `T`. The outer layer of the answers is a panic of
the implementation. `create_margin_transfer` is given the fields of the transaction
(accounting/transaction.rs:16-22); what it leaves behind when it answers `Err` is never looked at,
since every caller panics. -/
structure Bookkeeping (T : Type) where
  new : Int → T
  transfer : T → AccountId → AccountId → Int → Res (Except Error T)
  balance : T → AccountId → Res (Except Error Int)

/-- accounting/in_memory_accounting.rs:52-102, the implementation of the crate -/
def inMemory (e : Env) : Bookkeeping Accounts :=
  { new := Accounts.new
    transfer := fun a debit credit amount => do
      let da := a.get debit
      let ca := a.get credit
      let a1 := a.set { ca with credits := ca.credits + amount } credit
      let a2 := a1.set { da with debits := da.debits + amount } debit
      debugP e.debug (a2.debitSum = a2.creditSum) .accountingEquation
      .ok (.ok a2)
    balance := fun a i => .ok (.ok (a.balance i)) }

variable {T : Type} (B : Bookkeeping T)

/-- `margin_balance_of(…).expect(…)`, e.g. exchange.rs:443-446 -/
def look (t : T) (i : AccountId) : Res Int := do
  match ← B.balance t i with
  | .ok v => .ok v
  | .error _ => .error .accounting

/-- accounting/transaction.rs:59-78 `Transaction::new` followed by
`create_margin_transfer(…).expect(…)`, e.g. exchange.rs:526-530 -/
def move (t : T) (debit credit : AccountId) (amount : Int) : Res T := do
  assertP (amount > 0) .txnAmount
  assertP (debit ≠ credit) .txnAccounts
  match ← B.transfer t debit credit amount with
  | .ok t' => .ok t'
  | .error _ => .error .accounting

/-- e.g. position.rs:102-107: `debug_assert_eq!(margin_balance_of(…).expect(…), zero)` -/
def debugZero (e : Env) (t : T) (i : AccountId) (p : Panic) : Res Unit :=
  if e.debug = true then do
    let v ← look B t i
    assertP (v = 0) p
  else .ok ()

/-- exchange.rs:469-476: no order margin without orders; the balance is asked only then -/
def emptyZero (t : T) (active : Book) : Res Unit :=
  if active = [] then do
    let v ← look B t .orderMargin
    assertP (v = 0) .emptyButMargin
  else .ok ()

/-- exchange.rs:672-679, the same as a `debug_assert!` -/
def debugEmpty (e : Env) (t : T) (active : Book) : Res Unit :=
  if e.debug = true then emptyZero B t active else .ok ()

/-- utils.rs:44-55 `assert_user_wallet_balance` -/
def walletCheck (t : T) : Res Unit := do
  let v ← look B t .wallet
  assertP (v ≥ 0) .walletNegative

/-- position_inner.rs:74-101 `PositionInner::new` -/
def innerNew (e : Env) (imr : Int) (t : T) (qty price fees : Int) : Res (Inner × T) := do
  assertP (qty > 0) .newQty
  assertP (price > 0) .newPrice
  let v ← convert e qty price
  let t' ← move B t .positionMargin .wallet (dmul e.scale v imr)
  .ok ({ qty, entry := price, fees }, t')

/-- position_inner.rs:120-155 `increase_contracts` -/
def increase (e : Env) (imr : Int) (t : T) (p : Inner) (qty price fees : Int) :
    Res (Inner × T) := do
  assertP (qty > 0) .increaseQty
  assertP (price > 0) .increasePrice
  let v ← convert e qty price
  let entry ← newWeightedPrice e.scale p.entry p.qty price qty
  let t' ← move B t .positionMargin .wallet (dmul e.scale v imr)
  .ok ({ qty := p.qty + qty, entry, fees := p.fees + fees }, t')

/-- position_inner.rs:189-204: book realised profit or loss against the treasury -/
def settlePnl (t : T) (v : Int) : Res T :=
  if v > 0 then move B t .wallet .treasury v
  else if v < 0 then move B t .treasury .wallet (-v)
  else .ok t

/-- position_inner.rs:217-227: pay outstanding fees if they are positive -/
def settleFees (t : T) (fees : Int) : Res (Int × T) :=
  if fees > 0 then do
    let t' ← move B t .exchangeFee .wallet fees
    .ok (0, t')
  else .ok (fees, t)

/-- position_inner.rs:158-228 `decrease_contracts`, see `Inner.decrease` -/
def decrease (e : Env) (imr : Int) (t : T) (p : Inner) (qty price dir fees : Int) :
    Res (Inner × T) := do
  assertP (qty > 0) .decreaseQty
  assertP (qty ≤ p.qty) .decreaseTooMuch
  debugP e.debug (p.qty - qty ≥ 0) .decreaseNegative
  let v ← pnl e p.entry price (if dir = 1 then qty else -qty)
  let t1 ← settlePnl B t v
  let c ← convert e qty p.entry
  debugP e.debug (dmul e.scale c imr > 0) .marginToFree
  let t2 ← move B t1 .wallet .positionMargin (dmul e.scale c imr)
  let r ← settleFees B t2 (p.fees + fees)
  .ok ({ qty := p.qty - qty, entry := p.entry, fees := r.1 }, r.2)

/-- position.rs:167-195 and 223-251: close the position and open the opposite one with the rest -/
def flip (e : Env) (imr : Int) (t : T) (p : Inner) (qty price dir fees : Int) :
    Res (Inner × T) := do
  let r ← decrease B e imr t p p.qty price dir fees
  assertP (r.1.qty = 0) .flipQty
  let v ← look B r.2 .positionMargin
  assertP (v = 0) .flipMargin
  innerNew B e imr r.2 (qty - p.qty) price 0

/-- position.rs:137-195 and 197-251: a fill against the position. `same` wraps what is left of it, `other`
the opposite position. -/
def against (e : Env) (imr : Int) (t : T) (p : Inner) (qty price dir fees : Int)
    (same other : Inner → Position) : Res (Position × T) :=
  if qty < p.qty then do
    let r ← decrease B e imr t p qty price dir fees
    .ok (same r.1, r.2)
  else if qty = p.qty then do
    let r ← decrease B e imr t p qty price dir fees
    debugZero B e r.2 .positionMargin .closedMargin
    .ok (.neutral, r.2)
  else do
    let r ← flip B e imr t p qty price dir fees
    .ok (other r.1, r.2)

/-- position.rs:85-260 `change_position` -/
def changePosition (e : Env) (imr : Int) (t : T) (pos : Position) (qty price : Int) (side : Side)
    (fees : Int) : Res (Position × T) := do
  debugP e.debug (qty > 0) .changeQty
  match pos with
  | .neutral => do
    debugZero B e t .positionMargin .neutralMargin
    let r ← innerNew B e imr t qty price fees
    match side with
    | .buy => .ok (.long r.1, r.2)
    | .sell => .ok (.short r.1, r.2)
  | .long p =>
    match side with
    | .buy => do
      let r ← increase B e imr t p qty price fees
      .ok (.long r.1, r.2)
    | .sell => against B e imr t p qty price 1 fees .long .short
  | .short p =>
    match side with
    | .buy => against B e imr t p qty price (-1) fees .short .long
    | .sell => do
      let r ← increase B e imr t p qty price fees
      .ok (.short r.1, r.2)

/-- exchange.rs:64-107, see `Lfest.State` -/
structure State (T : Type) where
  ms : MarketState
  log : List Event
  nextId : Nat
  acct : T
  pos : Position
  active : Book
  om : Book
  trigger : Trigger
  updates : List LimitUpdate

/-- exchange.rs:122-146 `new` -/
def State.init (c : Cfg) : State T :=
  { ms := .init, log := [], nextId := 0, acct := B.new c.start, pos := .neutral,
    active := [], om := [], trigger := .new (c.sampleSecs * 1000000000), updates := [] }

/-- exchange.rs:159-163 `fees_paid` -/
def feesPaid (s : State T) : Res Int := look B s.acct .exchangeFee

/-- exchange.rs:694-710 `user_balances` -/
def userBalances (t : T) : Res UserBalances := do
  let w ← look B t .wallet
  let p ← look B t .positionMargin
  let o ← look B t .orderMargin
  .ok { wallet := w, positionMargin := p, orderMargin := o }

/-- exchange.rs:279-302 `settle_filled_market_order` -/
def settleMarket (c : Cfg) (s : State T) (o : FilledMarket) : Res (State T) := do
  assertP (o.qty > 0) .settleQty
  assertP (o.avgFillPrice > 0) .settlePrice
  let value ← convert c.env o.qty o.avgFillPrice
  let r ← changePosition B c.env c.spec.initMarginReq s.acct s.pos o.qty o.avgFillPrice o.side
    (dmul c.scale value c.spec.feeTaker)
  .ok { s with pos := r.1, acct := r.2,
               log := .trade o.side o.avgFillPrice o.qty :: .marketFill :: s.log }

/-- exchange.rs:259-271: the risk check of a market order; a failing lookup is returned -/
def marketRisk (c : Cfg) (s : State T) (o : NewMarket) : Res (Except Error Unit) := do
  match ← B.balance s.acct .positionMargin with
  | .error err => .ok (.error err)
  | .ok pm => do
    match ← B.balance s.acct .wallet with
    | .error err => .ok (.error err)
    | .ok w => do
      match ← checkMarketOrder c s.pos pm o.side o.qty (touch s.ms o.side) w with
      | .error err => .ok (.error (.risk err))
      | .ok () => .ok (.ok ())

/-- exchange.rs:237-277 `submit_market_order` -/
def submitMarket (c : Cfg) (s : State T) (o : NewMarket) :
    Res (State T × Except Error FilledMarket) := do
  let s1 := { s with log := .marketSubmit o :: s.log }
  match ← c.spec.quantityFilter.validate o.qty with
  | .error err => .ok (s1, .error (.order err))
  | .ok () => do
    let s2 := { s1 with nextId := s1.nextId + 1 }
    match ← marketRisk B c s2 o with
    | .error err => .ok (s2, .error err)
    | .ok () => do
      let filled := o.intoFilled s1.nextId s2.ms.ts (touch s2.ms o.side) s2.ms.ts
      let s3 ← settleMarket B c s2 filled
      .ok (s3, .ok filled)

/-- exchange.rs:462-477: post the transfer and run the checks at the end of `append_limit_order` -/
def appendPost (s : State T) (amount : Int) : Res (State T) := do
  let t ← move B s.acct .orderMargin .wallet amount
  assertP (s.om = s.active) .booksDiffer
  emptyZero B t s.active
  walletCheck B t
  .ok { s with acct := t }

/-- exchange.rs:426-480 `append_limit_order` -/
def appendLimit (c : Cfg) (s : State T) (o : Limit) : Res (State T × Except Error Unit) := do
  match ← omUpdate c.maxOpen s.om o with
  | .error err => .ok (s, .error err)
  | .ok om' =>
    let s1 := { s with om := om' }
    match Book.insert activeCap s1.active o with
    | .error err => .ok (s1, .error err)
    | .ok (active', _) => do
      let s2 := { s1 with active := active' }
      let newMargin ← orderMargin c.env c.spec.initMarginReq s2.om s2.pos
      let margin ← look B s2.acct .orderMargin
      if newMargin > margin then do
        let s3 ← appendPost B s2 (newMargin - margin)
        .ok (s3, .ok ())
      else if newMargin < margin then do
        let s3 ← appendPost B s2 (margin - newMargin)
        .ok (s3, .ok ())
      else .ok (s2, .ok ())

/-- exchange.rs:339-348: the risk check of a limit order; a failing lookup is returned -/
def limitRisk (c : Cfg) (s : State T) (p : Limit) : Res (Except Error Unit) := do
  match ← B.balance s.acct .wallet with
  | .error err => .ok (.error err)
  | .ok w => do
    match ← checkLimitOrder c s.pos p w s.om with
    | .error err => .ok (.error (.risk err))
    | .ok () => .ok (.ok ())

/-- exchange.rs:317-374 `submit_limit_order` -/
def submitLimit (c : Cfg) (s : State T) (o : NewLimit) :
    Res (State T × Except Error Limit) := do
  let s1 := { s with log := .limitSubmit o :: s.log }
  match ← c.spec.quantityFilter.validate o.qty with
  | .error err => .ok (s1, .error (.order err))
  | .ok () => do
    match ← c.spec.priceFilter.validate c.scale o.price (s1.ms.mid c.scale) with
    | .error err => .ok (s1, .error (.order err))
    | .ok () => do
      let s2 := { s1 with nextId := s1.nextId + 1 }
      let p := o.intoPending s1.nextId s2.ms.ts
      match ← limitRisk B c s2 p with
      | .error err => .ok (s2, .error err)
      | .ok () =>
        if marketable s2.ms p.side p.price = true then
          .ok (s2, .error (.order (.goodTillCrossingRejected p.price (touch s2.ms p.side))))
        else do
          let r ← appendLimit B c s2 p
          match r.2 with
          | .error err => .ok (r.1, .error err)
          | .ok () => .ok (r.1, .ok p)

/-- exchange.rs:505-509 and 391-397, see `Lfest.missingOrder` -/
def missingOrder (s : State T) (id : Nat) : Error :=
  if id < s.nextId then .orderNoLongerActive else .orderIdNotFound id

/-- exchange.rs:500-515, see `Lfest.cancelError` -/
def cancelError (s : State T) : CancelBy → Error
  | .orderId id => missingOrder s id
  | .userOrderId _ => .userOrderIdNotFound

/-- exchange.rs:524-531 (and 649-656), see `Lfest.refund` -/
def refund (t : T) (margin newMargin : Int) : Res T :=
  if newMargin < margin then move B t .wallet .orderMargin (margin - newMargin)
  else .ok t

/-- exchange.rs:484-549 `cancel_limit_order` -/
def cancelLimit (c : Cfg) (s : State T) (by_ : CancelBy) :
    Res (State T × Except Error Limit) := do
  let margin ← look B s.acct .orderMargin
  let computed ← orderMargin c.env c.spec.initMarginReq s.om s.pos
  assertP (margin = computed) .cancelMarginMismatch
  match s.active.removeCancel by_ with
  | none => .ok (s, .error (cancelError s by_))
  | some (removed, active') => do
    let om' ← omRemove s.om by_
    let newMargin ← orderMargin c.env c.spec.initMarginReq om' s.pos
    assertP (newMargin ≤ margin) .cancelMarginIncrease
    let t ← refund B s.acct margin newMargin
    assertP (om' = active') .booksDiffer
    emptyZero B t active'
    .ok ({ s with active := active', om := om', acct := t, log := .limitCancel :: s.log },
      .ok removed)

/-- exchange.rs:382-420 `amend_limit_order` -/
def amendLimit (c : Cfg) (s : State T) (id : Nat) (new : NewLimit) :
    Res (State T × Except Error Limit) := do
  match s.active.getById id with
  | none => .ok (s, .error (missingOrder s id))
  | some old => do
    let total ← old.totalQuantity
    let leaves := old.remaining + (new.totalQuantity - total)
    if leaves ≤ 0 then do
      let r ← cancelLimit B c s (.orderId id)
      match r.2 with
      | .error _ => .error .amendCancel
      | .ok _ => .ok (r.1, .error .amendQtyAlreadyFilled)
    else do
      let new' ← new.setRemaining leaves
      let r ← cancelLimit B c s (.orderId id)
      match r.2 with
      | .error err => .ok (r.1, .error err)
      | .ok _ => submitLimit B c r.1 new'

/-- exchange.rs:566-690, see `Lfest.Loop` -/
structure Loop (T : Type) where
  acct : T
  pos : Position
  om : Book
  log : List Event
  updates : List LimitUpdate
  ids : List Nat

/-- exchange.rs:600-606 and 680-688: `debug_assert_eq!(account balance, order margin)`. The balance
is an argument of the first, read before it, and part of the second. -/
def debugMarginEq (c : Cfg) (margin : Res Int) (om : Book) (pos : Position) (p : Panic) :
    Res Unit :=
  if c.env.debug = true then do
    let v ← margin
    let m ← orderMargin c.env c.spec.initMarginReq om pos
    assertP (v = m) p
  else .ok ()

/-- exchange.rs:608-624, see `Lfest.applyFill` -/
def applyFill (c : Cfg) (ts : Int) (l : Loop T) (o : Limit) (q : Int) :
    Res (Loop T × Limit) := do
  match ← o.fill c.scale q ts with
  | (o', some f) => do
    let om' ← omRemove l.om (.orderId o'.id)
    .ok ({ l with ids := l.ids ++ [o'.id], log := .limitFill true q :: l.log, om := om',
                  updates := l.updates ++ [.fullyFilled f] }, o')
  | (o', none) => do
    debugP c.env.debug (o'.remaining > 0) .matchRemaining
    match ← omUpdate c.maxOpen l.om o' with
    | .error _ => .error .matchUpdate
    | .ok om' =>
      .ok ({ l with log := .limitFill false q :: l.log, om := om',
                    updates := l.updates ++ [.partiallyFilled o'] }, o')

/-- exchange.rs:626-639: settle the fill at the limit price with the maker fee -/
def settleLimit (c : Cfg) (l : Loop T) (o : Limit) (q : Int) : Res (Loop T) := do
  let value ← convert c.env q o.price
  let r ← changePosition B c.env c.spec.initMarginReq l.acct l.pos q o.price o.side
    (dmul c.scale value c.spec.feeMaker)
  .ok { l with pos := r.1, acct := r.2, log := .trade o.side o.price q :: l.log }

/-- exchange.rs:640-656: release order margin that is no longer required -/
def releaseMargin (c : Cfg) (l : Loop T) (margin : Int) : Res (Loop T) := do
  let newMargin ← orderMargin c.env c.spec.initMarginReq l.om l.pos
  debugP c.env.debug (newMargin ≤ margin) .matchMarginIncrease
  let t ← refund B l.acct margin newMargin
  .ok { l with acct := t }

/-- exchange.rs:583-657: one iteration of the loop -/
def matchOrder (c : Cfg) (u : Update) (l : Loop T) (o : Limit) : Res (Loop T × Limit) := do
  match ← u.filled c.env.debug o with
  | none => .ok (l, o)
  | some q => do
    debugP c.env.debug (q > 0) .matchQty
    let margin ← look B l.acct .orderMargin
    debugMarginEq c (.ok margin) l.om l.pos .matchMarginMismatch
    let r ← applyFill c u.ts l o q
    let l2 ← settleLimit B c r.1 r.2 q
    let l3 ← releaseMargin B c l2 margin
    .ok (l3, r.2)

/-- exchange.rs:582-658: the loop over the active orders, in arena order -/
def matchLoop (c : Cfg) (u : Update) (l : Loop T) : List Limit → Res (Loop T × List Limit)
  | [] => .ok (l, [])
  | o :: os => do
    let r ← matchOrder B c u l o
    let r' ← matchLoop c u r.1 os
    .ok (r'.1, r.2 :: r'.2)

/-- exchange.rs:566-690 `check_active_orders` -/
def checkActive (c : Cfg) (s : State T) (u : Update) : Res (State T) :=
  if u.canFill = false then .ok { s with updates := [] }
  else do
    debugP c.env.debug (s.om = s.active) .booksDiffer
    let r ← matchLoop B c u
      { acct := s.acct, pos := s.pos, om := s.om, log := s.log, updates := [], ids := [] }
      s.active
    let l := r.1
    let active' ← removeExecuted r.2 l.ids
    debugP c.env.debug (l.ids.length ≤ c.maxOpen) .idsCapacity
    debugP c.env.debug (l.om = active') .booksDiffer
    debugEmpty B c.env l.acct active'
    debugMarginEq c (look B l.acct .orderMargin) l.om l.pos .finalMarginMismatch
    walletCheck B l.acct
    .ok { s with acct := l.acct, pos := l.pos, om := l.om, log := l.log,
                 updates := l.updates, active := active' }

/-- exchange.rs:213-227 `liquidate` -/
def liquidate (c : Cfg) (s : State T) : Res (State T) := do
  let o ← liquidationOrder s.pos
  let r ← submitMarket B c s o
  match r.2 with
  | .error _ => .error .liquidateSubmit
  | .ok _ => .ok r.1

/-- exchange.rs:184-194: market state, tracker and sampling; the balances are asked only when a
sample is due -/
def observe (c : Cfg) (s : State T) (u : Update) : Res (State T) := do
  let ms' ← s.ms.update c.env.debug c.spec.priceFilter u
  let fired := s.trigger.fire u.ts
  let s1 := { s with ms := ms', trigger := fired.1, log := .update ms' :: s.log }
  if fired.2 = true then do
    let b ← userBalances B s.acct
    .ok { s1 with log := .sample b (ms'.mid c.scale) :: s1.log }
  else .ok s1

/-- exchange.rs:175-210 `update_state` -/
def updateState (c : Cfg) (s : State T) (u : Update) :
    Res (State T × Except Error (List LimitUpdate)) := do
  let s1 ← observe B c s u
  match checkMaintenanceMargin c s1.ms s1.pos with
  | .error err => do
    let s2 ← liquidate B c s1
    .ok (s2, .error (.risk err))
  | .ok () => do
    let s2 ← checkActive B c s1 u
    .ok (s2, .ok s2.updates)

/-- One API call: exchange.rs:175, 237, 317, 382, 484, see `Lfest.step` -/
def step (c : Cfg) (s : State T) : Op → Res (State T × Resp)
  | .update a => do
    let u ← a.build c.env.debug
    let r ← updateState B c s u
    .ok (r.1, .update r.2)
  | .checkActive a => do
    let u ← a.build c.env.debug
    let s' ← checkActive B c s u
    .ok (s', .unit)
  | .market side qty uid =>
    match NewMarket.new side qty uid with
    | .error err => .ok (s, .invalidOrder err)
    | .ok o => do
      let r ← submitMarket B c s o
      .ok (r.1, .market r.2)
  | .limit side price qty uid =>
    match NewLimit.new side price qty uid with
    | .error err => .ok (s, .invalidOrder err)
    | .ok o => do
      let r ← submitLimit B c s o
      .ok (r.1, .limit r.2)
  | .amend id side price qty uid =>
    match NewLimit.new side price qty uid with
    | .error err => .ok (s, .invalidOrder err)
    | .ok o => do
      let r ← amendLimit B c s id o
      .ok (r.1, .limit r.2)
  | .cancel by_ => do
    let r ← cancelLimit B c s by_
    .ok (r.1, .limit r.2)

/-- A sequence of API calls on the `Exchange` of exchange.rs:122; a panic ends it. -/
def run (c : Cfg) (s : State T) : List Op → Res (State T)
  | [] => .ok s
  | op :: ops => do
    let r ← step B c s op
    run c r.1 ops

end Lfest.Acct
