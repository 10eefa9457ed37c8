import Verif.Model.Exchange

/-!
# Copies of an exchange

`Exchange` derives `Clone` (exchange.rs:63), so a user whose accounting and tracker are `Clone` can
copy one, say to try out an order. (`InMemoryTransactionAccounting` is not `Clone`,
accounting/in_memory_accounting.rs:28; the trait is public and a user can supply another.) The
limits on the number of orders are read off the capacities of vectors, and a copied vector has its
own capacity. Here the capacities are part of the value.

Trusted about `Vec`: `with_capacity(n)` has capacity `n`, the clone of a vector has its length as
capacity, and pushing to a full vector doubles the capacity, to at least four. The standard library
documents lower bounds only; these are the values it has.
-/

namespace Lfest

/-- The capacities of the arena of margined orders (order_margin.rs:25), of the arena of active
orders (exchange.rs:99) and of `ids_to_remove` (exchange.rs:106). -/
structure Caps where
  om : Nat
  active : Nat
  ids : Nat
  deriving DecidableEq, Repr

/-- exchange.rs:64-107, an exchange with the capacities of its vectors. The capacity of
`limit_order_updates` is never read. -/
structure Exch where
  s : State
  caps : Caps
  deriving DecidableEq, Repr

/-- exchange.rs:122-146 `new` -/
def Exch.new (c : Cfg) : Exch :=
  { s := .init c, caps := { om := c.maxOpen, active := activeCap, ids := c.maxOpen } }

/-- exchange.rs:63, the derived `clone`. (`ids_to_remove` is empty between calls.) -/
def Exch.clone (x : Exch) : Exch :=
  { s := x.s, caps := { om := x.s.om.length, active := x.s.active.length, ids := 0 } }

/-- exchange.rs:611: the capacity after `push` on a vector of length `len` -/
def pushCap (cap len : Nat) : Nat :=
  if len < cap then cap else max (max (2 * cap) (len + 1)) 4

/-- exchange.rs:611: the capacity after `n` pushes on the empty vector -/
def idsCap (cap : Nat) : Nat → Nat
  | 0 => cap
  | n + 1 => pushCap (idsCap cap n) n

/-- exchange.rs:426-480 `append_limit_order` -/
def appendLimitC (k : Caps) (c : Cfg) (s : State) (o : Limit) : Res (State × Except Error Unit) := do
  match ← omUpdate k.om s.om o with
  | .error err => .ok (s, .error err)
  | .ok om' =>
    let s1 := { s with om := om' }
    match Book.insert k.active s1.active o with
    | .error err => .ok (s1, .error err)
    | .ok (active', _) => do
      let s2 := { s1 with active := active' }
      let newMargin ← orderMargin c.env c.spec.initMarginReq s2.om s2.pos
      let margin := s2.acct.balance .orderMargin
      if newMargin > margin then do
        let a ← transfer c.env s2.acct .orderMargin .wallet (newMargin - margin)
        let s3 ← appendChecks { s2 with acct := a }
        .ok (s3, .ok ())
      else if newMargin < margin then do
        let a ← transfer c.env s2.acct .orderMargin .wallet (margin - newMargin)
        let s3 ← appendChecks { s2 with acct := a }
        .ok (s3, .ok ())
      else .ok (s2, .ok ())

/-- exchange.rs:317-374 `submit_limit_order` -/
def submitLimitC (k : Caps) (c : Cfg) (s : State) (o : NewLimit) :
    Res (State × Except Error Limit) := do
  let s1 := { s with log := .limitSubmit o :: s.log }
  match ← c.spec.quantityFilter.validate o.qty with
  | .error err => .ok (s1, .error (.order err))
  | .ok () => do
    match ← c.spec.priceFilter.validate c.scale o.price (s1.ms.mid c.scale) with
    | .error err => .ok (s1, .error (.order err))
    | .ok () => do
      let s2 := { s1 with nextId := s1.nextId + 1 }
      let p := o.intoPending s1.nextId s2.ms.ts
      match ← checkLimitOrder c s2.pos p (s2.acct.balance .wallet) s2.om with
      | .error err => .ok (s2, .error (.risk err))
      | .ok () =>
        if marketable s2.ms p.side p.price = true then
          .ok (s2, .error (.order (.goodTillCrossingRejected p.price (touch s2.ms p.side))))
        else do
          match ← appendLimitC k c s2 p with
          | (s3, .error err) => .ok (s3, .error err)
          | (s3, .ok ()) => .ok (s3, .ok p)

/-- exchange.rs:382-420 `amend_limit_order` -/
def amendLimitC (k : Caps) (c : Cfg) (s : State) (id : Nat) (new : NewLimit) :
    Res (State × Except Error Limit) := do
  match s.active.getById id with
  | none => .ok (s, .error (missingOrder s id))
  | some old => do
    let total ← old.totalQuantity
    let leaves := old.remaining + (new.totalQuantity - total)
    if leaves ≤ 0 then do
      match ← cancelLimit c s (.orderId id) with
      | (_, .error _) => .error .amendCancel
      | (s', .ok _) => .ok (s', .error .amendQtyAlreadyFilled)
    else do
      let new' ← new.setRemaining leaves
      match ← cancelLimit c s (.orderId id) with
      | (s', .error err) => .ok (s', .error err)
      | (s', .ok _) => submitLimitC k c s' new'

/-- exchange.rs:566-690 `check_active_orders`: the state and the capacity of `ids_to_remove`. The
loop updates the arena of margined orders, whose capacity it gets in place of the configured
number. -/
def checkActiveC (k : Caps) (c : Cfg) (s : State) (u : Update) : Res (State × Nat) :=
  if u.canFill = false then .ok ({ s with updates := [] }, k.ids)
  else do
    debugP c.env.debug (s.om = s.active) .booksDiffer
    let (l, orders) ← matchLoop { c with maxOpen := k.om } u
      { acct := s.acct, pos := s.pos, om := s.om, log := s.log, updates := [], ids := [] }
      s.active
    let active' ← removeExecuted orders l.ids
    debugP c.env.debug (idsCap k.ids l.ids.length = c.maxOpen) .idsCapacity
    debugP c.env.debug (l.om = active') .booksDiffer
    debugP c.env.debug (active' = [] → l.acct.balance .orderMargin = 0) .emptyButMargin
    debugMarginEq c l.acct l.om l.pos .finalMarginMismatch
    assertP (l.acct.balance .wallet ≥ 0) .walletNegative
    .ok ({ s with acct := l.acct, pos := l.pos, om := l.om, log := l.log,
                  updates := l.updates, active := active' }, idsCap k.ids l.ids.length)

/-- exchange.rs:175-210 `update_state` -/
def updateStateC (k : Caps) (c : Cfg) (s : State) (u : Update) :
    Res ((State × Nat) × Except Error (List LimitUpdate)) := do
  let s1 ← observe c s u
  match checkMaintenanceMargin c s1.ms s1.pos with
  | .error err => do
    let s2 ← liquidate c s1
    .ok ((s2, k.ids), .error (.risk err))
  | .ok () => do
    let s2 ← checkActiveC k c s1 u
    .ok (s2, .ok s2.1.updates)

/-- One API call, as `step`: exchange.rs:175, 237, 317, 382, 484. -/
def Exch.step (c : Cfg) (x : Exch) : Op → Res (Exch × Resp)
  | .update a => do
    let u ← a.build c.env.debug
    let (s', r) ← updateStateC x.caps c x.s u
    .ok (⟨s'.1, { x.caps with ids := s'.2 }⟩, .update r)
  | .checkActive a => do
    let u ← a.build c.env.debug
    let s' ← checkActiveC x.caps c x.s u
    .ok (⟨s'.1, { x.caps with ids := s'.2 }⟩, .unit)
  | .market side qty uid =>
    match NewMarket.new side qty uid with
    | .error err => .ok (x, .invalidOrder err)
    | .ok o => do
      let (s', r) ← submitMarket c x.s o
      .ok (⟨s', x.caps⟩, .market r)
  | .limit side price qty uid =>
    match NewLimit.new side price qty uid with
    | .error err => .ok (x, .invalidOrder err)
    | .ok o => do
      let (s', r) ← submitLimitC x.caps c x.s o
      .ok (⟨s', x.caps⟩, .limit r)
  | .amend id side price qty uid =>
    match NewLimit.new side price qty uid with
    | .error err => .ok (x, .invalidOrder err)
    | .ok o => do
      let (s', r) ← amendLimitC x.caps c x.s id o
      .ok (⟨s', x.caps⟩, .limit r)
  | .cancel by_ => do
    let (s', r) ← cancelLimit c x.s by_
    .ok (⟨s', x.caps⟩, .limit r)

/-- What a user does with an exchange: a call of exchange.rs:175-566, or go on with a copy
(exchange.rs:63). -/
inductive Use where
  | call (op : Op)
  | copy
  deriving DecidableEq, Repr

/-- The calls among the uses (exchange.rs:175-566). -/
def Use.calls : List Use → List Op
  | [] => []
  | .call op :: us => op :: Use.calls us
  | .copy :: us => Use.calls us

/-- A sequence of calls and copies on the `Exchange` of exchange.rs:64, with the responses. -/
def Exch.uses (c : Cfg) (x : Exch) : List Use → Res (Exch × List Resp)
  | [] => .ok (x, [])
  | .call op :: us => do
    let (x1, r) ← x.step c op
    let (x2, rs) ← Exch.uses c x1 us
    .ok (x2, r :: rs)
  | .copy :: us => Exch.uses c x.clone us

end Lfest
