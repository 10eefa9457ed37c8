import Verif.SpecClean

/-!
# Two accounts that differ in their past only

Specification for C118. An exchange that has already issued `k` more order ids answers the same
calls with ids that are larger by `k`, so the calls that name orders have to be translated.
-/

namespace Lfest

open Spec

namespace Later

-- how many more order ids have been issued
variable (k : Nat)

/-- An update of the user's own type may say which orders it fills. -/
def update : UpdateArg → UpdateArg
  | .custom x => .custom { x with fills := x.fills.map fun p => (p.1 + k, p.2) }
  | u => u

/-- The same call, with the ids of the later exchange. -/
def op : Op → Op
  | .update u => .update (update k u)
  | .checkActive u => .checkActive (update k u)
  | .amend id side p q uid => .amend (id + k) side p q uid
  | .cancel (.orderId id) => .cancel (.orderId (id + k))
  | x => x

/-- The same result, with the ids of the later exchange. -/
def limitResult : Except Error Limit → Except Error Limit
  | .ok o => .ok (Rename.limit (· + k) o)
  | .error (.orderIdNotFound id) => .error (.orderIdNotFound (id + k))
  | .error err => .error err

/-- The same answer, with the ids of the later exchange. -/
def resp : Resp → Resp
  | .update (.ok us) => .update (.ok (us.map (Rename.limitUpdate (· + k))))
  | .market (.ok o) => .market (.ok (Rename.filledMarket (· + k) o))
  | .limit r => .limit (limitResult k r)
  | x => x

end Later

/-- Configurations that differ in the starting balance and the sampling interval at most. -/
def Cfg.like (c d : Cfg) : Prop :=
  c.env = d.env ∧ c.maxOpen = d.maxOpen ∧ c.spec = d.spec

/-- In the state `s` the account looks like that in the state `t`, but `k` more order ids have been
issued. How often the market was updated, the fees paid, the profits made and the statistics may all
be different. -/
structure SameAccount (k : Nat) (t s : State) : Prop where
  bid : s.ms.bid = t.ms.bid
  ask : s.ms.ask = t.ms.ask
  time : s.ms.ts = t.ms.ts
  position : s.pos = t.pos
  orders : s.active = t.active.map (Rename.limit (· + k))
  next : s.nextId = t.nextId + k
  wallet : s.acct.balance .wallet = t.acct.balance .wallet
  orderMargin : s.acct.balance .orderMargin = t.acct.balance .orderMargin
  positionMargin : s.acct.balance .positionMargin = t.acct.balance .positionMargin

/-- No position, no orders, no margin held back: all the money is in the wallet. -/
def idle (s : State) : Prop :=
  s.pos = .neutral ∧ s.active = [] ∧ s.acct.balance .orderMargin = 0 ∧
    s.acct.balance .positionMargin = 0

instance (s : State) : Decidable (idle s) := by unfold idle; infer_instance

/-- Updates of the library that carry quotes. -/
def setsQuotes : UpdateArg → Bool
  | .bba _ => true
  | .candle _ => true
  | .smart _ _ _ => true
  | _ => false

end Lfest
