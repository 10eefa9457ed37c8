import Verif.Model.Bookkeeping

/-!
# What it means for an accounting to keep the books

Terms for the statements about an exchange over an accounting of the user's own.
-/

namespace Lfest.Spec

open Lfest.Acct

variable {T T' : Type}

/-- The accounting `t` says that account `i` holds `v`. -/
def Says (B : Bookkeeping T) (t : T) (i : AccountId) (v : Int) : Prop :=
  B.balance t i = .ok (.ok v)

/-- The accounting keeps the books, as long as it is in one of the states `good`: it starts with the
user's funds in the wallet, owed by the treasury, it can always say what an account holds, and it
carries out every transfer of a positive amount between two accounts. -/
structure KeepsBooks (B : Bookkeeping T) (good : T → Prop) : Prop where
  start : ∀ x, good (B.new x)
  start_wallet : ∀ x, Says B (B.new x) .wallet x
  start_treasury : ∀ x, Says B (B.new x) .treasury (-x)
  start_others : ∀ x i, i ≠ .wallet → i ≠ .treasury → Says B (B.new x) i 0
  readable : ∀ t i, good t → ∃ v, Says B t i v
  carries_out : ∀ t debit credit amount, good t → 0 < amount → debit ≠ credit →
    ∃ t', B.transfer t debit credit amount = .ok (.ok t') ∧ good t' ∧
      (∀ v, Says B t debit v → Says B t' debit (v + amount)) ∧
      (∀ v, Says B t credit v → Says B t' credit (v - amount)) ∧
      (∀ i v, i ≠ debit → i ≠ credit → Says B t i v → Says B t' i v)

/-- What the calls answer, one after the other, and how the history ends: the exchange that is left
behind or the panic. `next` is one call. -/
def transcript {S : Type} (next : S → Op → Res (S × Resp)) (s : S) :
    List Op → List Resp × Res S
  | [] => ([], .ok s)
  | op :: ops =>
    match next s op with
    | .error p => ([], .error p)
    | .ok (s', r) => (r :: (transcript next s' ops).1, (transcript next s' ops).2)

/-- Two exchanges over different accountings look the same: they agree on the market, the calls to
the tracker, the next order id, the position, the orders, the sampling and the order updates, and
both accountings say the same about every account. -/
structure LooksLike (B : Bookkeeping T) (s : Acct.State T) (s' : Lfest.State) : Prop where
  ms : s.ms = s'.ms
  log : s.log = s'.log
  nextId : s.nextId = s'.nextId
  pos : s.pos = s'.pos
  active : s.active = s'.active
  om : s.om = s'.om
  trigger : s.trigger = s'.trigger
  updates : s.updates = s'.updates
  balances : ∀ i, Says B s.acct i (s'.acct.balance i)

/-- A transfer: which account is debited, which is credited, and the amount -/
structure Posting where
  debit : AccountId
  credit : AccountId
  amount : Int

/-- `t'` is what `t` becomes when it carries out the postings in order. -/
def Posts (B : Bookkeeping T) (t : T) : List Posting → T → Prop
  | [], t' => t' = t
  | p :: ps, t' => ∃ t1, B.transfer t p.debit p.credit p.amount = .ok (.ok t1) ∧ Posts B t1 ps t'

end Lfest.Spec
