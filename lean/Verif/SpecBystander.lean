import Verif.SpecAlone
import Verif.SpecClean

/-!
# Two histories, one with further orders

Specification for C149: a history, and the same history with further limit orders submitted,
amended and cancelled in between. Orders get their ids in the sequence of submission, so that `f` says which id
an order of the first history has in the second. `extra` are the ids of the further orders.
-/

namespace Lfest.Bystander

open Spec Life

/-- The call was carried out. -/
def carriedOut : Resp → Bool
  | .update (.ok _) => true
  | .market (.ok _) => true
  | .limit (.ok _) => true
  | _ => false

/-- The two answers speak of the same limit order. -/
def sameOrder (f : Nat → Nat) : Resp → Resp → Bool
  | .limit (.ok o), .limit (.ok o') => decide (o'.id = f o.id)
  | _, _ => true

/-- The same calls were made and carried out, with the same orders. -/
def sameCalls (f : Nat → Nat) : List (Op × Resp) → List (Op × Resp) → Bool
  | [], [] => true
  | (op, r) :: tr, (op', r') :: tr' =>
    decide (op' = Rename.op f op) && carriedOut r && carriedOut r' && sameOrder f r r' &&
      sameCalls f tr tr'
  | _, _ => false

/-- A further order is submitted, amended or cancelled. -/
def further (extra : Nat → Bool) : Op × Resp → Bool
  | (.limit _ _ _ _, .limit (.ok o)) => extra o.id
  | (.amend id _ _ _ _, .limit (.ok o)) => extra id && extra o.id
  | (.cancel _, .limit (.ok o)) => extra o.id
  | _ => false

/-- The second history is the first with further orders. -/
def withFurther (f : Nat → Nat) (extra : Nat → Bool) (tr tr' : List (Op × Resp)) : Prop :=
  sameCalls f tr (tr'.filter (fun x => !further extra x)) = true

/-- No update fills any of these orders. -/
def unfilled (extra : Nat → Bool) (tr : List (Op × Resp)) : Prop :=
  ∀ id, extra id = true → ∀ e ∈ life id tr, (∀ o, e ≠ .partly o) ∧ ∀ x, e ≠ .filled x

/-- No update fills two orders. -/
def oneByOne (tr : List (Op × Resp)) : Prop :=
  ∀ u ups, (u, Resp.update (.ok ups)) ∈ tr → ups.length ≤ 1

/-- Market data whose fills do not depend on the id of an order. -/
def anyId (op : Op) : Prop := ∀ u, op = .update u → Alone.impersonal u

end Lfest.Bystander
