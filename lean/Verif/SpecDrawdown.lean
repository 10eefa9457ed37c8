import Verif.SpecReal
import Mathlib.Algebra.Order.Field.Rat

/-!
# Specification of drawdowns (C89)
-/

namespace Lfest.Spec

/-- The highest value so far. -/
def peak : List Rat → Rat
  | [] => 0
  | x :: xs => xs.foldl max x

/-- How far the last value lies below the highest one, as a fraction of the highest one. -/
def fallFromPeak (xs : List Rat) : Rat := (peak xs - xs.getLast?.getD 0) / peak xs

/-- The largest such fall at any time. -/
def deepestFall (xs : List Rat) : Rat :=
  ((List.range xs.length).map (fun n => fallFromPeak (xs.take (n + 1)))).foldl max 0

/-- What is assumed of the external drawdown: without values it has no answer, and otherwise its
answer is at least the present and at most the deepest fall from the peak. -/
def IsDrawdown (D : List Rat → Option Rat) : Prop :=
  D [] = none ∧ ∀ xs, xs ≠ [] → 0 < xs.head?.getD 0 →
    ∃ d, D xs = some d ∧ fallFromPeak xs ≤ d ∧ d ≤ deepestFall xs

/-- The series never falls. -/
def neverFalls : List Int → Prop
  | a :: b :: rest => a ≤ b ∧ neverFalls (b :: rest)
  | _ => True

instance decNeverFalls : (xs : List Int) → Decidable (neverFalls xs)
  | [] => inferInstanceAs (Decidable True)
  | [_] => inferInstanceAs (Decidable True)
  | a :: b :: rest =>
    have := decNeverFalls (b :: rest)
    inferInstanceAs (Decidable (_ ∧ _))

end Lfest.Spec
