import Verif.SpecDrawdown
import Verif.SpecSample
import Verif.Model.Drawdown32

/-!
# Specification of drawdowns in single precision (C121)
-/

namespace Lfest.Spec

/-- How far the last value lies below the highest one, as a fraction of the highest one, with the
difference and the quotient computed in `f32`. -/
def fall32 (xs : List ℚ) : F32 :=
  ((F32.finite (peak xs)).sub (.finite (xs.getLast?.getD 0))).div (.finite (peak xs))

/-- The fall at the end, and the fall at some time. -/
def fallsBy (xs : List ℚ) (v : ℚ) : Prop := fall32 xs = .finite v
def onceFellBy (xs : List ℚ) (v : ℚ) : Prop := ∃ n < xs.length, fallsBy (xs.take (n + 1)) v

/-- What is assumed of the external drawdown. Without values it has no answer. With positive values,
all falls of which are numbers, its answer is a number, at least the present fall and at most one of
the falls so far. -/
def IsDrawdown32 (D : List F32 → Option F32) : Prop :=
  D [] = none ∧ ∀ xs : List ℚ, xs ≠ [] → (∀ x ∈ xs, 0 < x) →
    (∀ n < xs.length, ∃ v, fallsBy (xs.take (n + 1)) v) →
    ∃ d, D (xs.map .finite) = some (.finite d) ∧ (∀ v, fallsBy xs v → v ≤ d) ∧
      ∃ v, onceFellBy xs v ∧ d ≤ v

end Lfest.Spec
