import Verif.SpecFloat
import Mathlib.Algebra.BigOperators.Group.List.Basic

/-!
# Mean and variance of numbers (C104)
-/

namespace Lfest.Spec

/-- Arithmetic mean. -/
def average (vals : List ℚ) : ℚ := vals.sum / vals.length

/-- Mean of the absolute values. -/
def averageAbs (vals : List ℚ) : ℚ := average (vals.map fun v => |v|)

/-- Mean squared distance from the mean. -/
def variance (vals : List ℚ) : ℚ := average (vals.map fun v => (v - average vals) ^ 2)

/-- Doubles of moderate size, and not too many of them: sums and squares stay far from the largest
double. -/
def Moderate (vals : List ℚ) : Prop :=
  vals ≠ [] ∧ vals.length < 2 ^ 50 ∧ ∀ v ∈ vals, IsDouble v ∧ |v| ≤ 2 ^ 400

/-- Mean of the `k`-th powers of the distances from `m`. -/
def momentAbout (k : ℕ) (m : ℚ) (vals : List ℚ) : ℚ := average (vals.map fun v => (v - m) ^ k)

/-- The same without signs. -/
def absMomentAbout (k : ℕ) (m : ℚ) (vals : List ℚ) : ℚ :=
  average (vals.map fun v => |v - m| ^ k)

/-- Doubles neither too large nor too fine, and not too many of them: fourth powers of differences
are neither infinite nor lost. -/
def Fair (vals : List ℚ) : Prop :=
  vals ≠ [] ∧ vals.length < 2 ^ 50 ∧
    ∀ v ∈ vals, IsDouble v ∧ (∃ z : ℤ, v = z * 2 ^ (-100 : ℤ)) ∧ |v| ≤ 2 ^ 200

end Lfest.Spec
