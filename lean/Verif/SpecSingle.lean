import Verif.SpecFloat

/-!
# What a single is

Independent of the model: the finite values of IEEE 754 binary32 and the one nearest to a number.
-/

namespace Lfest.Spec

/-- `v` is a multiple of a power of two with a 24 bit multiplier. (No upper limit of the
exponent.) -/
def IsSingle (v : ℚ) : Prop := ∃ (m e : ℤ), |m| ≤ 2 ^ 24 ∧ -149 ≤ e ∧ v = m * 2 ^ e

/-- No single is nearer to `x` than `v`. -/
def NearestSingle (v x : ℚ) : Prop := IsSingle v ∧ ∀ w, IsSingle w → |v - x| ≤ |w - x|

end Lfest.Spec
