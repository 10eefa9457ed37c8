import Mathlib.Data.Rat.Floor
import Mathlib.Algebra.Order.Field.Rat

/-!
# What a double is

Independent of the model: the finite values of IEEE 754 binary64, the double nearest to a number,
and the number a decimal text such as `-12.345` stands for.
-/

namespace Lfest.Spec

/-- `v` is a multiple of a power of two with a 53 bit multiplier. (No upper limit of the
exponent.) -/
def IsDouble (v : ℚ) : Prop := ∃ (m e : ℤ), |m| ≤ 2 ^ 53 ∧ -1074 ≤ e ∧ v = m * 2 ^ e

/-- No double is nearer to `x` than `v`: what a literal or a correctly rounded operation gives. -/
def NearestDouble (v x : ℚ) : Prop := IsDouble v ∧ ∀ w, IsDouble w → |v - x| ≤ |w - x|

/-- The number with `raw` units of the last of `decimals` places. -/
def decimalValue (decimals : Nat) (raw : Int) : ℚ := raw / 10 ^ decimals

end Lfest.Spec
