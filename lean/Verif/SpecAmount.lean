import Verif.Spec

/-!
# What a rounded result is

Specification for the arithmetic of amounts (C117).
-/

namespace Lfest.Spec

/-- `r` is the fraction `n / d` rounded toward zero to an integer: not larger in size, less than one
off, and not of the other sign. -/
def RoundsToZero (n d r : Int) : Prop :=
  abs r * abs d ≤ abs n ∧ abs n < (abs r + 1) * abs d ∧ 0 ≤ r * (n * d)

end Lfest.Spec
