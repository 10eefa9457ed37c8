import Verif.SpecSample
import Verif.SpecSingle
import Verif.Model.Stats32

/-!
# What is asked of the external functions of C119
-/

namespace Lfest.Spec

/-- The logarithms of quotients of balances are singles of moderate size. (Between `2^-127` and
`2^127` they are less than 89.) -/
def LogBounded (ln : F32 → F32) : Prop :=
  ∀ x : ℚ, 1 / 2 ^ 127 ≤ x → x ≤ 2 ^ 127 → ∃ y, ln (.finite x) = .finite y ∧ IsSingle y ∧ |y| ≤ 128

/-- The square root of a number that is not negative is such a number, and zero only for zero. -/
def RootSign (sqrt : F32 → F32) : Prop :=
  ∀ x : ℚ, 0 ≤ x → ∃ y, sqrt (.finite x) = .finite y ∧ 0 ≤ y ∧ (y = 0 ↔ x = 0)

/-- A number or infinite, and not negative. -/
def NotBelow0 : F32 → Prop
  | .finite v => 0 ≤ v
  | .inf n => n = false
  | .nan => False

/-- A number or infinite, and not positive. -/
def NotAbove0 : F32 → Prop
  | .finite v => v ≤ 0
  | .inf n => n = true
  | .nan => False

end Lfest.Spec
