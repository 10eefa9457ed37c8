import Verif.SpecReal
import Verif.Model.Sample32

/-!
# What is asked of the external functions of C106, and of the returns
-/

namespace Lfest.Spec

/-- The conversion of amounts to `f64` keeps their order and is exact up to `2^-50` of the amount. -/
def Converts (e : Env) (toF64 : Int → ℚ) : Prop :=
  (∀ a b, a ≤ b → toF64 a ≤ toF64 b) ∧
  ∀ a : Int, |toF64 a - a / e.scale| ≤ |(a : ℚ) / e.scale| / 2 ^ 50

/-- The logarithm of a positive number is a number and has the right sign. -/
def LogSign (ln : F32 → F32) : Prop :=
  ∀ x : ℚ, 0 < x → ∃ y, ln (.finite x) = .finite y ∧ (y < 0 ↔ x < 1) ∧ (0 < y ↔ 1 < x)

/-- Consecutive values. -/
def changes : List Int → List (Int × Int)
  | a :: b :: rest => (a, b) :: changes (b :: rest)
  | _ => []

/-- Positive, and neither tiny nor huge. -/
def Sane (e : Env) (a : Int) : Prop := 1 / 2 ^ 63 ≤ (a : ℚ) / e.scale ∧ (a : ℚ) / e.scale ≤ 2 ^ 62

/-- The return reported for a balance that went from `x.1` to `x.2`: no profit is seen as a loss and
no loss as a profit, a change of more than `2^-22` is seen, and the return is zero exactly if the
two balances are rounded to the same `f32`. -/
def SeenAs (toF64 : Int → ℚ) (x : Int × Int) (ret : F32) : Prop :=
  ∃ v, ret = .finite v ∧ (v < 0 → x.2 < x.1) ∧ (0 < v → x.1 < x.2) ∧
    ((x.2 : ℚ) < x.1 * (1 - 1 / 2 ^ 22) → v < 0) ∧
    ((x.1 : ℚ) * (1 + 1 / 2 ^ 22) < x.2 → 0 < v) ∧
    (v = 0 ↔ F32.of (toF64 x.1) = F32.of (toF64 x.2))

end Lfest.Spec
