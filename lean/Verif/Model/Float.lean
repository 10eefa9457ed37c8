import Mathlib.Data.Int.Log
import Mathlib.Data.Rat.Floor
import Mathlib.Algebra.Order.Field.Rat
import Verif.Model.Basic

/-!
# Conversion of floating point numbers

`decimal_from_f64` together with the parts of IEEE 754 binary64 arithmetic it uses. A finite `f64`
is modelled by its value, a rational number; the sign of zero is not modelled.
-/

namespace Lfest

/-- IEEE 754 binary64 values, as used in utils.rs:59. -/
inductive F64 where
  | finite (v : ℚ)
  | inf (negative : Bool)
  | nan

/-- The nearest integer, the even one of two that are equally near. IEEE 754
`roundTiesToEven`, which is how the product in utils.rs:61 is rounded. -/
def nearestEven (x : ℚ) : ℤ :=
  if x - ⌊x⌋ < 1 / 2 then ⌊x⌋
  else if 1 / 2 < x - ⌊x⌋ then ⌊x⌋ + 1
  else if ⌊x⌋ % 2 = 0 then ⌊x⌋ else ⌊x⌋ + 1

/-- The distance of neighbouring binary64 values around `x`: 52 bits below the leading bit, and
never less than `2^-1074`. IEEE 754, used for utils.rs:61. -/
def f64Step (x : ℚ) : ℚ := 2 ^ (max (Int.log 2 |x|) (-1022) - 52)

/-- The binary64 value a real result is rounded to when the exponent has no upper limit. IEEE 754,
used for utils.rs:61. -/
def roundF64 (x : ℚ) : ℚ := nearestEven (x / f64Step x) * f64Step x

/-- The limit of binary64: results of this size are infinite. IEEE 754, used for utils.rs:61. -/
def f64Limit : ℚ := 2 ^ 1024

/-- Multiplication of an `f64` by a positive finite number, utils.rs:61 `val * scaling_factor`.
-/
def F64.scale (k : ℚ) : F64 → F64
  | .finite v =>
    if f64Limit ≤ |roundF64 (v * k)| then .inf (decide (v * k < 0))
    else .finite (roundF64 (v * k))
  | .inf n => .inf n
  | .nan => .nan

/-- `f64::round`, utils.rs:61: half-way cases away from zero. -/
def awayFromZero (x : ℚ) : ℤ := if 0 ≤ x then ⌊x + 1 / 2⌋ else -⌊-x + 1 / 2⌋

/-- `i64::MIN`, used in utils.rs:63. -/
def i64Min : Int := -9223372036854775808

/-- `i64::MAX`, used in utils.rs:63. -/
def i64Max : Int := 9223372036854775807

/-- `.round()` and `as i64`, utils.rs:61-63. The cast saturates and maps NaN to zero. -/
def F64.roundToI64 : F64 → Int
  | .finite v => max i64Min (min i64Max (awayFromZero v))
  | .inf n => if n then i64Min else i64Max
  | .nan => 0

/-- types/errors/main.rs:44-48: the two conversion errors. -/
inductive ConvError where
  | integerConversion
  | unableToCreateDecimal
  deriving DecidableEq, Repr

/-- utils.rs:59-66 `decimal_from_f64`, for an integer type `I` with the values `lo` to `hi` and `D`
decimals. The result is the raw integer of the `Decimal`. `10_f64.powi(D)` (60) is exact for
`D ≤ 22`, which is assumed. `I::from` (63) fails outside of `I`. `Decimal::try_from_scaled` (63)
with the scale `D` keeps the integer as it is, so `UnableToCreateDecimal` (64) does not occur. -/
def decimalFromF64 (lo hi : Int) (decimals : Nat) (val : F64) : Except ConvError Int :=
  let i := (val.scale (10 ^ decimals)).roundToI64
  if lo ≤ i ∧ i ≤ hi then .ok i else .error .integerConversion

end Lfest
