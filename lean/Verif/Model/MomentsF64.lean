import Mathlib.Data.Nat.Sqrt
import Verif.Model.Float

/-!
# Statistical moments in `f64` arithmetic (account_tracker/statistical_moments.rs)

The function of `Model/Moments` with the rounding of IEEE 754 binary64. The sign of zero is not
modelled.
-/

namespace Lfest

deriving instance DecidableEq for F64

/-- The `f64` a real result is rounded to. IEEE 754, used for
account_tracker/statistical_moments.rs:16-28. -/
def F64.of (x : ℚ) : F64 :=
  if f64Limit ≤ |roundF64 x| then .inf (decide (x < 0)) else .finite (roundF64 x)

/-- IEEE 754 negation, for the subtraction in account_tracker/statistical_moments.rs:19-26. -/
def F64.neg : F64 → F64
  | .finite a => .finite (-a)
  | .inf n => .inf (!n)
  | .nan => .nan

/-- IEEE 754 addition, account_tracker/statistical_moments.rs:16-26 `sum`. -/
def F64.add : F64 → F64 → F64
  | .finite a, .finite b => .of (a + b)
  | .finite _, .inf n => .inf n
  | .inf m, .finite _ => .inf m
  | .inf m, .inf n => if m = n then .inf m else .nan
  | _, .nan => .nan
  | .nan, _ => .nan

/-- IEEE 754 subtraction, account_tracker/statistical_moments.rs:19-28. -/
def F64.sub (a b : F64) : F64 := a.add b.neg

/-- IEEE 754 multiplication, account_tracker/statistical_moments.rs:19-27. -/
def F64.mul : F64 → F64 → F64
  | .finite a, .finite b => .of (a * b)
  | .finite a, .inf n => if a = 0 then .nan else .inf (n != decide (a < 0))
  | .inf m, .finite b => if b = 0 then .nan else .inf (m != decide (b < 0))
  | .inf m, .inf n => .inf (m != n)
  | _, .nan => .nan
  | .nan, _ => .nan

/-- IEEE 754 division, account_tracker/statistical_moments.rs:16-27. The divisors are a count and
powers of the variance, so a zero divisor has the sign plus. -/
def F64.div : F64 → F64 → F64
  | .finite a, .finite b =>
    if b = 0 then (if a = 0 then .nan else .inf (decide (a < 0))) else .of (a / b)
  | .finite _, .inf _ => .finite 0
  | .inf m, .finite b => .inf (m != decide (b < 0))
  | .inf _, .inf _ => .nan
  | _, .nan => .nan
  | .nan, _ => .nan

/-- The exponent of the last bit of the square root of `x`. IEEE 754, used for
account_tracker/statistical_moments.rs:20. -/
def sqrtExp (x : ℚ) : ℤ := max (Int.log 2 x / 2) (-1022) - 52

/-- The integer nearest to the square root of `y`, the even one of two that are equally near. IEEE
754, used for account_tracker/statistical_moments.rs:20. -/
def nearestSqrt (y : ℚ) : ℕ :=
  let f := Nat.sqrt ⌊y⌋₊
  if y < (f + 1 / 2) ^ 2 then f
  else if (f + 1 / 2) ^ 2 < y then f + 1
  else if f % 2 = 0 then f else f + 1

/-- The binary64 value nearest to the square root of `x ≥ 0`. IEEE 754, used for
account_tracker/statistical_moments.rs:20. -/
def sqrtF64 (x : ℚ) : ℚ := nearestSqrt (x / 4 ^ sqrtExp x) * 2 ^ sqrtExp x

/-- `f64::sqrt`, account_tracker/statistical_moments.rs:20. -/
def F64.sqrt : F64 → F64
  | .finite a => if a < 0 then .nan else .finite (sqrtF64 a)
  | .inf n => if n then .nan else .inf false
  | .nan => .nan

/-- `vals.iter().sum::<f64>()`, account_tracker/statistical_moments.rs:16, 19, 23, 25: from the left,
beginning with zero. -/
def F64.sum (vals : List F64) : F64 := vals.foldl F64.add (.finite 0)

/-- `powi(2)`, account_tracker/statistical_moments.rs:19 and 26. -/
def F64.powi2 (x : F64) : F64 := x.mul x

/-- `powi(3)`, account_tracker/statistical_moments.rs:23: by repeated squaring. -/
def F64.powi3 (x : F64) : F64 := x.mul (x.mul x)

/-- `powi(4)`, account_tracker/statistical_moments.rs:25: by repeated squaring. -/
def F64.powi4 (x : F64) : F64 := (x.mul x).mul (x.mul x)

/-- account_tracker/statistical_moments.rs:3-12 `StatisticalMoments` -/
structure MomentsF64 where
  mean : F64
  stdDev : F64
  skew : F64
  excessKurtosis : F64

/-- account_tracker/statistical_moments.rs:16 -/
def meanF64 (vals : List F64) : F64 := (F64.sum vals).div (.of vals.length)

/-- account_tracker/statistical_moments.rs:19 -/
def varianceF64 (vals : List F64) : F64 :=
  (F64.sum (vals.map fun v => (v.sub (meanF64 vals)).powi2)).div (.of vals.length)

/-- account_tracker/statistical_moments.rs:15-34 `statistical_moments`. The result of `powf(1.5)` (23)
is not fixed by IEEE 754: `pow15` is any function. -/
def momentsF64 (pow15 : F64 → F64) (vals : List F64) : MomentsF64 :=
  let mean := meanF64 vals
  let n := F64.of vals.length
  let variance := varianceF64 vals
  let skew := (((F64.finite 1).div n).mul
    (F64.sum (vals.map fun v => (v.sub mean).powi3))).div (pow15 variance)
  let kurtosis := ((((F64.finite 1).div n).mul
    (F64.sum (vals.map fun v => (v.sub mean).powi4))).div variance.powi2).sub (.finite 3)
  { mean, stdDev := variance.sqrt, skew, excessKurtosis := kurtosis }

end Lfest
