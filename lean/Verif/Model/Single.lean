import Verif.Model.Float
import Verif.Model.Tracker

/-!
# The ratios of the account tracker in `f32` arithmetic

`limit_order_fill_ratio`, `limit_order_cancellation_ratio` and `buy_volume_ratio` with the IEEE 754
binary32 operations they use. A finite `f32` is modelled by its value; the sign of zero is not
modelled.
-/

namespace Lfest

/-- IEEE 754 binary32 values, the results of account_tracker/full_track.rs:168-210. -/
inductive F32 where
  | finite (v : ℚ)
  | inf (negative : Bool)
  | nan

/-- The distance of neighbouring binary32 values around `x`: 23 bits below the leading bit, and
never less than `2^-149`. IEEE 754, used for account_tracker/full_track.rs:169, 175 and 209. -/
def f32Step (x : ℚ) : ℚ := 2 ^ (max (Int.log 2 |x|) (-126) - 23)

/-- The binary32 value a real result is rounded to when the exponent has no upper limit. IEEE 754,
used for account_tracker/full_track.rs:169, 175 and 209. -/
def roundF32 (x : ℚ) : ℚ := nearestEven (x / f32Step x) * f32Step x

/-- The limit of binary32: results of this size are infinite. IEEE 754, used for
account_tracker/full_track.rs:169, 175 and 209. -/
def f32Limit : ℚ := 2 ^ 128

/-- The `f32` a real number is rounded to. IEEE 754; the casts `as f32` in
account_tracker/full_track.rs:169, 175 and 209. -/
def F32.of (x : ℚ) : F32 :=
  if f32Limit ≤ |roundF32 x| then .inf (decide (x < 0)) else .finite (roundF32 x)

/-- IEEE 754 division, account_tracker/full_track.rs:169 and 175. The divisor is a count, so a zero
divisor has the sign plus. -/
def F32.div : F32 → F32 → F32
  | .finite a, .finite b =>
    if b = 0 then (if a = 0 then .nan else .inf (decide (a < 0))) else .of (a / b)
  | .finite _, .inf _ => .finite 0
  | .inf n, .finite b => .inf (n != decide (b < 0))
  | .inf _, .inf _ => .nan
  | .nan, _ => .nan
  | _, .nan => .nan

/-- account_tracker/full_track.rs:168-170 `limit_order_fill_ratio` -/
def FullTracker.fillRatioF32 (t : FullTracker) : F32 :=
  F32.div (.of t.fullyFilledLimit) (.of t.submittedLimit)

/-- account_tracker/full_track.rs:174-176 `limit_order_cancellation_ratio` -/
def FullTracker.cancelRatioF32 (t : FullTracker) : F32 :=
  F32.div (.of t.cancelledLimit) (.of t.submittedLimit)

/-- account_tracker/full_track.rs:200-210 `buy_volume_ratio`. `Into::<f64>` of a `Decimal` (209)
belongs to an external crate: `toF64` takes the raw integer to the value of the `f64`. -/
def FullTracker.buyVolumeRatioF32 (e : Env) (toF64 : Int → ℚ) (t : FullTracker) :
    Res (Option F32) := do
  match ← t.buyVolumeRatio e with
  | none => .ok none
  | some r => .ok (some (.of (toF64 r)))

end Lfest
