import Verif.Lemmas.Float

/-!
# Conversion of floating point numbers: C80
-/

namespace Lfest

open Spec

/-- C80: the conversion undoes the writing of a decimal number as a double. If `val` is a double
nearest to the number with `k` units in the last of `D` places, and `|k| < 2^51`, the result is
exactly that number, unless the integer type cannot hold it. -/
theorem C80_exact (lo hi : Int) (D : Nat) (k : Int) (v : ℚ) (hD : D ≤ 22)
    (hv : NearestDouble v (decimalValue D k)) (hk : |k| < 2 ^ 51) :
    decimalFromF64 lo hi D (.finite v) =
      if lo ≤ k ∧ k ≤ hi then .ok k else .error .integerConversion := by
  have hr := exact_round hD hv hk
  have h1 : |roundF64 (v * 10 ^ D)| < f64Limit := by
    have h2 := abs_sub_le (roundF64 (v * 10 ^ D)) k 0
    have h3 : |(k : ℚ)| < 2 ^ 51 := by exact_mod_cast hk
    simp only [sub_zero] at h2
    have h4 := two_pow_large (n := 51) (by norm_num)
    linarith
  unfold decimalFromF64
  rw [roundToI64_finite h1, awayFromZero_eq hr]
  have : max i64Min (min i64Max k) = k := by
    have := abs_lt.mp hk
    unfold i64Min i64Max
    omega
  simp only [this]

/-- C80: for every double whose scaled value is in the range of `i64`, the result differs from it
by half a unit in the last place plus the relative error of one multiplication at most. -/
theorem C80_accuracy (lo hi : Int) (D : Nat) (v : ℚ) (raw : Int)
    (h1 : i64Min ≤ v * 10 ^ D) (h2 : v * 10 ^ D ≤ i64Max)
    (h : decimalFromF64 lo hi D (.finite v) = .ok raw) :
    |raw - v * 10 ^ D| ≤ 1 / 2 + |v * 10 ^ D| / 2 ^ 53 := by
  have hb : |v * 10 ^ D| ≤ 2 ^ 63 := by
    unfold i64Min at h1
    unfold i64Max at h2
    push_cast at h1 h2
    rw [abs_le]
    constructor <;> linarith
  unfold decimalFromF64 at h
  rw [roundToI64_finite (roundF64_bounded hb)] at h
  dsimp only at h
  split at h
  · injection h with h
    rw [← h]
    exact le_trans (clamp_near h1 h2) (roundF64_half _)
  · exact absurd h (by simp)

/-- C80: larger numbers never give smaller amounts. -/
theorem C80_monotone (lo hi : Int) (D : Nat) (v w : ℚ) (a b : Int) (hvw : v ≤ w)
    (hv : decimalFromF64 lo hi D (.finite v) = .ok a)
    (hw : decimalFromF64 lo hi D (.finite w) = .ok b) : a ≤ b := by
  have h := roundToI64_mono (k := 10 ^ D) (by positivity) hvw
  unfold decimalFromF64 at hv hw
  dsimp only at hv hw
  split at hv <;> split at hw <;> simp_all

/-- C80: numbers of opposite sign give opposite amounts, so that halves are rounded away from zero
on both sides. (Not at the limits of `i64`, which are not symmetric.) -/
theorem C80_symmetric (lo hi : Int) (D : Nat) (v : ℚ) (a : Int)
    (h : decimalFromF64 lo hi D (.finite v) = .ok a) (h1 : i64Min < a) (h2 : a < i64Max)
    (h3 : lo ≤ -a) (h4 : -a ≤ hi) :
    decimalFromF64 lo hi D (.finite (-v)) = .ok (-a) := by
  have key : ((F64.finite v).scale (10 ^ D)).roundToI64 = a := by
    unfold decimalFromF64 at h
    dsimp only at h
    split at h
    · injection h
    · cases h
  have key' : ((F64.finite (-v)).scale (10 ^ D)).roundToI64 = -a := by
    simp only [F64.scale] at key ⊢
    rw [neg_mul, roundF64_neg, abs_neg]
    by_cases hl : f64Limit ≤ |roundF64 (v * 10 ^ D)|
    · rw [if_pos hl] at key
      simp only [F64.roundToI64] at key
      split at key <;> omega
    · rw [if_neg hl] at key ⊢
      simp only [F64.roundToI64, awayFromZero_neg] at key ⊢
      unfold i64Min i64Max at *
      omega
  unfold decimalFromF64
  simp only [key', h3, h4, and_self, if_true]

/-- C80: with an integer type that holds every `i64` the conversion never fails; otherwise it fails
only with `IntegerConversion`. -/
theorem C80_errors (lo hi : Int) (D : Nat) (val : F64) :
    (lo ≤ i64Min → i64Max ≤ hi → ∃ raw, decimalFromF64 lo hi D val = .ok raw) ∧
    (∀ e, decimalFromF64 lo hi D val = .error e → e = .integerConversion) := by
  unfold decimalFromF64
  dsimp only
  have h := roundToI64_range (val.scale (10 ^ D))
  constructor
  · intro h1 h2
    rw [if_pos (by omega)]
    exact ⟨_, rfl⟩
  · intro e he
    split at he <;> simp_all

/-- C80, where the obvious claim is false: a number that is too large is not reported. The result
is then the largest (smallest) amount instead. -/
theorem C80_saturates (lo hi : Int) (D : Nat) (v : ℚ) (hlo : lo ≤ i64Min) (hhi : i64Max ≤ hi) :
    (2 ^ 63 ≤ v * 10 ^ D → decimalFromF64 lo hi D (.finite v) = .ok i64Max) ∧
    (v * 10 ^ D ≤ -2 ^ 63 → decimalFromF64 lo hi D (.finite v) = .ok i64Min) := by
  unfold decimalFromF64
  dsimp only
  have hm : i64Min ≤ i64Max := by decide
  constructor <;> intro h
  · rw [saturates_up h, if_pos (by omega)]
  · rw [saturates_down h, if_pos (by omega)]

/-- C80, where the obvious claim is false: NaN becomes zero. -/
theorem C80_nan (lo hi : Int) (D : Nat) (hlo : lo ≤ 0) (hhi : 0 ≤ hi) :
    decimalFromF64 lo hi D .nan = .ok 0 := by
  unfold decimalFromF64
  exact if_pos ⟨hlo, hhi⟩

/-- C80: the bound of `C80_exact` is needed up to a factor of two. The double nearest to
41429073664261.34 gives 41429073664261.35. -/
theorem C80_bound_needed : ∃ v, NearestDouble v (decimalValue 2 4142907366426134) ∧
    decimalFromF64 i64Min i64Max 2 (.finite v) = .ok 4142907366426135 := by
  refine ⟨1325730357256363 / 32, ?_, ?_⟩
  · have h : roundF64 (decimalValue 2 4142907366426134) = 1325730357256363 / 32 := by
      decide +kernel
    rw [← h]
    exact roundF64_nearest _
  · have h : roundF64 (1325730357256363 / 32 * 10 ^ 2) = 8285814732852269 / 2 := by
      decide +kernel
    unfold decimalFromF64
    rw [roundToI64_finite (roundF64_bounded (by norm_num)), h]
    decide +kernel

/-- 1.1 as a double, read with two decimals, in an `i32` and in a type that holds only -128 to
100. -/
example : NearestDouble (4953959590107546 / 2 ^ 52) (decimalValue 2 110) ∧
    decimalFromF64 (-2147483648) 2147483647 2 (.finite (4953959590107546 / 2 ^ 52)) = .ok 110 ∧
    decimalFromF64 (-128) 100 2 (.finite (4953959590107546 / 2 ^ 52))
      = .error .integerConversion := by
  have h : roundF64 (decimalValue 2 110) = 4953959590107546 / 2 ^ 52 := by decide +kernel
  refine ⟨h ▸ roundF64_nearest _, ?_, ?_⟩ <;> decide +kernel

/-- Halves are rounded away from zero, a case of `C80_symmetric`. -/
example : decimalFromF64 i64Min i64Max 1 (.finite (1 / 4)) = .ok 3 ∧
    decimalFromF64 i64Min i64Max 1 (.finite (-1 / 4)) = .ok (-3) ∧
    decimalFromF64 i64Min i64Max 1 (.finite (3 / 16)) = .ok 2 := by
  decide +kernel

/-- One hundred quintillion, with five decimals. -/
example : decimalFromF64 i64Min i64Max 5 (.finite (10 ^ 20)) = .ok 9223372036854775807 :=
  (C80_saturates i64Min i64Max 5 _ (by decide) (by decide)).1 (by norm_num)

end Lfest
