import Verif.Lemmas.VarianceF64
import Mathlib.Analysis.Real.Sqrt

/-!
# The square root of a double
-/

namespace Lfest
open Spec

theorem nearestSqrt_near {y : ℚ} (hy : 0 ≤ y) :
    |(nearestSqrt y : ℝ) - Real.sqrt y| ≤ 1 / 2 := by
  set f := Nat.sqrt ⌊y⌋₊ with hf
  have hyR : (0 : ℝ) ≤ (y : ℝ) := by exact_mod_cast hy
  have h1 : (f : ℝ) ≤ Real.sqrt y := by
    apply Real.le_sqrt_of_sq_le
    have a : f * f ≤ ⌊y⌋₊ := Nat.sqrt_le _
    have b : ((f * f : ℕ) : ℚ) ≤ y := le_trans (by exact_mod_cast a) (Nat.floor_le hy)
    have c : (((f * f : ℕ) : ℚ) : ℝ) ≤ (y : ℝ) := by exact_mod_cast b
    push_cast at c
    nlinarith
  have h2 : Real.sqrt y < f + 1 := by
    rw [Real.sqrt_lt' (by positivity)]
    have a : ⌊y⌋₊ < (f + 1) * (f + 1) := Nat.lt_succ_sqrt _
    have b : y < ((f + 1) * (f + 1) : ℕ) := (Nat.floor_lt hy).1 a
    have c : (y : ℝ) < (((f + 1) * (f + 1) : ℕ) : ℝ) := by exact_mod_cast b
    push_cast at c
    nlinarith
  have hsq := Real.sq_sqrt hyR
  have hs0 := Real.sqrt_nonneg (y : ℝ)
  have up : y < ((f : ℚ) + 1 / 2) ^ 2 → Real.sqrt y ≤ f + 1 / 2 := fun h => by
    have c : (y : ℝ) < ((((f : ℚ) + 1 / 2) ^ 2 : ℚ) : ℝ) := by exact_mod_cast h
    push_cast at c
    exact Real.sqrt_le_iff.2 ⟨by positivity, c.le⟩
  have down : ((f : ℚ) + 1 / 2) ^ 2 ≤ y → (f : ℝ) + 1 / 2 ≤ Real.sqrt y := fun h => by
    have c : ((((f : ℚ) + 1 / 2) ^ 2 : ℚ) : ℝ) ≤ (y : ℝ) := by exact_mod_cast h
    push_cast at c
    exact Real.le_sqrt_of_sq_le c
  rw [abs_le]
  unfold nearestSqrt
  simp only [← hf]
  split
  · next h => have := up h; constructor <;> linarith
  · next h =>
    push Not at h
    have d := down h
    split
    · push_cast; constructor <;> linarith
    · next h' =>
      push Not at h'
      have e : y = ((f : ℚ) + 1 / 2) ^ 2 := le_antisymm h' h
      have up' : Real.sqrt y ≤ f + 1 / 2 := by
        have c : (y : ℝ) ≤ ((((f : ℚ) + 1 / 2) ^ 2 : ℚ) : ℝ) := by exact_mod_cast h'
        push_cast at c
        exact Real.sqrt_le_iff.2 ⟨by positivity, c⟩
      split
      · constructor <;> linarith
      · push_cast; constructor <;> linarith

theorem double_ge {x : ℚ} (hd : IsDouble x) (hx : 0 < x) : 2 ^ (-1074 : ℤ) ≤ x := by
  obtain ⟨k, rfl⟩ := isDouble_unit hd
  have hp : (0 : ℚ) < 2 ^ (-1074 : ℤ) := by positivity
  have hk : 0 < k := by
    have := (mul_pos_iff_of_pos_right hp).1 hx
    exact_mod_cast this
  have : (1 : ℚ) ≤ k := by exact_mod_cast hk
  nlinarith

theorem sqrtF64_zero : sqrtF64 0 = 0 := by decide +kernel

/-- The size of the scaled number of which the integer square root is taken. -/
theorem scaled_range {x : ℚ} (hd : IsDouble x) (hx : 0 < x) :
    2 ^ 104 ≤ x / 4 ^ sqrtExp x ∧ x / 4 ^ sqrtExp x < 2 ^ 106 := by
  have h1 := Int.zpow_log_le_self (b := 2) (by norm_num) hx
  have h2 := Int.lt_zpow_succ_log_self (b := 2) (by norm_num) x
  push_cast at h1 h2
  have hl : -1074 ≤ Int.log 2 x := by
    rw [← Int.zpow_le_iff_le_log (by norm_num) hx]
    push_cast
    exact double_ge hd hx
  have he : sqrtExp x = Int.log 2 x / 2 - 52 := by unfold sqrtExp; omega
  set L := Int.log 2 x
  have e4 : (4 : ℚ) ^ sqrtExp x = 2 ^ (2 * sqrtExp x) := by
    rw [zpow_mul]; norm_num
  rw [e4, le_div_iff₀ (by positivity), div_lt_iff₀ (by positivity)]
  rw [show (2 : ℚ) ^ 104 = 2 ^ (104 : ℤ) by norm_cast, show (2 : ℚ) ^ 106 = 2 ^ (106 : ℤ) by norm_cast,
    ← zpow_add₀ (by norm_num), ← zpow_add₀ (by norm_num)]
  constructor
  · exact le_trans (zpow_le_zpow_right₀ (by norm_num) (by omega)) h1
  · exact lt_of_lt_of_le h2 (zpow_le_zpow_right₀ (by norm_num) (by omega))

/-- The rounded square root is a double within half a unit of its last bit. -/
theorem sqrt_ok {x : ℚ} (hd : IsDouble x) (hx : 0 ≤ x) :
    IsDouble (sqrtF64 x) ∧ 0 ≤ sqrtF64 x ∧
      |(sqrtF64 x : ℝ) - Real.sqrt x| ≤ Real.sqrt x / 2 ^ 53 := by
  rcases eq_or_lt_of_le hx with rfl | hx
  · rw [sqrtF64_zero]; simp [isDouble_zero]
  obtain ⟨r1, r2⟩ := scaled_range hd hx
  set y := x / 4 ^ sqrtExp x with hy
  have hy0 : 0 ≤ y := le_trans (by norm_num) r1
  have hn := nearestSqrt_near hy0
  have hp : (0 : ℝ) < 2 ^ sqrtExp x := by positivity
  have hroot : Real.sqrt x = Real.sqrt y * 2 ^ sqrtExp x := by
    have e : (x : ℝ) = (y : ℝ) * (2 ^ sqrtExp x) ^ 2 := by
      have : x = y * (2 ^ sqrtExp x) ^ 2 := by
        rw [hy, ← zpow_natCast, ← zpow_mul, mul_comm (sqrtExp x), zpow_mul]
        norm_num
        exact (div_mul_cancel₀ _ (by positivity)).symm
      have c : (x : ℝ) = ((y * (2 ^ sqrtExp x) ^ 2 : ℚ) : ℝ) := congrArg _ this
      push_cast at c
      exact c
    rw [e, Real.sqrt_mul (by exact_mod_cast hy0), Real.sqrt_sq hp.le]
  have hbig : (2 : ℝ) ^ 52 ≤ Real.sqrt y := by
    apply Real.le_sqrt_of_sq_le
    have : ((2 ^ 104 : ℚ) : ℝ) ≤ (y : ℝ) := by exact_mod_cast r1
    push_cast at this
    rw [← pow_mul]
    exact this
  have hsmall : Real.sqrt y < 2 ^ 53 := by
    rw [Real.sqrt_lt' (by positivity), ← pow_mul]
    have : (y : ℝ) < ((2 ^ 106 : ℚ) : ℝ) := by exact_mod_cast r2
    push_cast at this
    exact this
  have hs : ((sqrtF64 x : ℚ) : ℝ) = nearestSqrt y * 2 ^ sqrtExp x := by
    unfold sqrtF64
    rw [← hy]
    push_cast
    rfl
  refine ⟨⟨nearestSqrt y, sqrtExp x, ?_, ?_, by unfold sqrtF64; rw [← hy]; push_cast; rfl⟩, ?_, ?_⟩
  · have h := (abs_le.1 hn).2
    have h3 : (nearestSqrt y : ℝ) < 2 ^ 53 + 1 := by linarith
    have h4 : nearestSqrt y < 2 ^ 53 + 1 := by exact_mod_cast h3
    rw [abs_of_nonneg (by positivity)]
    have h5 : nearestSqrt y ≤ 2 ^ 53 := by omega
    exact_mod_cast h5
  · have hl : -1074 ≤ Int.log 2 x := by
      rw [← Int.zpow_le_iff_le_log (by norm_num) hx]
      push_cast
      exact double_ge hd hx
    unfold sqrtExp
    omega
  · unfold sqrtF64
    positivity
  · rw [hs, hroot, ← sub_mul, abs_mul, abs_of_pos hp, mul_div_right_comm]
    apply mul_le_mul_of_nonneg_right _ hp.le
    rw [le_div_iff₀ (by norm_num)]
    linarith

end Lfest
