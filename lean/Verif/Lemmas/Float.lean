import Verif.Model.Float
import Verif.SpecFloat
import Mathlib.Tactic.Linarith
import Mathlib.Tactic.NormNum
import Mathlib.Tactic.Ring
import Mathlib.Tactic.FieldSimp
import Mathlib.Tactic.Push
import Mathlib.Tactic.Positivity
import Mathlib.Algebra.Order.Field.Power

/-!
# Lemmas about binary64 rounding
-/

namespace Lfest

open Spec

theorem nearestEven_near (x : ℚ) : |(nearestEven x : ℚ) - x| ≤ 1 / 2 := by
  have h1 := Int.floor_le x
  have h2 := Int.lt_floor_add_one x
  unfold nearestEven
  rw [abs_le]
  split
  · constructor <;> linarith
  · split
    · push_cast; constructor <;> linarith
    · split
      · constructor <;> linarith
      · push_cast; constructor <;> linarith

theorem nearestEven_best (x : ℚ) (n : ℤ) : |(nearestEven x : ℚ) - x| ≤ |(n : ℚ) - x| := by
  by_cases hn : n = nearestEven x
  · rw [hn]
  · have h := nearestEven_near x
    have h2 : (1 : ℚ) ≤ |(n : ℚ) - nearestEven x| := by
      have : (1 : ℤ) ≤ |n - nearestEven x| := Int.one_le_abs (by omega)
      exact_mod_cast this
    have h3 := abs_sub_le (n : ℚ) x (nearestEven x)
    rw [abs_sub_comm x] at h3
    linarith

theorem f64Step_pos (x : ℚ) : 0 < f64Step x := by unfold f64Step; positivity

theorem roundF64_error (x : ℚ) : |roundF64 x - x| ≤ f64Step x / 2 := by
  have hs := f64Step_pos x
  have h := nearestEven_near (x / f64Step x)
  have e : roundF64 x - x = (nearestEven (x / f64Step x) - x / f64Step x) * f64Step x := by
    unfold roundF64; field_simp
  rw [e, abs_mul, abs_of_pos hs]
  have := mul_le_mul_of_nonneg_right h hs.le
  linarith

theorem roundF64_grid (x : ℚ) (n : ℤ) : |roundF64 x - x| ≤ |n * f64Step x - x| := by
  have hs := f64Step_pos x
  have h := nearestEven_best (x / f64Step x) n
  have e : roundF64 x - x = (nearestEven (x / f64Step x) - x / f64Step x) * f64Step x := by
    unfold roundF64; field_simp
  have e2 : n * f64Step x - x = (n - x / f64Step x) * f64Step x := by field_simp
  rw [e, e2, abs_mul, abs_mul]
  exact mul_le_mul_of_nonneg_right h (abs_nonneg _)

theorem abs_lt_step (x : ℚ) : |x| < 2 ^ 53 * f64Step x := by
  have h := Int.lt_zpow_succ_log_self (b := 2) (by norm_num) |x|
  push_cast at h
  refine lt_of_lt_of_le h ?_
  unfold f64Step
  rw [show (2 : ℚ) ^ 53 = 2 ^ (53 : ℤ) by norm_num, ← zpow_add₀ (by norm_num)]
  exact zpow_le_zpow_right₀ (by norm_num) (by omega)

theorem roundF64_isDouble (x : ℚ) : IsDouble (roundF64 x) := by
  refine ⟨nearestEven (x / f64Step x), max (Int.log 2 |x|) (-1022) - 52, ?_, by omega, rfl⟩
  have hs := f64Step_pos x
  have h1 := nearestEven_near (x / f64Step x)
  have h2 : |x / f64Step x| < 2 ^ 53 := by
    rw [abs_div, abs_of_pos hs, div_lt_iff₀ hs]; exact abs_lt_step x
  have h3 : |(nearestEven (x / f64Step x) : ℚ)| < 2 ^ 53 + 1 := by
    have := abs_sub_le (nearestEven (x / f64Step x) : ℚ) (x / f64Step x) 0
    simp only [sub_zero] at this
    linarith
  have : |nearestEven (x / f64Step x)| < 2 ^ 53 + 1 := by exact_mod_cast h3
  omega

theorem roundF64_zero : roundF64 0 = 0 := by
  have h := roundF64_grid 0 0
  simpa using h

theorem roundF64_nearest (x : ℚ) : NearestDouble (roundF64 x) x := by
  refine ⟨roundF64_isDouble x, ?_⟩
  rintro w ⟨m, e, hm, he, rfl⟩
  by_cases hx : x = 0
  · rw [hx, roundF64_zero, sub_self, abs_zero]; exact abs_nonneg _
  by_cases hE : max (Int.log 2 |x|) (-1022) - 52 ≤ e
  · have : (m : ℚ) * 2 ^ e = ((m * 2 ^ (e - (max (Int.log 2 |x|) (-1022) - 52)).toNat : ℤ) : ℚ)
        * f64Step x := by
      unfold f64Step
      push_cast
      rw [mul_assoc, ← zpow_natCast, ← zpow_add₀ (by norm_num)]
      congr 2
      omega
    rw [this]
    exact roundF64_grid x _
  · have hlog : -1022 < Int.log 2 |x| := by omega
    have hst : f64Step x = 2 ^ (Int.log 2 |x| - 52) := by
      unfold f64Step; rw [max_eq_left hlog.le]
    have hx0 : 0 < |x| := by
      rcases eq_or_lt_of_le (abs_nonneg x) with h | h
      · exact absurd (abs_eq_zero.mp h.symm) hx
      · exact h
    have hle := Int.zpow_log_le_self (b := 2) (by norm_num) hx0
    push_cast at hle
    have hw : |(m : ℚ) * 2 ^ e| ≤ 2 ^ (Int.log 2 |x|) := by
      rw [abs_mul, abs_of_pos (show (0 : ℚ) < 2 ^ e by positivity)]
      have h1 : |(m : ℚ)| ≤ 2 ^ (53 : ℤ) := by exact_mod_cast hm
      have h2 : (2 : ℚ) ^ e ≤ 2 ^ (Int.log 2 |x| - 53) :=
        zpow_le_zpow_right₀ (by norm_num) (by omega)
      calc |(m : ℚ)| * 2 ^ e ≤ 2 ^ (53 : ℤ) * 2 ^ (Int.log 2 |x| - 53) :=
            mul_le_mul h1 h2 (by positivity) (by positivity)
        _ = 2 ^ (Int.log 2 |x|) := by rw [← zpow_add₀ (by norm_num)]; congr 1; ring
    have hp : (2 : ℚ) ^ (Int.log 2 |x|) = 2 ^ 52 * f64Step x := by
      rw [hst, show (2 : ℚ) ^ 52 = 2 ^ (52 : ℤ) by norm_num, ← zpow_add₀ (by norm_num)]
      congr 1; ring
    have hdist : |x| - 2 ^ (Int.log 2 |x|) ≤ |(m : ℚ) * 2 ^ e - x| := by
      have := abs_sub_abs_le_abs_sub x ((m : ℚ) * 2 ^ e)
      rw [abs_sub_comm x] at this
      linarith
    refine le_trans ?_ hdist
    rcases le_total 0 x with h | h
    · have := roundF64_grid x (2 ^ 52)
      push_cast at this
      rw [show (4503599627370496 : ℚ) = 2 ^ 52 by norm_num, ← hp] at this
      rw [abs_of_nonneg h] at hle this ⊢
      rwa [abs_sub_comm (2 ^ _), abs_of_nonneg (by linarith : (0:ℚ) ≤ x - 2 ^ Int.log 2 x)] at this
    · have := roundF64_grid x (-2 ^ 52)
      push_cast at this
      rw [show (4503599627370496 : ℚ) = 2 ^ 52 by norm_num, neg_mul, ← hp] at this
      rw [abs_of_nonpos h] at hle this ⊢
      rwa [abs_of_nonneg (by linarith : (0:ℚ) ≤ -2 ^ Int.log 2 (-x) - x),
        show -2 ^ Int.log 2 (-x) - x = -x - 2 ^ Int.log 2 (-x) by ring] at this

theorem nearest_mono {v w x y : ℚ} (hv : NearestDouble v x) (hw : NearestDouble w y)
    (h : x < y) : v ≤ w := by
  by_contra hc
  push Not at hc
  have h1 := hv.2 w hw.1
  have h2 := hw.2 v hv.1
  have e1 : (v + w) / 2 ≤ x := by
    rcases abs_cases (v - x) with h | h <;> rcases abs_cases (w - x) with h' | h' <;> linarith
  have e2 : y ≤ (v + w) / 2 := by
    rcases abs_cases (w - y) with h | h <;> rcases abs_cases (v - y) with h' | h' <;> linarith
  linarith

theorem roundF64_mono {x y : ℚ} (h : x ≤ y) : roundF64 x ≤ roundF64 y := by
  rcases eq_or_lt_of_le h with rfl | h
  · exact le_refl _
  · exact nearest_mono (roundF64_nearest x) (roundF64_nearest y) h

theorem roundF64_of_isDouble {x : ℚ} (h : IsDouble x) : roundF64 x = x := by
  have := (roundF64_nearest x).2 x h
  simp only [sub_self, abs_zero] at this
  have := abs_nonpos_iff.mp this
  linarith

theorem roundF64_rel {x : ℚ} (hx : 2 ^ (-1022 : ℤ) ≤ |x|) :
    |roundF64 x - x| ≤ |x| / 2 ^ 53 := by
  have hx0 : 0 < |x| := lt_of_lt_of_le (zpow_pos (by norm_num) _) hx
  have h1 := roundF64_error x
  have h2 : -1022 ≤ Int.log 2 |x| := by
    rw [← Int.zpow_le_iff_le_log (by norm_num) hx0]
    simpa only [Nat.cast_ofNat] using hx
  have h3 : f64Step x = 2 ^ (Int.log 2 |x|) / 2 ^ 52 := by
    unfold f64Step
    rw [max_eq_left h2, zpow_sub₀ (by norm_num)]; norm_num
  have h4 := Int.zpow_log_le_self (b := 2) (by norm_num) hx0
  push_cast at h4
  rw [h3] at h1
  have : (2 : ℚ) ^ (Int.log 2 |x|) / 2 ^ 52 / 2 ≤ |x| / 2 ^ 53 := by
    rw [div_div]
    norm_num
    exact div_le_div_of_nonneg_right h4 (by norm_num)
  linarith

theorem awayFromZero_near (x : ℚ) : |(awayFromZero x : ℚ) - x| ≤ 1 / 2 := by
  unfold awayFromZero
  rw [abs_le]
  split
  · have h1 := Int.floor_le (x + 1 / 2)
    have h2 := Int.lt_floor_add_one (x + 1 / 2)
    constructor <;> linarith
  · have h1 := Int.floor_le (-x + 1 / 2)
    have h2 := Int.lt_floor_add_one (-x + 1 / 2)
    push_cast
    constructor <;> linarith

theorem awayFromZero_eq {x : ℚ} {k : ℤ} (h : |x - k| < 1 / 2) : awayFromZero x = k := by
  have h1 := awayFromZero_near x
  have h2 := abs_sub_le (awayFromZero x : ℚ) x k
  have h3 : |((awayFromZero x - k : ℤ) : ℚ)| < 1 := by push_cast; linarith
  have h4 : |awayFromZero x - k| < 1 := by exact_mod_cast h3
  have := Int.abs_lt_one_iff.mp h4
  omega

theorem awayFromZero_mono {x y : ℚ} (h : x ≤ y) : awayFromZero x ≤ awayFromZero y := by
  unfold awayFromZero
  by_cases hx : 0 ≤ x
  · rw [if_pos hx, if_pos (by linarith)]
    exact Int.floor_mono (by linarith)
  · rw [if_neg hx]
    have h1 : 0 ≤ ⌊-x + 1 / 2⌋ := Int.floor_nonneg.mpr (by linarith)
    by_cases hy : 0 ≤ y
    · rw [if_pos hy]
      have : 0 ≤ ⌊y + 1 / 2⌋ := Int.floor_nonneg.mpr (by linarith)
      omega
    · rw [if_neg hy]
      have := Int.floor_mono (show -y + 1 / 2 ≤ -x + 1 / 2 by linarith)
      omega

theorem awayFromZero_int (k : ℤ) : awayFromZero k = k :=
  awayFromZero_eq (by simp)

/-- The result for a finite value, when the product is finite. -/
theorem roundToI64_finite {v k : ℚ} (hr : |roundF64 (v * k)| < f64Limit) :
    ((F64.finite v).scale k).roundToI64 =
      max i64Min (min i64Max (awayFromZero (roundF64 (v * k)))) := by
  simp only [F64.scale]
  rw [if_neg (not_le.mpr hr)]
  rfl

theorem two_pow_large {n : ℕ} (h : n < 1024) : (2 : ℚ) ^ n + 1 ≤ f64Limit := by
  have h1 : (1 : ℚ) ≤ 2 ^ n := one_le_pow₀ (by norm_num)
  have h2 : (2 : ℚ) ^ (n + 1) ≤ f64Limit := pow_le_pow_right₀ (by norm_num) h
  rw [pow_succ] at h2
  linarith

theorem isDouble_zero : IsDouble 0 := ⟨0, 0, by norm_num, by norm_num, by norm_num⟩

theorem isDouble_two_pow (n : ℕ) : IsDouble (2 ^ n) :=
  ⟨1, n, by norm_num, by omega, by simp⟩

theorem isDouble_neg {v : ℚ} : IsDouble v → IsDouble (-v) := by
  rintro ⟨m, e, hm, he, rfl⟩
  exact ⟨-m, e, by rwa [abs_neg], he, by push_cast; ring⟩

/-- `2^-1022` is tiny. -/
theorem tiny_le : (2 : ℚ) ^ (-1022 : ℤ) ≤ 1 / 2 ^ 100 := by
  rw [one_div, ← zpow_natCast, ← zpow_neg]
  exact zpow_le_zpow_right₀ (by norm_num) (by norm_num)

theorem exact_round {D : ℕ} {k : ℤ} {v : ℚ} (hD : D ≤ 22)
    (hv : NearestDouble v (decimalValue D k)) (hk : |k| < 2 ^ 51) :
    |roundF64 (v * 10 ^ D) - k| < 1 / 2 := by
  have hS : (0 : ℚ) < 10 ^ D := by positivity
  by_cases hk0 : k = 0
  · have h1 := hv.2 0 isDouble_zero
    simp only [decimalValue, hk0, Int.cast_zero, zero_div, sub_zero, abs_zero] at h1
    have : v = 0 := abs_nonpos_iff.mp h1
    rw [this, hk0, zero_mul, roundF64_zero]
    norm_num
  · have hkq : (1 : ℚ) ≤ |(k : ℚ)| := by exact_mod_cast Int.one_le_abs hk0
    have hku : |(k : ℚ)| ≤ 2 ^ 51 - 1 := by
      have : |k| ≤ 2 ^ 51 - 1 := by omega
      exact_mod_cast this
    have hx : |decimalValue D k| = |(k : ℚ)| / 10 ^ D := by
      unfold decimalValue; rw [abs_div, abs_of_pos hS]
    have hS22 : (10 : ℚ) ^ D ≤ 10 ^ 22 := pow_le_pow_right₀ (by norm_num) hD
    have hxl : (2 : ℚ) ^ (-1022 : ℤ) ≤ |decimalValue D k| := by
      refine le_trans tiny_le ?_
      rw [hx, le_div_iff₀ hS]
      have : (1 : ℚ) / 2 ^ 100 * 10 ^ D ≤ 1 / 2 ^ 100 * 10 ^ 22 := by gcongr
      have : (1 : ℚ) / 2 ^ 100 * 10 ^ 22 ≤ 1 := by norm_num
      linarith
    have h1 : |v - decimalValue D k| ≤ |decimalValue D k| / 2 ^ 53 :=
      le_trans (hv.2 _ (roundF64_isDouble _)) (roundF64_rel hxl)
    have h2 : |v * 10 ^ D - k| ≤ |(k : ℚ)| / 2 ^ 53 := by
      have e : v * 10 ^ D - k = (v - decimalValue D k) * 10 ^ D := by
        unfold decimalValue; field_simp
      rw [e, abs_mul, abs_of_pos hS]
      rw [hx] at h1
      calc |v - decimalValue D k| * 10 ^ D ≤ |(k : ℚ)| / 10 ^ D / 2 ^ 53 * 10 ^ D := by gcongr
        _ = |(k : ℚ)| / 2 ^ 53 := by field_simp
    have h3 : |v * 10 ^ D| ≤ |(k : ℚ)| + |(k : ℚ)| / 2 ^ 53 := by
      have := abs_sub_le (v * 10 ^ D) k 0
      simp only [sub_zero] at this
      linarith
    have h4 : 1 / 2 ≤ |v * 10 ^ D| := by
      have := abs_sub_le (k : ℚ) (v * 10 ^ D) 0
      simp only [sub_zero] at this
      rw [abs_sub_comm] at this
      have : |(k : ℚ)| / 2 ^ 53 ≤ |(k : ℚ)| / 2 := by
        apply div_le_div_of_nonneg_left (abs_nonneg _) <;> norm_num
      linarith
    have h5 := roundF64_rel (le_trans tiny_le (le_trans (by norm_num) h4))
    have h6 := abs_sub_le (roundF64 (v * 10 ^ D)) (v * 10 ^ D) k
    have h7 : |v * 10 ^ D| / 2 ^ 53 ≤ (|(k : ℚ)| + |(k : ℚ)| / 2 ^ 53) / 2 ^ 53 := by gcongr
    have h8 : (|(k : ℚ)| + |(k : ℚ)| / 2 ^ 53) / 2 ^ 53 + |(k : ℚ)| / 2 ^ 53
        ≤ ((2 ^ 51 - 1) + (2 ^ 51 - 1) / 2 ^ 53) / 2 ^ 53 + (2 ^ 51 - 1) / 2 ^ 53 := by gcongr
    have h9 : (((2 : ℚ) ^ 51 - 1) + (2 ^ 51 - 1) / 2 ^ 53) / 2 ^ 53 + (2 ^ 51 - 1) / 2 ^ 53 < 1 / 2 := by
      norm_num
    linarith

/-- Moving into an interval does not move away from its points. -/
theorem clamp_near {z lo hi : ℤ} {x : ℚ} (h1 : (lo : ℚ) ≤ x) (h2 : x ≤ hi) :
    |((max lo (min hi z) : ℤ) : ℚ) - x| ≤ |(z : ℚ) - x| := by
  rcases le_total z lo with h | h
  · rw [show max lo (min hi z) = lo by omega]
    have : (z : ℚ) ≤ lo := by exact_mod_cast h
    rw [abs_of_nonpos (by linarith), abs_of_nonpos (by linarith)]
    linarith
  · rcases le_total z hi with h' | h'
    · rw [show max lo (min hi z) = z by omega]
    · have hlh : (lo : ℚ) ≤ hi := le_trans h1 h2
      have hlh' : lo ≤ hi := by exact_mod_cast hlh
      rw [show max lo (min hi z) = hi by omega]
      have : (hi : ℚ) ≤ z := by exact_mod_cast h'
      rw [abs_of_nonneg (by linarith), abs_of_nonneg (by linarith)]
      linarith

theorem roundF64_half (x : ℚ) :
    |(awayFromZero (roundF64 x) : ℚ) - x| ≤ 1 / 2 + |x| / 2 ^ 53 := by
  by_cases hx : 2 ^ (-1022 : ℤ) ≤ |x|
  · have h1 := roundF64_rel hx
    have h2 := awayFromZero_near (roundF64 x)
    have h3 := abs_sub_le (awayFromZero (roundF64 x) : ℚ) (roundF64 x) x
    linarith
  · have hs : |x| < 1 / 2 ^ 100 := lt_of_lt_of_le (not_le.mp hx) tiny_le
    have h1 := (roundF64_nearest x).2 0 isDouble_zero
    rw [zero_sub, abs_neg] at h1
    have h2 := abs_sub_le (roundF64 x) x 0
    simp only [sub_zero] at h2
    have h0 : (1 : ℚ) / 2 ^ 100 < 1 / 8 := by norm_num
    have h3 : awayFromZero (roundF64 x) = 0 := awayFromZero_eq (by
      rw [Int.cast_zero, sub_zero]; linarith)
    rw [h3, Int.cast_zero, zero_sub, abs_neg]
    have : (0 : ℚ) ≤ |x| / 2 ^ 53 := by positivity
    linarith

theorem roundF64_bounded {x : ℚ} (h : |x| ≤ 2 ^ 63) : |roundF64 x| < f64Limit := by
  obtain ⟨h1, h2⟩ := abs_le.mp h
  have h3 := roundF64_mono h2
  have h4 := roundF64_mono h1
  rw [roundF64_of_isDouble (isDouble_two_pow 63)] at h3
  rw [roundF64_of_isDouble (isDouble_neg (isDouble_two_pow 63))] at h4
  have := two_pow_large (n := 63) (by norm_num)
  exact lt_of_le_of_lt (abs_le.mpr ⟨h4, h3⟩) (by linarith)

theorem roundToI64_range (x : F64) : i64Min ≤ x.roundToI64 ∧ x.roundToI64 ≤ i64Max := by
  cases x with
  | finite v => simp only [F64.roundToI64]; unfold i64Min i64Max; omega
  | inf n => cases n <;> decide
  | nan => decide

theorem roundToI64_mono {v w k : ℚ} (hk : 0 ≤ k) (h : v ≤ w) :
    ((F64.finite v).scale k).roundToI64 ≤ ((F64.finite w).scale k).roundToI64 := by
  have hm : v * k ≤ w * k := mul_le_mul_of_nonneg_right h hk
  have hr := roundF64_mono hm
  have ha := awayFromZero_mono hr
  have hz := roundF64_zero
  simp only [F64.scale]
  split
  · next hv =>
    by_cases hn : v * k < 0
    · have h1 : (F64.inf (decide (v * k < 0))).roundToI64 = i64Min := by
        simp [hn, F64.roundToI64]
      rw [h1]
      exact (roundToI64_range _).1
    · have hv0 : 0 ≤ roundF64 (v * k) := hz ▸ roundF64_mono (not_lt.mp hn)
      rw [abs_of_nonneg hv0] at hv
      have hw : f64Limit ≤ |roundF64 (w * k)| := by
        rw [abs_of_nonneg (by linarith)]; linarith
      rw [if_pos hw]
      have : ¬ w * k < 0 := by linarith
      simp [hn, this, F64.roundToI64]
  · next hv =>
    split
    · next hw =>
      by_cases hn : w * k < 0
      · exfalso
        have hw0 : roundF64 (w * k) ≤ 0 := hz ▸ roundF64_mono hn.le
        rw [abs_of_nonpos hw0] at hw
        apply hv
        rw [abs_of_nonpos (by linarith)]; linarith
      · simp only [hn, decide_false, F64.roundToI64]
        simp only [Bool.false_eq_true, if_false]
        unfold i64Min i64Max; omega
    · simp only [F64.roundToI64]; omega

theorem saturates_up {v k : ℚ} (h : 2 ^ 63 ≤ v * k) :
    ((F64.finite v).scale k).roundToI64 = i64Max := by
  have h1 := roundF64_mono h
  rw [roundF64_of_isDouble (isDouble_two_pow 63)] at h1
  simp only [F64.scale]
  split
  · have : ¬ v * k < 0 := by
      have : (0 : ℚ) < 2 ^ 63 := by positivity
      linarith
    simp [this, F64.roundToI64]
  · have h2 := awayFromZero_mono h1
    have h3 := awayFromZero_int (2 ^ 63)
    push_cast at h3
    rw [show (9223372036854775808 : ℚ) = 2 ^ 63 by norm_num] at h3
    rw [h3] at h2
    simp only [F64.roundToI64]
    unfold i64Min i64Max
    omega

theorem saturates_down {v k : ℚ} (h : v * k ≤ -2 ^ 63) :
    ((F64.finite v).scale k).roundToI64 = i64Min := by
  have h1 := roundF64_mono h
  rw [roundF64_of_isDouble (isDouble_neg (isDouble_two_pow 63))] at h1
  simp only [F64.scale]
  split
  · have : v * k < 0 := by
      have : (0 : ℚ) < 2 ^ 63 := by positivity
      linarith
    simp [this, F64.roundToI64]
  · have h2 := awayFromZero_mono h1
    have h3 := awayFromZero_int (-2 ^ 63)
    push_cast at h3
    rw [show (9223372036854775808 : ℚ) = 2 ^ 63 by norm_num] at h3
    rw [h3] at h2
    simp only [F64.roundToI64]
    unfold i64Min i64Max
    omega

theorem nearestEven_neg (y : ℚ) : nearestEven (-y) = -nearestEven y := by
  unfold nearestEven
  have h0 := Int.floor_le y
  have h1 := Int.lt_floor_add_one y
  by_cases hint : (⌊y⌋ : ℚ) = y
  · have : ⌊-y⌋ = -⌊y⌋ := by
      rw [Int.floor_eq_iff]
      push_cast
      constructor <;> linarith
    rw [this]
    push_cast
    rw [if_pos (by linarith), if_pos (by linarith)]
  · have hlt : (⌊y⌋ : ℚ) < y := lt_of_le_of_ne h0 hint
    have : ⌊-y⌋ = -⌊y⌋ - 1 := by
      rw [Int.floor_eq_iff]
      push_cast
      constructor <;> linarith
    rw [this]
    push_cast
    by_cases ha : y - ⌊y⌋ < 1 / 2
    · rw [if_pos ha, if_neg (by linarith), if_pos (by linarith)]
      omega
    · rw [if_neg ha]
      by_cases hb : 1 / 2 < y - ⌊y⌋
      · rw [if_pos hb, if_pos (by linarith)]
        omega
      · rw [if_neg hb, if_neg (by linarith), if_neg (by linarith)]
        split <;> split <;> omega

theorem roundF64_neg (x : ℚ) : roundF64 (-x) = -roundF64 x := by
  have hs : f64Step (-x) = f64Step x := by unfold f64Step; rw [abs_neg]
  unfold roundF64
  rw [hs, neg_div, nearestEven_neg]
  push_cast
  ring

theorem awayFromZero_neg (x : ℚ) : awayFromZero (-x) = -awayFromZero x := by
  unfold awayFromZero
  rcases lt_trichotomy x 0 with h | h | h
  · rw [if_pos (by linarith), if_neg (by linarith)]
    omega
  · subst h
    norm_num
  · rw [if_neg (by linarith), if_pos (by linarith)]
    simp

end Lfest
