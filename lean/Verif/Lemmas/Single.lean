import Verif.Lemmas.Float
import Verif.Model.Single
import Verif.SpecSingle

/-!
# Lemmas about binary32 rounding
-/

namespace Lfest

open Spec

theorem f32Step_pos (x : ℚ) : 0 < f32Step x := by unfold f32Step; positivity

theorem roundF32_error (x : ℚ) : |roundF32 x - x| ≤ f32Step x / 2 := by
  have hs := f32Step_pos x
  have h := nearestEven_near (x / f32Step x)
  have e : roundF32 x - x = (nearestEven (x / f32Step x) - x / f32Step x) * f32Step x := by
    unfold roundF32; field_simp
  rw [e, abs_mul, abs_of_pos hs]
  have := mul_le_mul_of_nonneg_right h hs.le
  linarith

theorem roundF32_grid (x : ℚ) (n : ℤ) : |roundF32 x - x| ≤ |n * f32Step x - x| := by
  have hs := f32Step_pos x
  have h := nearestEven_best (x / f32Step x) n
  have e : roundF32 x - x = (nearestEven (x / f32Step x) - x / f32Step x) * f32Step x := by
    unfold roundF32; field_simp
  have e2 : n * f32Step x - x = (n - x / f32Step x) * f32Step x := by field_simp
  rw [e, e2, abs_mul, abs_mul]
  exact mul_le_mul_of_nonneg_right h (abs_nonneg _)

theorem abs_lt_f32Step (x : ℚ) : |x| < 2 ^ 24 * f32Step x := by
  have h := Int.lt_zpow_succ_log_self (b := 2) (by norm_num) |x|
  push_cast at h
  refine lt_of_lt_of_le h ?_
  unfold f32Step
  rw [show (2 : ℚ) ^ 24 = 2 ^ (24 : ℤ) by norm_num, ← zpow_add₀ (by norm_num)]
  exact zpow_le_zpow_right₀ (by norm_num) (by omega)

theorem roundF32_isSingle (x : ℚ) : IsSingle (roundF32 x) := by
  refine ⟨nearestEven (x / f32Step x), max (Int.log 2 |x|) (-126) - 23, ?_, by omega, rfl⟩
  have hs := f32Step_pos x
  have h1 := nearestEven_near (x / f32Step x)
  have h2 : |x / f32Step x| < 2 ^ 24 := by
    rw [abs_div, abs_of_pos hs, div_lt_iff₀ hs]; exact abs_lt_f32Step x
  have h3 : |(nearestEven (x / f32Step x) : ℚ)| < 2 ^ 24 + 1 := by
    have := abs_sub_le (nearestEven (x / f32Step x) : ℚ) (x / f32Step x) 0
    simp only [sub_zero] at this
    linarith
  have : |nearestEven (x / f32Step x)| < 2 ^ 24 + 1 := by exact_mod_cast h3
  omega

theorem roundF32_zero : roundF32 0 = 0 := by
  have h := roundF32_grid 0 0
  simpa using h

theorem roundF32_nearest (x : ℚ) : NearestSingle (roundF32 x) x := by
  refine ⟨roundF32_isSingle x, ?_⟩
  rintro w ⟨m, e, hm, he, rfl⟩
  by_cases hx : x = 0
  · rw [hx, roundF32_zero, sub_self, abs_zero]; exact abs_nonneg _
  by_cases hE : max (Int.log 2 |x|) (-126) - 23 ≤ e
  · have : (m : ℚ) * 2 ^ e = ((m * 2 ^ (e - (max (Int.log 2 |x|) (-126) - 23)).toNat : ℤ) : ℚ)
        * f32Step x := by
      unfold f32Step
      push_cast
      rw [mul_assoc, ← zpow_natCast, ← zpow_add₀ (by norm_num)]
      congr 2
      omega
    rw [this]
    exact roundF32_grid x _
  · have hlog : -126 < Int.log 2 |x| := by omega
    have hst : f32Step x = 2 ^ (Int.log 2 |x| - 23) := by
      unfold f32Step; rw [max_eq_left hlog.le]
    have hx0 : 0 < |x| := by
      rcases eq_or_lt_of_le (abs_nonneg x) with h | h
      · exact absurd (abs_eq_zero.mp h.symm) hx
      · exact h
    have hle := Int.zpow_log_le_self (b := 2) (by norm_num) hx0
    push_cast at hle
    have hw : |(m : ℚ) * 2 ^ e| ≤ 2 ^ (Int.log 2 |x|) := by
      rw [abs_mul, abs_of_pos (show (0 : ℚ) < 2 ^ e by positivity)]
      have h1 : |(m : ℚ)| ≤ 2 ^ (24 : ℤ) := by exact_mod_cast hm
      have h2 : (2 : ℚ) ^ e ≤ 2 ^ (Int.log 2 |x| - 24) :=
        zpow_le_zpow_right₀ (by norm_num) (by omega)
      calc |(m : ℚ)| * 2 ^ e ≤ 2 ^ (24 : ℤ) * 2 ^ (Int.log 2 |x| - 24) :=
            mul_le_mul h1 h2 (by positivity) (by positivity)
        _ = 2 ^ (Int.log 2 |x|) := by rw [← zpow_add₀ (by norm_num)]; congr 1; ring
    have hp : (2 : ℚ) ^ (Int.log 2 |x|) = 2 ^ 23 * f32Step x := by
      rw [hst, show (2 : ℚ) ^ 23 = 2 ^ (23 : ℤ) by norm_num, ← zpow_add₀ (by norm_num)]
      congr 1; ring
    have hdist : |x| - 2 ^ (Int.log 2 |x|) ≤ |(m : ℚ) * 2 ^ e - x| := by
      have := abs_sub_abs_le_abs_sub x ((m : ℚ) * 2 ^ e)
      rw [abs_sub_comm x] at this
      linarith
    refine le_trans ?_ hdist
    rcases le_total 0 x with h | h
    · have := roundF32_grid x (2 ^ 23)
      push_cast at this
      rw [show (8388608 : ℚ) = 2 ^ 23 by norm_num, ← hp] at this
      rw [abs_of_nonneg h] at hle this ⊢
      rwa [abs_sub_comm (2 ^ _), abs_of_nonneg (by linarith : (0:ℚ) ≤ x - 2 ^ Int.log 2 x)] at this
    · have := roundF32_grid x (-2 ^ 23)
      push_cast at this
      rw [show (8388608 : ℚ) = 2 ^ 23 by norm_num, neg_mul, ← hp] at this
      rw [abs_of_nonpos h] at hle this ⊢
      rwa [abs_of_nonneg (by linarith : (0:ℚ) ≤ -2 ^ Int.log 2 (-x) - x),
        show -2 ^ Int.log 2 (-x) - x = -x - 2 ^ Int.log 2 (-x) by ring] at this

theorem nearestSingle_mono {v w x y : ℚ} (hv : NearestSingle v x) (hw : NearestSingle w y)
    (h : x < y) : v ≤ w := by
  by_contra hc
  push Not at hc
  have h1 := hv.2 w hw.1
  have h2 := hw.2 v hv.1
  have e1 : (v + w) / 2 ≤ x := by
    rcases abs_cases (v - x) with h | h <;> rcases abs_cases (w - x) with h' | h' <;> linarith
  have e2 : y ≤ (v + w) / 2 := by
    rcases abs_cases (w - y) with h | h <;> rcases abs_cases (v - y) with h' | h' <;> linarith
  linarith

theorem roundF32_mono {x y : ℚ} (h : x ≤ y) : roundF32 x ≤ roundF32 y := by
  rcases eq_or_lt_of_le h with rfl | h
  · exact le_refl _
  · exact nearestSingle_mono (roundF32_nearest x) (roundF32_nearest y) h

theorem roundF32_of_isSingle {x : ℚ} (h : IsSingle x) : roundF32 x = x := by
  have := (roundF32_nearest x).2 x h
  simp only [sub_self, abs_zero] at this
  have := abs_nonpos_iff.mp this
  linarith

theorem roundF32_rel {x : ℚ} (hx : 2 ^ (-126 : ℤ) ≤ |x|) :
    |roundF32 x - x| ≤ |x| / 2 ^ 24 := by
  have hx0 : 0 < |x| := lt_of_lt_of_le (zpow_pos (by norm_num) _) hx
  have h1 := roundF32_error x
  have h2 : -126 ≤ Int.log 2 |x| := by
    rw [← Int.zpow_le_iff_le_log (by norm_num) hx0]
    simpa only [Nat.cast_ofNat] using hx
  have h3 : f32Step x = 2 ^ (Int.log 2 |x|) / 2 ^ 23 := by
    unfold f32Step
    rw [max_eq_left h2, zpow_sub₀ (by norm_num)]; norm_num
  have h4 := Int.zpow_log_le_self (b := 2) (by norm_num) hx0
  push_cast at h4
  rw [h3] at h1
  have : (2 : ℚ) ^ (Int.log 2 |x|) / 2 ^ 23 / 2 ≤ |x| / 2 ^ 24 := by
    rw [div_div]
    norm_num
    exact div_le_div_of_nonneg_right h4 (by norm_num)
  linarith

theorem isSingle_nat {n : ℕ} (h : n ≤ 2 ^ 24) : IsSingle n :=
  ⟨n, 0, by rw [Nat.abs_cast]; exact_mod_cast h, by norm_num, by simp⟩

theorem isSingle_two_pow (n : ℕ) : IsSingle (2 ^ n) :=
  ⟨1, n, by norm_num, by omega, by simp⟩

theorem isSingle_one : IsSingle 1 := by simpa using isSingle_two_pow 0

theorem roundF32_nonneg {x : ℚ} (h : 0 ≤ x) : 0 ≤ roundF32 x := by
  have := roundF32_mono h
  rwa [roundF32_zero] at this

theorem roundF32_le_one {x : ℚ} (h : x ≤ 1) : roundF32 x ≤ 1 := by
  have := roundF32_mono h
  rwa [roundF32_of_isSingle isSingle_one] at this

theorem roundF32_one_le {x : ℚ} (h : 1 ≤ x) : 1 ≤ roundF32 x := by
  have := roundF32_mono h
  rwa [roundF32_of_isSingle isSingle_one] at this

theorem roundF32_le_pow {x : ℚ} (n : ℕ) (h : x ≤ 2 ^ n) : roundF32 x ≤ 2 ^ n := by
  have := roundF32_mono h
  rwa [roundF32_of_isSingle (isSingle_two_pow n)] at this

theorem F32.of_finite {x : ℚ} (h0 : 0 ≤ x) (h : x ≤ 2 ^ 64) : F32.of x = .finite (roundF32 x) := by
  have h1 := roundF32_nonneg h0
  have h2 := roundF32_le_pow 64 h
  unfold F32.of
  rw [if_neg]
  rw [abs_of_nonneg h1]
  unfold f32Limit
  have : (2 : ℚ) ^ 64 < 2 ^ 128 := by norm_num
  linarith

theorem tiny32 {x : ℚ} (h : 1 / 2 ^ 64 ≤ x) : (2 : ℚ) ^ (-126 : ℤ) ≤ |x| := by
  have h0 : (0 : ℚ) ≤ x := le_trans (by positivity) h
  rw [abs_of_nonneg h0]
  refine le_trans ?_ h
  rw [zpow_neg, one_div]
  exact inv_anti₀ (by positivity) (by norm_num)

/-- The quotient of two counts. -/
theorem count_div {a b : ℕ} (hab : a ≤ b) (h0 : 0 < b) (hb : b < 2 ^ 64) :
    ∃ v, F32.div (.of a) (.of b) = .finite v ∧ IsSingle v ∧ 0 ≤ v ∧ v ≤ 1 ∧
      |v - a / b| ≤ a / b / 2 ^ 22 ∧
      (b ≤ 2 ^ 24 → NearestSingle v (a / b) ∧ (v = 1 ↔ a = b)) := by
  have hbq : (b : ℚ) ≤ 2 ^ 64 := by exact_mod_cast hb.le
  have habq : (a : ℚ) ≤ b := by exact_mod_cast hab
  have h1b : (1 : ℚ) ≤ b := by exact_mod_cast h0
  have ha0 : (0 : ℚ) ≤ a := by positivity
  have rb1 := roundF32_one_le h1b
  have rb2 := roundF32_le_pow 64 hbq
  have ra0 := roundF32_nonneg ha0
  have rab := roundF32_mono habq
  have q0 : 0 ≤ roundF32 a / roundF32 b := div_nonneg ra0 (by linarith)
  have q1 : roundF32 a / roundF32 b ≤ 1 := (div_le_one (by linarith)).2 rab
  have ediv : F32.div (.of a) (.of b) = .finite (roundF32 (roundF32 a / roundF32 b)) := by
    rw [F32.of_finite ha0 (habq.trans hbq), F32.of_finite (by linarith) hbq]
    unfold F32.div
    simp only
    rw [if_neg (by linarith), F32.of_finite q0 (le_trans q1 (by norm_num))]
  refine ⟨_, ediv, roundF32_isSingle _, roundF32_nonneg q0, roundF32_le_one q1, ?_, ?_⟩
  · rcases Nat.eq_zero_or_pos a with rfl | ha
    · simp [roundF32_zero]
    · have h1a : (1 : ℚ) ≤ a := by exact_mod_cast ha
      have ra1 := roundF32_one_le h1a
      have ea := roundF32_rel (tiny32 (le_trans (by norm_num) h1a))
      have eb := roundF32_rel (tiny32 (le_trans (by norm_num) h1b))
      rw [abs_of_nonneg ha0, abs_le] at ea
      rw [abs_of_nonneg (by linarith : (0:ℚ) ≤ b), abs_le] at eb
      have hq : 1 / 2 ^ 64 ≤ roundF32 a / roundF32 b :=
        div_le_div₀ (by linarith) ra1 (by linarith) rb2
      have eq := roundF32_rel (tiny32 hq)
      rw [abs_of_nonneg q0, abs_le] at eq
      generalize roundF32 (roundF32 a / roundF32 b) = v at *
      generalize roundF32 a = p at *
      generalize roundF32 b = r at *
      generalize (a : ℚ) = A at *
      generalize (b : ℚ) = B at *
      have hB : 0 < B := by linarith
      have hr : 0 < r := by linarith
      have hu : p / r ≤ A / B * (1 + 1 / 2 ^ 24) / (1 - 1 / 2 ^ 24) := by
        rw [div_mul_eq_mul_div, div_div]
        refine div_le_div₀ (by positivity) ?_ (by norm_num; linarith) ?_ <;> linarith
      have hl : A / B * (1 - 1 / 2 ^ 24) / (1 + 1 / 2 ^ 24) ≤ p / r := by
        rw [div_mul_eq_mul_div, div_div]
        refine div_le_div₀ (by linarith) ?_ hr ?_ <;> linarith
      have hAB : 0 ≤ A / B := by positivity
      generalize A / B = x at *
      generalize p / r = y at *
      rw [le_div_iff₀ (by norm_num)] at hu
      rw [div_le_iff₀ (by norm_num)] at hl
      rw [abs_le]
      norm_num at hu hl eq ⊢
      constructor <;> linarith
  · intro hsmall
    rw [roundF32_of_isSingle (isSingle_nat (hab.trans hsmall)), roundF32_of_isSingle (isSingle_nat hsmall)]
    refine ⟨roundF32_nearest _, ?_⟩
    constructor
    · intro hv
      by_contra hne
      have hlt : a + 1 ≤ b := by omega
      have hltq : (a : ℚ) + 1 ≤ b := by exact_mod_cast hlt
      have hsq : (b : ℚ) ≤ 2 ^ 24 := by exact_mod_cast hsmall
      have hle : (a : ℚ) / b ≤ 1 - 1 / 2 ^ 24 := by
        rw [div_le_iff₀ (by linarith)]
        have : (b : ℚ) / 2 ^ 24 ≤ 1 := (div_le_one (by norm_num)).2 hsq
        have e : (1 - 1 / 2 ^ 24) * (b : ℚ) = b - b / 2 ^ 24 := by ring
        rw [e]; linarith
      have hs : IsSingle (1 - 1 / 2 ^ 24) := ⟨2 ^ 24 - 1, -24, by norm_num, by norm_num, by norm_num⟩
      have := roundF32_mono hle
      rw [roundF32_of_isSingle hs, hv] at this
      norm_num at this
    · rintro rfl
      rw [div_self (by linarith)]
      exact roundF32_of_isSingle isSingle_one

end Lfest
