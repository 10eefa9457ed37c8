import Verif.Lemmas.ShapeF64
import Verif.Lemmas.SqrtF64

/-!
# C104: skew and kurtosis in floating point arithmetic

Skew and kurtosis are ratios of powers of the distances from the mean. The theorems compare them with
the exact ratios about the mean that was computed; how far that mean can be off is said by
`C104_mean`.
-/

namespace Lfest
open Spec

/-- C104: the excess kurtosis is the exact one about the computed mean, up to `(3n + 20) 2⁻⁵²` of the
kurtosis and one rounding of the difference with 3. -/
theorem C104_kurtosis (vals : List ℚ) (h : Fair vals) (pow15 : F64 → F64)
    (hs : (momentsF64 pow15 (vals.map .finite)).stdDev ≠ .finite 0) :
    ∃ m x K : ℚ, (momentsF64 pow15 (vals.map .finite)).mean = .finite m ∧
      (momentsF64 pow15 (vals.map .finite)).excessKurtosis = .finite x ∧
      0 < momentAbout 2 m vals ∧ K = momentAbout 4 m vals / momentAbout 2 m vals ^ 2 ∧
      |x - (K - 3)| ≤ (3 * vals.length + 20) / 2 ^ 52 * K + |K - 3| / 2 ^ 53 := by
  obtain ⟨m, h1, _, h3, h4⟩ := mean_fair h
  obtain ⟨r, h5, h6⟩ := variance_fair h h1 h3 h4
  obtain ⟨a, h7, h8⟩ := fourth_moment h h3 h4
  have hr : r ≠ 0 := by
    rintro rfl
    apply hs
    show (varianceF64 _).sqrt = _
    rw [h5]
    simp [F64.sqrt, sqrtF64_zero]
  obtain ⟨h9, k, h10, h11, h12⟩ := kurtosis_fair h hr h6 h8
  obtain ⟨hne, hn, _⟩ := h
  set K := momentAbout 4 m vals / momentAbout 2 m vals ^ 2 with hK
  have hk : |k - 3| ≤ 2 ^ 1000 := by
    have b : (2 : ℚ) ^ 51 ≤ 2 ^ 1000 / 2 := by
      rw [le_div_iff₀ (by norm_num), ← pow_succ]
      exact pow_le_pow_right₀ (by norm_num) (by norm_num)
    have c : (3 : ℚ) ≤ 2 ^ 1000 / 2 := by
      refine le_trans ?_ b
      norm_num
    have d := h12.up
    have e := h12.nonneg
    generalize (2 : ℚ) ^ 1000 = B at *
    rw [abs_le]
    constructor <;> linarith
  have h3d : IsDouble (3 : ℚ) := by exact_mod_cast isDouble_count (n := 3) (by norm_num)
  refine ⟨m, roundF64 (k - 3), K, h1, ?_, h9, rfl, ?_⟩
  · show ((((F64.finite 1).div (.of (vals.map F64.finite).length)).mul
      (F64.sum ((vals.map F64.finite).map fun v => (v.sub (meanF64 (vals.map .finite))).powi4))).div
        (varianceF64 (vals.map .finite)).powi2).sub (.finite 3) = _
    rw [List.length_map, of_count (le_trans hn.le (by norm_num)), h1, h7, h5, h10]
    simp only [F64.sub, F64.neg, F64.add]
    rw [← sub_eq_add_neg, of_finite hk]
  · have e1 := round_add h11 (isDouble_neg h3d)
    rw [← sub_eq_add_neg] at e1
    have hK0 : 0 ≤ K := h12.exact
    have hlen : 3 * vals.length + 19 ≤ 2 ^ 52 := by
      have : 3 * (2 : ℕ) ^ 50 + 19 ≤ 2 ^ 52 := by norm_num
      omega
    have e2 := near_error h12.near hlen h12.nonneg hK0
    push_cast at e2
    have hδ : (3 * (vals.length : ℚ) + 19) / 2 ^ 52 ≤ 1 := by
      rw [div_le_one (by norm_num)]
      exact_mod_cast hlen
    have e3 : roundF64 (k - 3) - (K - 3) = (roundF64 (k - 3) - (k - 3)) + (k - K) := by ring
    have e4 : |k - 3| ≤ |k - K| + |K - 3| := by
      have := abs_add_le (k - K) (K - 3)
      rwa [sub_add_sub_cancel] at this
    rw [e3]
    refine le_trans (abs_add_le _ _) ?_
    have e5 := mul_le_mul_of_nonneg_right hδ hK0
    have e6 := mul_le_mul_of_nonneg_left e4 ulp_pos.le
    have e7 := mul_le_mul_of_nonneg_left (le_trans e2 e5) ulp_pos.le
    have e8 : ulp = 1 / 2 ^ 53 := rfl
    have e9 : (3 * (vals.length : ℚ) + 20) / 2 ^ 52 * K
        = (3 * (vals.length : ℚ) + 19) / 2 ^ 52 * K + 2 * (ulp * K) := by rw [e8]; ring
    have e10 : |K - 3| / 2 ^ 53 = ulp * |K - 3| := by rw [e8]; ring
    rw [e9, e10]
    have := mul_nonneg ulp_pos.le hK0
    linarith

/-- C104: the excess kurtosis is not below -2, up to rounding. -/
theorem C104_kurtosis_bound (vals : List ℚ) (h : Fair vals) (pow15 : F64 → F64)
    (hs : (momentsF64 pow15 (vals.map .finite)).stdDev ≠ .finite 0) :
    ∃ x, (momentsF64 pow15 (vals.map .finite)).excessKurtosis = .finite x ∧
      -2 - (3 * vals.length + 22) / 2 ^ 52 ≤ x := by
  obtain ⟨m, x, K, _, h2, h3, h4, h5⟩ := C104_kurtosis vals h pow15 hs
  refine ⟨x, h2, ?_⟩
  have hK1 : 1 ≤ K := by
    rw [h4, le_div_iff₀ (by positivity), one_mul]; exact kurtosis_ge h.1 m
  have hlen : (3 * (vals.length : ℚ) + 20) / 2 ^ 52 ≤ 1 - 1 / 2 ^ 53 := by
    have : (vals.length : ℚ) ≤ 1125899906842624 := by exact_mod_cast h.2.1.le
    rw [div_le_iff₀ (by norm_num)]
    norm_num
    linarith
  have hl0 : 0 ≤ (3 * (vals.length : ℚ) + 20) / 2 ^ 52 := by positivity
  have e : (3 * (vals.length : ℚ) + 22) / 2 ^ 52 = (3 * (vals.length : ℚ) + 20) / 2 ^ 52 + 4 / 2 ^ 53 := by
    ring
  rw [e]
  set δ := (3 * (vals.length : ℚ) + 20) / 2 ^ 52
  have h6 := (abs_le.1 h5).1
  have h7 : |K - 3| ≤ (K - 1) + 2 := by
    rw [abs_le]; constructor <;> linarith
  have h8 : 0 ≤ (K - 1) * (1 - δ - 1 / 2 ^ 53) := mul_nonneg (by linarith) (by linarith)
  have h9 : |K - 3| / 2 ^ 53 ≤ ((K - 1) + 2) / 2 ^ 53 :=
    div_le_div_of_nonneg_right h7 (by norm_num)
  have h10 : (K - 1) * (1 - δ - 1 / 2 ^ 53) = K - 1 - δ * K + δ - (K - 1) / 2 ^ 53 := by ring
  have h11 : ((K - 1) + 2) / 2 ^ 53 = (K - 1) / 2 ^ 53 + 2 / 2 ^ 53 := by ring
  have h12 : (2 : ℚ) / 2 ^ 53 ≤ 4 / 2 ^ 53 := by norm_num
  linarith

/-- C104: the skew is the third moment about the computed mean, divided by what `powf` returned for a
number that is off from the variance about that mean by at most `(n + 4) 2⁻⁵²` of it; the error is
at most `(n + 9) 2⁻⁵²` of the third absolute moment, divided likewise. -/
theorem C104_skew (vals : List ℚ) (h : Fair vals) (pow15 : F64 → F64) :
    ∃ m r : ℚ, (momentsF64 pow15 (vals.map .finite)).mean = .finite m ∧
      |r - momentAbout 2 m vals| ≤ (vals.length + 4) / 2 ^ 52 * momentAbout 2 m vals ∧
      ∀ p, pow15 (.finite r) = .finite p → 2 ^ (-300 : ℤ) ≤ p → p ≤ 2 ^ 300 →
        ∃ x, (momentsF64 pow15 (vals.map .finite)).skew = .finite x ∧
          |x - momentAbout 3 m vals / p|
            ≤ (vals.length + 9) / 2 ^ 52 * (absMomentAbout 3 m vals / p) := by
  obtain ⟨m, h1, _, h3, h4⟩ := mean_fair h
  obtain ⟨r, h5, h6⟩ := variance_fair h h1 h3 h4
  obtain ⟨a, h7, h8, h9, h10, h11⟩ := third_moment h h3 h4
  obtain ⟨hne, hn, _⟩ := h
  have hbig : (2 : ℕ) ^ 50 + 9 ≤ 2 ^ 52 := by norm_num
  refine ⟨m, r, h1, ?_, fun p hp hp1 hp2 => ?_⟩
  · have := near_error h6.near (by omega) h6.nonneg h6.exact
    push_cast at this
    exact this
  · have hp0 : 0 < p := lt_of_lt_of_le (by positivity) hp1
    have hlow : Low (-956) |a / p| := by
      rw [abs_div, abs_of_pos hp0]
      rcases h8 with h8 | h8
      · exact .inl (by rw [h8, zero_div])
      · refine .inr ?_
        rw [le_div_iff₀ hp0]
        refine le_trans ?_ h8
        rw [show (-656 : ℤ) = -956 + (300 : ℕ) by norm_num, zpow_add₀ (by norm_num), zpow_natCast]
        exact mul_le_mul_of_nonneg_left hp2 (by positivity)
    have hup : |a / p| ≤ 2 ^ 1000 := by
      rw [abs_div, abs_of_pos hp0, div_le_iff₀ hp0]
      refine le_trans h9 (le_trans ?_ (mul_le_mul_of_nonneg_left hp1 (by positivity)))
      rw [← zpow_natCast, ← zpow_natCast, ← zpow_add₀ (by norm_num)]
      exact zpow_le_zpow_right₀ (by norm_num) (by norm_num)
    refine ⟨roundF64 (a / p), ?_, ?_⟩
    · show (((F64.finite 1).div (.of (vals.map F64.finite).length)).mul
        (F64.sum ((vals.map F64.finite).map
          fun v => (v.sub (meanF64 (vals.map .finite))).powi3))).div
            (pow15 (varianceF64 (vals.map .finite))) = _
      rw [List.length_map, of_count (le_trans hn.le (by norm_num)), h1, h7, h5, hp]
      simp only [F64.div]
      rw [if_neg hp0.ne', of_finite hup]
    · have hq : |a / p - momentAbout 3 m vals / p|
          ≤ ((1 + ulp) ^ (vals.length + 8) - 1) * (absMomentAbout 3 m vals / p) := by
        rw [← sub_div, abs_div, abs_of_pos hp0, ← mul_div_assoc]
        exact div_le_div_of_nonneg_right h11 hp0.le
      have hS : |momentAbout 3 m vals / p| ≤ absMomentAbout 3 m vals / p := by
        rw [abs_div, abs_of_pos hp0]
        exact div_le_div_of_nonneg_right h10 hp0.le
      have := one_more (round_low (low_weaken hlow (by norm_num))) hq hS
      refine le_trans this ?_
      have hA : 0 ≤ absMomentAbout 3 m vals / p := le_trans (abs_nonneg _) hS
      apply mul_le_mul_of_nonneg_right _ hA
      have hpow := pow_one_ulp (k := vals.length + 9) (by omega)
      rw [pow_succ] at hpow
      push_cast at hpow
      linarith

/-- Non-vacuity: the values of the project's own test are fair, and their standard deviation is not
zero. -/
example : Fair [2, 8, 0, 4, 1, 9, 9, 0] ∧
    (momentsF64 id ([2, 8, 0, 4, 1, 9, 9, 0].map .finite)).stdDev ≠ .finite 0 := by
  refine ⟨⟨by simp, by simp, fun v hv => ?_⟩, by decide +kernel⟩
  have key : ∀ n : ℕ, n ≤ 9 →
      IsDouble (n : ℚ) ∧ (∃ z : ℤ, (n : ℚ) = z * 2 ^ (-100 : ℤ)) ∧ |(n : ℚ)| ≤ 2 ^ 200 :=
    fun n hn => by
    refine ⟨isDouble_count (le_trans hn (by norm_num)), ⟨n * 2 ^ 100, by push_cast; norm_num; ring⟩, ?_⟩
    rw [abs_of_nonneg (by positivity)]
    have : (n : ℚ) ≤ 2 ^ 4 := by
      have : (n : ℚ) ≤ 9 := by exact_mod_cast hn
      linarith
    exact le_trans this (pow_le_pow_right₀ (by norm_num) (by norm_num))
  simp only [List.mem_cons, List.not_mem_nil, or_false] at hv
  rcases hv with rfl | rfl | rfl | rfl | rfl | rfl | rfl | rfl
  · exact_mod_cast key 2 (by norm_num)
  · exact_mod_cast key 8 (by norm_num)
  · exact_mod_cast key 0 (by norm_num)
  · exact_mod_cast key 4 (by norm_num)
  · exact_mod_cast key 1 (by norm_num)
  · exact_mod_cast key 9 (by norm_num)
  · exact_mod_cast key 9 (by norm_num)
  · exact_mod_cast key 0 (by norm_num)

end Lfest
