import Verif.Lemmas.SqrtF64
import Verif.Lemmas.LawsF64

/-!
# C104: statistical moments in floating point arithmetic

`C73` is about exact numbers; the code computes with `f64`. What survives the rounding, by how much
the results can be off, and what does not survive.
-/

namespace Lfest
open Spec

/-- C104: the mean is off by at most `(n + 1) 2⁻⁵²` of the mean absolute value, and half the
smallest double. -/
theorem C104_mean (vals : List ℚ) (h : Moderate vals) (pow15 : F64 → F64) :
    ∃ m, (momentsF64 pow15 (vals.map .finite)).mean = .finite m ∧ IsDouble m ∧
      |m - average vals| ≤ (vals.length + 1) / 2 ^ 52 * averageAbs vals + 2 ^ (-1075 : ℤ) := by
  obtain ⟨m, h1, h2, h3, _⟩ := mean_ok h
  refine ⟨m, h1, h2, le_trans h3 ?_⟩
  obtain ⟨hne, hn, _⟩ := h
  have hk : vals.length + 1 ≤ 2 ^ 52 := by
    have : (2 : ℕ) ^ 50 ≤ 2 ^ 52 := by norm_num
    omega
  have hp := pow_one_ulp hk
  push_cast at hp
  have h0 : 0 ≤ averageAbs vals := by
    have : averageAbs vals = (vals.map fun v => |v|).sum / vals.length := by
      simp [averageAbs, average]
    rw [this]
    exact div_nonneg (sum_abs_nonneg vals) (Nat.cast_nonneg _)
  have : ((1 + ulp) ^ (vals.length + 1) - 1) * averageAbs vals
      ≤ (vals.length + 1) / 2 ^ 52 * averageAbs vals :=
    mul_le_mul_of_nonneg_right (by linarith) h0
  unfold eta
  exact add_le_add this le_rfl

/-- C104: the standard deviation is the square root, correct to half a unit of the last bit, of a
number that is off from the variance by at most `(n + 4) 2⁻⁵²` of it, twice the square of the error
of the mean, and twice the smallest double. -/
theorem C104_deviation (vals : List ℚ) (h : Moderate vals) (pow15 : F64 → F64) :
    ∃ m s r : ℚ, (momentsF64 pow15 (vals.map .finite)).mean = .finite m ∧
      (momentsF64 pow15 (vals.map .finite)).stdDev = .finite s ∧ IsDouble s ∧ 0 ≤ s ∧ 0 ≤ r ∧
      |(s : ℝ) - Real.sqrt r| ≤ Real.sqrt r / 2 ^ 53 ∧
      |r - variance vals| ≤ (vals.length + 4) / 2 ^ 52 * variance vals
        + 2 * (m - average vals) ^ 2 + 2 ^ (-1073 : ℤ) := by
  obtain ⟨m, h1, h2, _, h4⟩ := mean_ok h
  obtain ⟨r, h5, h6, h7, h8⟩ := variance_ok h h1 h2 h4
  obtain ⟨h9, h10, h11⟩ := sqrt_ok h6 h7
  refine ⟨m, sqrtF64 r, r, h1, ?_, h9, h10, h7, h11, ?_⟩
  · show (varianceF64 _).sqrt = _
    rw [h5]
    exact if_neg (not_lt.2 h7)
  · obtain ⟨hne, hn, _⟩ := h
    rw [spread_eq hne m] at h8
    set d := (m - average vals) ^ 2
    have hd : 0 ≤ d := sq_nonneg _
    have e : r - variance vals = (r - (variance vals + d)) + d := by ring
    rw [e]
    refine le_trans (abs_add_le _ _) ?_
    rw [abs_of_nonneg hd]
    have hq : ((vals.length : ℚ) + 4) / 2 ^ 52 ≤ 1 := by
      rw [div_le_one (by norm_num)]
      have a : (vals.length : ℚ) ≤ 2 ^ 50 := by exact_mod_cast hn.le
      have b : (2 : ℚ) ^ 50 + 4 ≤ 2 ^ 52 := by norm_num
      linarith
    have h12 : ((vals.length : ℚ) + 4) / 2 ^ 52 * d ≤ 1 * d := mul_le_mul_of_nonneg_right hq hd
    have h13 : 3 * eta ≤ 2 ^ (-1073 : ℤ) := by
      have : (2 : ℚ) ^ (-1073 : ℤ) = 4 * eta := by
        unfold eta
        rw [show (-1073 : ℤ) = 2 + -1075 by norm_num, zpow_add₀ (by norm_num)]
        norm_num
      have := eta_pos
      linarith
    generalize (2 : ℚ) ^ (-1073 : ℤ) = B at *
    linarith

/-- C104: the mean of multiples of one unit is the double nearest to the exact mean, as long as the
absolute values add up to at most `2⁵³` units. -/
theorem C104_mean_nearest (e : ℤ) (he : -1074 ≤ e) (he2 : e ≤ 900) (ks : List ℤ) (hne : ks ≠ [])
    (hn : ks.length ≤ 2 ^ 53) (h : (ks.map fun k => |k|).sum ≤ 2 ^ 53) (pow15 : F64 → F64) :
    ∃ m, (momentsF64 pow15 ((ks.map fun k : ℤ => (k : ℚ) * 2 ^ e).map .finite)).mean = .finite m ∧
      NearestDouble m (average (ks.map fun k : ℤ => (k : ℚ) * 2 ^ e)) := by
  have hn0 : 0 < ks.length := List.length_pos_of_ne_nil hne
  have hn0' : (0 : ℚ) < ks.length := by exact_mod_cast hn0
  have hs := sum_exact e he he2 ks h
  have hsum : (ks.map fun k : ℤ => (k : ℚ) * 2 ^ e).sum = ks.sum * 2 ^ e := by
    clear hs h hn hn0 hn0' hne
    induction ks with
    | nil => simp
    | cons k ks ih => simp only [List.map_cons, List.sum_cons, ih]; push_cast; ring
  have habs : |ks.sum| ≤ 2 ^ 53 := by
    refine le_trans ?_ h
    clear hs h hn hn0 hn0' hne hsum
    induction ks with
    | nil => simp
    | cons a l ih =>
      simp only [List.sum_cons, List.map_cons]
      have := abs_add_le a l.sum
      omega
  have hb : |(ks.sum : ℚ) * 2 ^ e| ≤ 2 ^ 1000 := by
    rw [abs_mul, abs_of_pos (show (0 : ℚ) < 2 ^ e by positivity)]
    have a : ((|ks.sum| : ℤ) : ℚ) ≤ 2 ^ 53 := by exact_mod_cast habs
    rw [Int.cast_abs] at a
    have b : (2 : ℚ) ^ e ≤ 2 ^ 900 := by
      rw [← zpow_natCast]
      exact zpow_le_zpow_right₀ (by norm_num) (by omega)
    exact pow_mul_le a b (by positivity) (by norm_num)
  refine ⟨roundF64 ((ks.sum : ℚ) * 2 ^ e / ks.length), ?_, ?_⟩
  · show meanF64 _ = _
    unfold meanF64
    rw [hs, List.length_map, List.length_map, of_count hn]
    simp only [F64.div]
    rw [if_neg hn0'.ne', of_finite]
    rw [abs_div, abs_of_pos hn0']
    exact le_trans (div_le_self (abs_nonneg _) (by exact_mod_cast hn0)) hb
  · have : average (ks.map fun k : ℤ => (k : ℚ) * 2 ^ e) = (ks.sum : ℚ) * 2 ^ e / ks.length := by
      rw [average, hsum, List.length_map]
    rw [this]
    exact roundF64_nearest _

/-- C104: of equal values that are multiples of a unit, few enough to add up to at most `2⁵³`
units, the mean is the value and the standard deviation is zero; skew and kurtosis are not numbers.
-/
theorem C104_constant (e k : ℤ) (n : ℕ) (he : -1074 ≤ e) (he2 : e ≤ 900) (hn : 0 < n)
    (hn2 : n ≤ 2 ^ 53) (h : n * |k| ≤ 2 ^ 53) (pow15 : F64 → F64)
    (hp : pow15 (.finite 0) = .finite 0) :
    momentsF64 pow15 (List.replicate n (.finite ((k : ℚ) * 2 ^ e))) =
      ⟨.finite ((k : ℚ) * 2 ^ e), .finite 0, .nan, .nan⟩ := by
  have hn0' : (0 : ℚ) < n := by exact_mod_cast hn
  have hdk : IsDouble ((k : ℚ) * 2 ^ e) := by
    refine ⟨k, e, ?_, he, rfl⟩
    have : (1 : ℤ) ≤ n := by exact_mod_cast hn
    have := abs_nonneg k
    nlinarith
  have hlist : (List.replicate n (.finite ((k : ℚ) * 2 ^ e)) : List F64)
      = ((List.replicate n k).map fun k : ℤ => (k : ℚ) * 2 ^ e).map .finite := by
    simp
  have hmean : meanF64 (List.replicate n (.finite ((k : ℚ) * 2 ^ e))) = .finite ((k : ℚ) * 2 ^ e) := by
    obtain ⟨m, h1, h2⟩ := C104_mean_nearest e he he2 (List.replicate n k)
      (by rw [Ne, List.replicate_eq_nil_iff]; omega) (by simpa using hn2)
      (by simpa using h) pow15
    rw [← hlist] at h1
    have hav : average ((List.replicate n k).map fun k : ℤ => (k : ℚ) * 2 ^ e) = (k : ℚ) * 2 ^ e := by
      simp only [average, List.map_replicate, List.sum_replicate, List.length_replicate,
        nsmul_eq_mul]
      field_simp
    rw [hav] at h2
    have := h2.2 _ hdk
    rw [sub_self, abs_zero, abs_nonpos_iff] at this
    rw [show meanF64 _ = _ from h1, sub_eq_zero.1 this]
  have hz : F64.of 0 = .finite 0 := by
    rw [of_finite (by simp), roundF64_zero]
  have hsub : (F64.finite ((k : ℚ) * 2 ^ e)).sub (.finite ((k : ℚ) * 2 ^ e)) = .finite 0 := by
    simp only [F64.sub, F64.neg, F64.add, add_neg_cancel]
    exact hz
  have hmul : (F64.finite 0).mul (.finite 0) = .finite 0 := by
    simp only [F64.mul, mul_zero]; exact hz
  have hsum : ∀ n, F64.sum (List.replicate n (.finite 0)) = .finite 0 := by
    intro n
    induction n with
    | zero => rfl
    | succ n ih =>
      rw [List.replicate_succ', sumF_append, ih]
      simp only [F64.add, add_zero]; exact hz
  have hof : F64.of (n : ℚ) = .finite n := of_count hn2
  have hvar : varianceF64 (List.replicate n (.finite ((k : ℚ) * 2 ^ e))) = .finite 0 := by
    unfold varianceF64
    rw [hmean, List.map_replicate, hsub]
    simp only [F64.powi2, hmul, List.length_replicate]
    rw [hsum, hof]
    simp only [F64.div]
    rw [if_neg hn0'.ne', zero_div, hz]
  have hone : ∃ x, (F64.finite 1).div (.finite n) = .finite x := by
    refine ⟨roundF64 (1 / n), ?_⟩
    simp only [F64.div]
    rw [if_neg hn0'.ne', of_finite]
    rw [abs_div, abs_one, abs_of_pos hn0']
    have : (1 : ℚ) / n ≤ 1 := by
      rw [div_le_one hn0']; exact_mod_cast hn
    exact le_trans this (one_le_pow₀ (by norm_num))
  obtain ⟨x, hx⟩ := hone
  have hxm : (F64.finite x).mul (.finite 0) = .finite 0 := by
    simp only [F64.mul, mul_zero]; exact hz
  unfold momentsF64
  simp only [hmean, hvar, List.map_replicate, hsub, F64.powi3, F64.powi4, F64.powi2, hmul, hsum,
    List.length_replicate, hof, hx, hxm, hp]
  simp [F64.sqrt, F64.div, F64.sub, F64.neg, F64.add, sqrtF64_zero]

/-- C104: the standard deviation is never below zero, for any input, infinities and NaN included. -/
theorem C104_never_negative (vals : List F64) (pow15 : F64 → F64) :
    (∀ s, (momentsF64 pow15 vals).stdDev = .finite s → 0 ≤ s) ∧
    (momentsF64 pow15 vals).stdDev ≠ .inf true := by
  have h := notNeg_variance vals
  have e : (momentsF64 pow15 vals).stdDev = (varianceF64 vals).sqrt := rfl
  rw [e]
  cases hv : varianceF64 vals with
  | finite r =>
    rw [hv] at h
    have h0 : ¬ r < 0 := not_lt.2 h
    simp only [F64.sqrt, if_neg h0]
    refine ⟨fun s hs => ?_, by simp⟩
    simp only [F64.finite.injEq] at hs
    rw [← hs]
    unfold sqrtF64
    positivity
  | inf n =>
    rw [hv] at h
    cases h
    simp [F64.sqrt]
  | nan => simp [F64.sqrt]

/-- C104: negating all values negates mean and skew and nothing else, exactly, for any input. -/
theorem C104_mirror (vals : List F64) (pow15 : F64 → F64) :
    momentsF64 pow15 (vals.map F64.neg) =
      { momentsF64 pow15 vals with
        mean := (momentsF64 pow15 vals).mean.neg
        skew := (momentsF64 pow15 vals).skew.neg } := by
  have hmean : meanF64 (vals.map F64.neg) = (meanF64 vals).neg := by
    unfold meanF64
    rw [sum_neg64, List.length_map, neg_div64]
  have hvar : varianceF64 (vals.map F64.neg) = varianceF64 vals := by
    unfold varianceF64
    rw [hmean, List.map_map, List.length_map]
    congr 2
    apply List.map_congr_left
    intro v _
    simp only [Function.comp, F64.powi2, sub_neg64, neg_mul_neg64]
  have h3 : (vals.map F64.neg).map (fun v => (v.sub (meanF64 vals).neg).powi3)
      = (vals.map fun v => (v.sub (meanF64 vals)).powi3).map F64.neg := by
    rw [List.map_map, List.map_map]
    apply List.map_congr_left
    intro v _
    simp only [Function.comp, F64.powi3, sub_neg64]
    rw [neg_mul_neg64, neg_mul64]
  have h4 : (vals.map F64.neg).map (fun v => (v.sub (meanF64 vals).neg).powi4)
      = vals.map fun v => (v.sub (meanF64 vals)).powi4 := by
    rw [List.map_map]
    apply List.map_congr_left
    intro v _
    simp only [Function.comp, F64.powi4, sub_neg64, neg_mul_neg64]
  unfold momentsF64
  simp only [hmean, hvar, List.length_map, h3, h4, sum_neg64]
  congr 1
  rw [mul_comm64, neg_mul64, neg_div64, mul_comm64]

theorem sum_nan {ws : List F64} (h : .nan ∈ ws) : F64.sum ws = .nan := by
  induction ws using List.reverseRecOn with
  | nil => simp at h
  | append_singleton ws w ih =>
    rw [sumF_append]
    rcases List.mem_append.1 h with h | h
    · rw [ih h]; cases w <;> rfl
    · rw [List.mem_singleton] at h
      rw [← h]; cases F64.sum ws <;> rfl

/-- C104: no value, or a NaN among the values, makes all results NaN. -/
theorem C104_nan (vals : List F64) (h : vals = [] ∨ .nan ∈ vals) (pow15 : F64 → F64) :
    momentsF64 pow15 vals = ⟨.nan, .nan, .nan, .nan⟩ := by
  have ml : ∀ x : F64, x.mul .nan = .nan := fun x => by cases x <;> rfl
  have nd : ∀ x : F64, F64.div .nan x = .nan := fun x => by cases x <;> rfl
  have na : ∀ x : F64, F64.add .nan x = .nan := fun x => by cases x <;> rfl
  have sn : ∀ x : F64, x.sub .nan = .nan := fun x => by cases x <;> rfl
  rcases h with rfl | h
  · have hz : F64.of 0 = .finite 0 := by
      rw [of_finite (by simp), roundF64_zero]
    have hm : meanF64 [] = .nan := by simp [meanF64, F64.sum, hz, F64.div]
    have hv : varianceF64 [] = .nan := by simp [varianceF64, F64.sum, hz, F64.div]
    simp only [momentsF64, hm, hv, List.map_nil, List.length_nil, Nat.cast_zero, hz, F64.sum,
      List.foldl_nil]
    have h0 : (F64.finite 1).div (.finite 0) = .inf false := by simp [F64.div]
    have h1 : (F64.inf false).mul (.finite 0) = .nan := by simp [F64.mul]
    simp only [h0, h1, nd]
    rfl
  · have hm : meanF64 vals = .nan := by rw [meanF64, sum_nan h, nd]
    have hmem : ∀ f : F64 → F64, f .nan = .nan →
        .nan ∈ vals.map (fun v => f (v.sub (meanF64 vals))) := fun f hf =>
      List.mem_map.2 ⟨.nan, h, by rw [hm, sn, hf]⟩
    have hv : varianceF64 vals = .nan := by
      rw [varianceF64, sum_nan (hmem F64.powi2 rfl), nd]
    have h3 := sum_nan (hmem F64.powi3 rfl)
    have h4 := sum_nan (hmem F64.powi4 rfl)
    rw [hm] at h3 h4
    simp only [momentsF64, hm, hv, h3, h4, ml, nd]
    simp [F64.sqrt, F64.sub, F64.neg, F64.add]

/-- The double nearest to 0.1. -/
def tenth : F64 := .finite (3602879701896397 / 2 ^ 55)

/-- C104, what does not survive: three times 0.1 has a mean above 0.1, a standard deviation above
zero, the skew minus one and the excess kurtosis minus two. -/
theorem C104_equal_values_differ : NearestDouble (3602879701896397 / 2 ^ 55) (1 / 10) ∧
    ∃ m s, ∀ pow15, pow15 (.finite (2 ^ (-112 : ℤ))) = .finite (2 ^ (-168 : ℤ)) →
      momentsF64 pow15 [tenth, tenth, tenth] = ⟨.finite m, .finite s, .finite (-1), .finite (-2)⟩ ∧
      (3602879701896397 / 2 ^ 55 : ℚ) < m ∧ 0 < s := by
  refine ⟨?_, 7205759403792795 / 2 ^ 56, 1 / 2 ^ 56, fun pow15 hp => ⟨?_, by norm_num, by norm_num⟩⟩
  · have h : roundF64 (1 / 10) = 3602879701896397 / 2 ^ 55 := by decide +kernel
    rw [← h]
    exact roundF64_nearest _
  · have hv : varianceF64 [tenth, tenth, tenth] = .finite (2 ^ (-112 : ℤ)) := by decide +kernel
    have h : ∀ q, pow15 (varianceF64 [tenth, tenth, tenth]) = q →
        momentsF64 pow15 [tenth, tenth, tenth]
          = momentsF64 (fun _ => q) [tenth, tenth, tenth] := fun q hq => by
      simp only [momentsF64, hq]
    rw [h (.finite (2 ^ (-168 : ℤ))) (by rw [hv, hp])]
    have e : ∀ x : MomentsF64, x.mean = .finite (7205759403792795 / 2 ^ 56) →
        x.stdDev = .finite (1 / 2 ^ 56) → x.skew = .finite (-1) → x.excessKurtosis = .finite (-2) →
        x = ⟨.finite (7205759403792795 / 2 ^ 56), .finite (1 / 2 ^ 56), .finite (-1),
          .finite (-2)⟩ := fun x h1 h2 h3 h4 => by
      cases x; simp_all
    apply e <;> decide +kernel

/-- C104, what does not survive: the order of the values matters. -/
theorem C104_order_matters : ∃ vals vals' : List ℚ, vals.Perm vals' ∧ Moderate vals ∧
    meanF64 (vals.map .finite) = .finite 0 ∧
    meanF64 (vals'.map .finite) ≠ .finite 0 ∧ 0 < average vals := by
  refine ⟨[10 ^ 16, 1, -10 ^ 16], [10 ^ 16, -10 ^ 16, 1], ?_, ⟨by simp, by simp, ?_⟩, ?_, ?_, ?_⟩
  · exact (List.Perm.swap _ _ _).cons _
  · have d16 : IsDouble (10 ^ 16) := ⟨152587890625, 16, by norm_num, by norm_num, by norm_num⟩
    have d1 : IsDouble 1 := ⟨1, 0, by norm_num, by norm_num, by norm_num⟩
    have b : (10 : ℚ) ^ 16 ≤ 2 ^ 400 :=
      le_trans (show (10 : ℚ) ^ 16 ≤ 2 ^ 60 by norm_num)
        (pow_le_pow_right₀ (by norm_num) (by norm_num))
    intro v hv
    simp only [List.mem_cons, List.not_mem_nil, or_false] at hv
    rcases hv with rfl | rfl | rfl
    · exact ⟨d16, by rw [abs_of_pos (by norm_num)]; exact b⟩
    · exact ⟨d1, by rw [abs_one]; exact one_le_pow₀ (by norm_num)⟩
    · exact ⟨isDouble_neg d16, by rw [abs_neg, abs_of_pos (by norm_num)]; exact b⟩
  · decide +kernel
  · decide +kernel
  · norm_num [average]

/-- C104, what does not survive: the mean of two finite doubles can be infinite. -/
theorem C104_overflow : ∃ v, IsDouble v ∧ v < f64Limit ∧
    meanF64 [.finite v, .finite v] = .inf false := by
  refine ⟨2 ^ 1023, isDouble_two_pow 1023, ?_, ?_⟩
  · unfold f64Limit
    exact pow_lt_pow_right₀ (by norm_num) (by norm_num)
  · decide +kernel

/-- Non-vacuity of C104_mean and C104_deviation: the values of the project's own test. -/
example : Moderate [2, 8, 0, 4, 1, 9, 9, 0] := by
  refine ⟨by simp, by simp, fun v hv => ?_⟩
  have key : ∀ n : ℕ, n ≤ 9 → IsDouble (n : ℚ) ∧ |(n : ℚ)| ≤ 2 ^ 400 := fun n hn => by
    refine ⟨isDouble_count (le_trans hn (by norm_num)), ?_⟩
    rw [abs_of_nonneg (by positivity)]
    have : (n : ℚ) ≤ 2 ^ 4 := by
      have : (n : ℚ) ≤ 9 := by exact_mod_cast hn
      linarith
    exact le_trans this (pow_le_pow_right₀ (by norm_num) (by norm_num))
  simp only [List.mem_cons, List.not_mem_nil, or_false] at hv
  rcases hv with rfl | rfl | rfl | rfl | rfl | rfl | rfl | rfl
  · exact_mod_cast key 2 (by norm_num)
  · exact_mod_cast key 8 (by norm_num)
  · exact_mod_cast key 0 (by norm_num)
  · exact_mod_cast key 4 (by norm_num)
  · exact_mod_cast key 1 (by norm_num)
  · exact_mod_cast key 9 (by norm_num)
  · exact_mod_cast key 9 (by norm_num)
  · exact_mod_cast key 0 (by norm_num)

/-- The values of the project's own test (account_tracker/statistical_moments.rs:57-64), as the
model computes them: the same double for the excess kurtosis. -/
example : (momentsF64 id ([2, 8, 0, 4, 1, 9, 9, 0].map .finite)).excessKurtosis
    = .finite (roundF64 (-16660010752838508 / 10 ^ 16)) := by decide +kernel

/-- The same for the skew, where `pow15` gives the double nearest to the power. -/
example : (momentsF64 (fun _ => .finite (907685249632973 / 2 ^ 44))
    ([2, 8, 0, 4, 1, 9, 9, 0].map .finite)).skew
    = .finite (roundF64 (2650554122698573 / 10 ^ 16)) := by decide +kernel

/-- Non-vacuity of C104_mean_nearest and C104_constant: 7 times 0.75. -/
example : momentsF64 id (List.replicate 7 (.finite ((3 : ℤ) * 2 ^ (-2 : ℤ)))) =
    ⟨.finite ((3 : ℤ) * 2 ^ (-2 : ℤ)), .finite 0, .nan, .nan⟩ :=
  C104_constant (-2) 3 7 (by norm_num) (by norm_num) (by norm_num) (by norm_num) (by norm_num) id rfl

end Lfest
