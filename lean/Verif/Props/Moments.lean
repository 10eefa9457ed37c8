import Verif.Lemmas.Moments

/-!
# Statistical moments: C73
-/

namespace Lfest

/-- C73: the mean lies between any bounds of the values, and the standard deviation is at most
half of their distance. -/
theorem C73_range (vals : List ℝ) (lo hi : ℝ) (h : vals ≠ [])
    (hb : ∀ v ∈ vals, lo ≤ v ∧ v ≤ hi) :
    lo ≤ (statisticalMoments vals).mean ∧ (statisticalMoments vals).mean ≤ hi ∧
      (statisticalMoments vals).stdDev ≤ (hi - lo) / 2 := by
  have hn := length_pos h
  obtain ⟨h1, h2⟩ := sum_between vals hb
  rw [moments_eq]
  have hlo : lo ≤ vals.sum / vals.length := by rw [le_div_iff₀ hn]; linarith
  have hhi : vals.sum / vals.length ≤ hi := by rw [div_le_iff₀ hn]; linarith
  refine ⟨hlo, hhi, ?_⟩
  apply Real.sqrt_le_iff.mpr
  refine ⟨by linarith, ?_⟩
  have h3 := sum_sq_le (m := vals.sum / vals.length) vals hb
  unfold centralMoment
  rw [div_le_iff₀ hn]
  have e : vals.sum = vals.sum / vals.length * vals.length := by field_simp
  generalize vals.sum / vals.length = m at *
  rw [e] at h3
  have : (hi + lo - 2 * m) * (m * vals.length) + vals.length * (m ^ 2 - hi * lo)
    = ((hi - m) * (m - lo)) * vals.length := by ring
  rw [this] at h3
  have h4 : (hi - m) * (m - lo) ≤ ((hi - lo) / 2) ^ 2 := by nlinarith [sq_nonneg (hi + lo - 2 * m)]
  have := mul_le_mul_of_nonneg_right h4 hn.le
  linarith

/-- C73: the standard deviation is not negative, and zero only if all values are equal. -/
theorem C73_deviation (vals : List ℝ) (h : vals ≠ []) :
    0 ≤ (statisticalMoments vals).stdDev ∧
    ((statisticalMoments vals).stdDev = 0 ↔ ∀ v ∈ vals, ∀ w ∈ vals, v = w) := by
  have hn := length_pos h
  rw [moments_eq]
  refine ⟨Real.sqrt_nonneg _, ?_⟩
  simp only [Real.sqrt_eq_zero (variance_nonneg _ _)]
  unfold centralMoment
  rw [div_eq_zero_iff, or_iff_left hn.ne']
  constructor
  · intro hs v hv w hw
    have := sum_zero_of (f := fun v => (v - vals.sum / vals.length) ^ 2) (fun _ => sq_nonneg _) vals hs
    have h1 := this v hv
    have h2 := this w hw
    simp only [pow_eq_zero_iff (two_ne_zero)] at h1 h2
    linarith
  · intro he
    obtain ⟨a, ha⟩ := List.exists_mem_of_ne_nil vals h
    obtain ⟨h1, h2⟩ := sum_between (lo := a) (hi := a) vals
      (fun v hv => ⟨(he a ha v hv).le, (he v hv a ha).le⟩)
    have hm : vals.sum / vals.length = a := by
      rw [div_eq_iff hn.ne']; linarith
    rw [hm]
    have : ∀ x ∈ vals.map fun v => (v - a) ^ 2, x = 0 := by
      intro x hx
      obtain ⟨v, hv, rfl⟩ := List.mem_map.mp hx
      rw [he v hv a ha]; simp
    exact List.sum_eq_zero this

/-- C73: adding a constant to all values moves the mean and nothing else. -/
theorem C73_shift (vals : List ℝ) (a : ℝ) (h : vals ≠ []) :
    statisticalMoments (vals.map (· + a)) =
      { statisticalMoments vals with mean := (statisticalMoments vals).mean + a } := by
  have hn := length_pos h
  rw [moments_eq, moments_eq]
  have hm : (vals.map (· + a)).sum / (vals.map (· + a)).length = vals.sum / vals.length + a := by
    rw [sum_map_add_const, List.length_map]; field_simp
  simp only [hm, central_shift]

/-- C73: multiplying all values by a positive factor multiplies mean and standard deviation. -/
theorem C73_scale (vals : List ℝ) (a : ℝ) (ha : 0 < a) :
    statisticalMoments (vals.map (a * ·)) =
      { statisticalMoments vals with
        mean := a * (statisticalMoments vals).mean
        stdDev := a * (statisticalMoments vals).stdDev } := by
  rw [moments_eq, moments_eq]
  have hm : (vals.map (a * ·)).sum / (vals.map (a * ·)).length = a * (vals.sum / vals.length) := by
    rw [sum_map_mul_const, List.length_map, mul_div_assoc]
  simp only [hm, central_scale]
  have v0 := variance_nonneg (vals.sum / vals.length) vals
  have e3 : (a ^ 2) ^ (1.5 : ℝ) = a ^ 3 := by
    rw [← Real.rpow_natCast a 2, ← Real.rpow_mul ha.le]
    norm_num
  congr 1
  · rw [Real.sqrt_mul (by positivity), Real.sqrt_sq ha.le]
  · rw [Real.mul_rpow (by positivity) v0, e3, mul_div_mul_left _ _ (by positivity)]
  · rw [mul_pow, ← pow_mul, mul_div_mul_left _ _ (by positivity)]

/-- C73: changing the sign of all values changes the sign of mean and skew. -/
theorem C73_mirror (vals : List ℝ) :
    statisticalMoments (vals.map (-1 * ·)) =
      { statisticalMoments vals with
        mean := -(statisticalMoments vals).mean
        skew := -(statisticalMoments vals).skew } := by
  rw [moments_eq, moments_eq]
  have hm : (vals.map (-1 * ·)).sum / (vals.map (-1 * ·)).length
      = -1 * (vals.sum / vals.length) := by
    rw [sum_map_mul_const, List.length_map, mul_div_assoc]
  simp only [hm, central_scale]
  norm_num
  ring

/-- C73: the order of the values does not matter. -/
theorem C73_order (vals vals' : List ℝ) (h : vals.Perm vals') :
    statisticalMoments vals = statisticalMoments vals' := by
  rw [moments_eq, moments_eq]
  have hm : vals.sum / vals.length = vals'.sum / vals'.length := by rw [h.sum_eq, h.length_eq]
  have hc : ∀ m k, centralMoment m k vals = centralMoment m k vals' := by
    intro m k
    unfold centralMoment
    rw [(h.map _).sum_eq, h.length_eq]
  simp only [hm, hc]

/-- C73: excess kurtosis is at least the square of the skew less two, for values that are not all
equal. -/
theorem C73_kurtosis (vals : List ℝ) (hd : ∃ v ∈ vals, ∃ w ∈ vals, v ≠ w) :
    (statisticalMoments vals).skew ^ 2 - 2 ≤ (statisticalMoments vals).excessKurtosis := by
  have h : vals ≠ [] := by
    obtain ⟨v, hv, _⟩ := hd
    exact List.ne_nil_of_mem hv
  have hs : (statisticalMoments vals).stdDev ≠ 0 := by
    rw [Ne, (C73_deviation vals h).2]
    push Not
    exact hd
  have hp := pearson h
  rw [moments_eq] at hs ⊢
  simp only at hs hp ⊢
  have hv : 0 < centralMoment (vals.sum / vals.length) 2 vals := by
    have := Real.sqrt_ne_zero'.mp hs
    exact this
  generalize centralMoment (vals.sum / vals.length) 2 vals = v at *
  generalize centralMoment (vals.sum / vals.length) 3 vals = s at *
  generalize centralMoment (vals.sum / vals.length) 4 vals = k at *
  have e : (v ^ (1.5 : ℝ)) ^ 2 = v ^ 3 := by
    rw [← Real.rpow_natCast, ← Real.rpow_mul hv.le]
    norm_num
  rw [div_pow, e]
  have : s ^ 2 / v ^ 3 + 1 ≤ k / v ^ 2 := by
    rw [div_add_one (by positivity), div_le_div_iff₀ (by positivity) (by positivity)]
    nlinarith [mul_le_mul_of_nonneg_right hp (sq_nonneg v)]
  linarith

/-- C73: two different values, any number of times each: the lower bound is attained. -/
theorem C73_two_values (a b : ℝ) (n : ℕ) (hn : 0 < n) (h : a < b) :
    statisticalMoments (List.replicate n a ++ List.replicate n b) =
      ⟨(a + b) / 2, (b - a) / 2, 0, -2⟩ := by
  have hp : (0 : ℝ) < n := by exact_mod_cast hn
  rw [moments_eq]
  have hm : (List.replicate n a ++ List.replicate n b).sum
      / (List.replicate n a ++ List.replicate n b).length = (a + b) / 2 := by
    simp only [List.sum_append, List.sum_replicate, List.length_append, List.length_replicate,
      nsmul_eq_mul]
    push_cast; field_simp
    ring
  have hc : ∀ k, centralMoment ((a + b) / 2) k (List.replicate n a ++ List.replicate n b)
      = ((-((b - a) / 2)) ^ k + ((b - a) / 2) ^ k) / 2 := by
    intro k
    have e1 : a - (a + b) / 2 = -((b - a) / 2) := by ring
    have e2 : b - (a + b) / 2 = (b - a) / 2 := by ring
    simp only [centralMoment, List.map_append, List.map_replicate, List.sum_append,
      List.sum_replicate, List.length_append, List.length_replicate, nsmul_eq_mul, e1, e2]
    push_cast
    rw [← mul_add, ← two_mul, mul_comm 2 (n : ℝ), mul_div_mul_left _ _ hp.ne']
  have hd : 0 < (b - a) / 2 := by linarith
  simp only [hm, hc]
  generalize (b - a) / 2 = d at *
  congr 1
  · rw [show ((-d) ^ 2 + d ^ 2) / 2 = d ^ 2 by ring, Real.sqrt_sq hd.le]
  · rw [show ((-d) ^ 3 + d ^ 3) / 2 = 0 by ring, zero_div]
  · field_simp; ring

/-- The values 1 and 3: mean 2, standard deviation 1, skew 0, excess kurtosis -2. So the bounds of
`C73_range` and `C73_kurtosis` are attained. -/
example : statisticalMoments [1, 3] = ⟨2, 1, 0, -2⟩ := by
  simp only [statisticalMoments]
  norm_num

/-- A skewed sample: 0, 0, 3. -/
example : (statisticalMoments [0, 0, 3]).mean = 1 ∧ 0 < (statisticalMoments [0, 0, 3]).skew := by
  simp only [statisticalMoments]
  norm_num
  positivity

example : ∃ v ∈ ([0, 0, 3] : List ℝ), ∃ w ∈ ([0, 0, 3] : List ℝ), v ≠ w :=
  ⟨0, by simp, 3, by simp, by norm_num⟩

end Lfest
