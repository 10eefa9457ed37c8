import Verif.Lemmas.RelativeF64

/-!
# Rounding errors of the third and fourth moment
-/

namespace Lfest
open Spec

/-- A multiple of `2^e`. -/
def Mult (e : ℤ) (x : ℚ) : Prop := ∃ z : ℤ, x = z * 2 ^ e

theorem mult_weaken {e f : ℤ} {x : ℚ} (h : Mult e x) (hf : f ≤ e) : Mult f x := by
  obtain ⟨z, rfl⟩ := h
  refine ⟨z * 2 ^ (e - f).toNat, ?_⟩
  push_cast
  rw [mul_assoc, ← zpow_natCast, ← zpow_add₀ (by norm_num)]
  congr 2
  omega

theorem mult_add {e : ℤ} {x y : ℚ} (h : Mult e x) (h' : Mult e y) : Mult e (x + y) := by
  obtain ⟨z, rfl⟩ := h
  obtain ⟨z', rfl⟩ := h'
  exact ⟨z + z', by push_cast; ring⟩

theorem mult_sub {e : ℤ} {x y : ℚ} (h : Mult e x) (h' : Mult e y) : Mult e (x - y) := by
  obtain ⟨z, rfl⟩ := h
  obtain ⟨z', rfl⟩ := h'
  exact ⟨z - z', by push_cast; ring⟩

theorem mult_mul {e f : ℤ} {x y : ℚ} (h : Mult e x) (h' : Mult f y) : Mult (e + f) (x * y) := by
  obtain ⟨z, rfl⟩ := h
  obtain ⟨z', rfl⟩ := h'
  exact ⟨z * z', by rw [zpow_add₀ (by norm_num)]; push_cast; ring⟩

theorem mult_low {e : ℤ} {x : ℚ} (h : Mult e x) : Low e |x| := by
  obtain ⟨z, rfl⟩ := h
  rw [abs_mul, abs_of_pos (show (0 : ℚ) < 2 ^ e by positivity)]
  by_cases hz : z = 0
  · exact .inl (by simp [hz])
  · refine .inr ?_
    have : (1 : ℚ) ≤ |(z : ℚ)| := by exact_mod_cast Int.one_le_abs hz
    have h2 : (0 : ℚ) < 2 ^ e := by positivity
    nlinarith

theorem mult_round {e : ℤ} {x : ℚ} (h : Mult e x) : Mult e (roundF64 x) := by
  by_cases hf : max (Int.log 2 |x|) (-1022) - 52 ≤ e
  · obtain ⟨z, hz⟩ := mult_weaken h hf
    have hg := roundF64_grid x z
    have : (z : ℚ) * f64Step x - x = 0 := by
      rw [sub_eq_zero]; exact hz.symm
    rw [this, abs_zero, abs_nonpos_iff, sub_eq_zero] at hg
    rw [hg]; exact h
  · exact mult_weaken ⟨nearestEven (x / f64Step x), rfl⟩ (by omega)

theorem mult_step {e : ℤ} {x : ℚ} (h : Low e |x|) : Mult (e - 52) (roundF64 x) := by
  rcases h with h | h
  · rw [abs_eq_zero.1 h, roundF64_zero]; exact ⟨0, by simp⟩
  · have hx : 0 < |x| := lt_of_lt_of_le (by positivity) h
    have : e ≤ Int.log 2 |x| := by
      rw [← Int.zpow_le_iff_le_log (by norm_num) hx]
      simpa only [Nat.cast_ofNat] using h
    exact mult_weaken ⟨nearestEven (x / f64Step x), rfl⟩ (by omega)

theorem mult_sum {e : ℤ} (ws : List ℚ) (h : ∀ w ∈ ws, Mult e w) :
    ∀ s, F64.sum (ws.map .finite) = .finite s → Mult e s := by
  induction ws using List.reverseRecOn with
  | nil =>
    intro s hs
    simp only [F64.sum, List.map_nil, List.foldl_nil, F64.finite.injEq] at hs
    exact ⟨0, by rw [← hs]; simp⟩
  | append_singleton ws w ih =>
    intro s hs
    rw [List.map_append, List.map_cons, List.map_nil, sumF_append] at hs
    cases ht : F64.sum (ws.map .finite) with
    | finite t =>
      rw [ht] at hs
      simp only [F64.add, F64.of] at hs
      split at hs
      · simp at hs
      · simp only [F64.finite.injEq] at hs
        rw [← hs]
        exact mult_round (mult_add (ih (fun x hx => h x (by simp [hx])) t ht) (h w (by simp)))
    | inf n => rw [ht] at hs; simp [F64.add] at hs
    | nan => rw [ht] at hs; simp [F64.add] at hs

theorem round_abs (x : ℚ) : |roundF64 x| = roundF64 |x| := by
  rcases le_total 0 x with h | h
  · rw [abs_of_nonneg h, abs_of_nonneg (roundF64_nonneg h)]
  · rw [abs_of_nonpos h, roundF64_neg, abs_of_nonpos]
    have := roundF64_mono h
    rwa [roundF64_zero] at this

theorem moderate_of_fair {vals : List ℚ} (h : Fair vals) : Moderate vals :=
  ⟨h.1, h.2.1, fun v hv => ⟨(h.2.2 v hv).1,
    le_trans (h.2.2 v hv).2.2 (pow_le_pow_right₀ (by norm_num) (by norm_num))⟩⟩

/-- The mean of fair values. -/
theorem mean_fair {vals : List ℚ} (h : Fair vals) :
    ∃ m, meanF64 (vals.map .finite) = .finite m ∧ IsDouble m ∧ Mult (-202) m ∧ |m| ≤ 2 ^ 202 := by
  obtain ⟨m, h1, h2, h3, _⟩ := mean_ok (moderate_of_fair h)
  obtain ⟨hne, hn, hv⟩ := h
  have hn0 : 0 < vals.length := List.length_pos_of_ne_nil hne
  have hn0' : (0 : ℚ) < vals.length := by exact_mod_cast hn0
  refine ⟨m, h1, h2, ?_, ?_⟩
  · have h4 := h1
    unfold meanF64 at h4
    rw [List.length_map, of_count (le_trans hn.le (by norm_num))] at h4
    cases hs : F64.sum (vals.map .finite) with
    | finite s =>
      rw [hs] at h4
      simp only [F64.div] at h4
      rw [if_neg hn0'.ne'] at h4
      unfold F64.of at h4
      split at h4
      · simp at h4
      · simp only [F64.finite.injEq] at h4
        rw [← h4]
        have hm := mult_low (mult_sum vals (fun v hv' => (hv v hv').2.1) s hs)
        have := low_div hm hn0 hn
        rw [← abs_of_pos hn0', ← abs_div] at this
        exact mult_step this
    | inf n => rw [hs] at h4; simp [F64.div] at h4
    | nan => rw [hs] at h4; simp [F64.div] at h4
  · have habs : (vals.map fun v => |v|).sum / vals.length = averageAbs vals := by
      simp [averageAbs, average]
    have hA0 := sum_abs_nonneg vals
    have hA1 : (vals.map fun v => |v|).sum ≤ vals.length * 2 ^ 200 :=
      sum_le_count vals (fun w hw => (hv w hw).2.2)
    have habs0 : 0 ≤ averageAbs vals := by rw [← habs]; positivity
    have habs1 : averageAbs vals ≤ 2 ^ 200 := by
      rw [← habs, div_le_iff₀ hn0', mul_comm]; exact hA1
    have ha : |average vals| ≤ averageAbs vals := by
      rw [← habs, average, abs_div, abs_of_pos hn0']
      exact div_le_div_of_nonneg_right (abs_sum_le vals) hn0'.le
    have p2 : (1 + ulp) ^ (vals.length + 1) ≤ 2 := pow_two_le (by
      have : (2 : ℕ) ^ 50 ≤ 2 ^ 52 := by norm_num
      omega)
    have a := abs_add_le (m - average vals) (average vals)
    rw [sub_add_cancel] at a
    have b : ((1 + ulp) ^ (vals.length + 1) - 1) * averageAbs vals ≤ 1 * averageAbs vals :=
      mul_le_mul_of_nonneg_right (by linarith) habs0
    have c : eta ≤ 2 ^ 200 := le_trans eta_small (one_le_pow₀ (by norm_num))
    have d : (2 : ℚ) ^ 202 = 4 * 2 ^ 200 := by rw [show 202 = 200 + 2 by norm_num, pow_add]; ring
    rw [d]
    clear d hA1 hv
    generalize (2 : ℚ) ^ 200 = B at *
    linarith

/-- The rounded difference of a value and the mean. -/
theorem diff_fair {v m : ℚ} (hv : Mult (-100) v) (hvb : |v| ≤ 2 ^ 200) (hm : Mult (-202) m)
    (hmb : |m| ≤ 2 ^ 202) :
    (F64.finite v).sub (.finite m) = .finite (roundF64 (v - m)) ∧
      Mult (-202) (roundF64 (v - m)) ∧ Fl 1 (-202) 203 |roundF64 (v - m)| |v - m| := by
  have hx : Mult (-202) (v - m) := mult_sub (mult_weaken hv (by norm_num)) hm
  have hb : |v - m| ≤ 2 ^ 203 := by
    have d : (2 : ℚ) ^ 203 = 8 * 2 ^ 200 := by
      rw [show 203 = 200 + 3 by norm_num, pow_add]; ring
    have d2 : (2 : ℚ) ^ 202 = 4 * 2 ^ 200 := by
      rw [show 202 = 200 + 2 by norm_num, pow_add]; ring
    have e : (0 : ℚ) ≤ 2 ^ 200 := by positivity
    rw [d2] at hmb
    rw [d]
    have := abs_add_le v (-m)
    rw [abs_neg, ← sub_eq_add_neg] at this
    clear d d2
    generalize (2 : ℚ) ^ 200 = B at *
    linarith
  have hfl : Fl 0 (-202) 203 |v - m| |v - m| :=
    ⟨near_refl _, mult_low hx, hb, abs_nonneg _⟩
  obtain ⟨_, h2⟩ := fl_round hfl (by norm_num) (by norm_num)
  refine ⟨?_, mult_round hx, ?_⟩
  · simp only [F64.sub, F64.neg, F64.add]
    rw [← sub_eq_add_neg, of_finite (le_trans hb (pow_le_pow_right₀ (by norm_num) (by norm_num)))]
  · rw [round_abs]; exact h2

/-- `powi(2)` of a difference. -/
theorem square_fair {d x : ℚ} (h : Fl 1 (-202) 203 |d| |x|) :
    (F64.finite d).mul (.finite d) = .finite (roundF64 (d * d)) ∧
      Fl 3 (-404) 406 (roundF64 (d * d)) (x ^ 2) := by
  have h1 := fl_mul h h
  rw [abs_mul_abs_self, abs_mul_abs_self, ← pow_two x] at h1
  exact fl_round h1 (by norm_num) (by norm_num)

/-- `powi(4)` of a difference. -/
theorem fourth_fair {d x : ℚ} (h : Fl 1 (-202) 203 |d| |x|) :
    (F64.finite d).powi4 = .finite (roundF64 (roundF64 (d * d) * roundF64 (d * d))) ∧
      Fl 7 (-808) 812 (roundF64 (roundF64 (d * d) * roundF64 (d * d))) (x ^ 4) := by
  obtain ⟨h1, h2⟩ := square_fair h
  have h3 := fl_mul h2 h2
  rw [← pow_add] at h3
  obtain ⟨h4, h5⟩ := fl_round h3 (by norm_num) (by norm_num)
  refine ⟨?_, h5⟩
  unfold F64.powi4
  rw [h1]
  exact h4

/-- `powi(3)` of a difference. -/
theorem third_fair {d x : ℚ} (h : Fl 1 (-202) 203 |d| |x|) :
    (F64.finite d).powi3 = .finite (roundF64 (d * roundF64 (d * d))) ∧
      Fl 5 (-606) 609 |roundF64 (d * roundF64 (d * d))| (|x| ^ 3) := by
  obtain ⟨h1, h2⟩ := square_fair h
  have h3 := fl_mul h h2
  have e : |d| * roundF64 (d * d) = |d * roundF64 (d * d)| := by
    rw [abs_mul, abs_of_nonneg h2.nonneg]
  have e2 : |x| * x ^ 2 = |x| ^ 3 := by rw [pow_succ' |x|, sq_abs]
  rw [e, e2] at h3
  obtain ⟨_, h5⟩ := fl_round h3 (by norm_num) (by norm_num)
  rw [← round_abs] at h5
  refine ⟨?_, h5⟩
  unfold F64.powi3
  rw [h1]
  exact of_finite (le_trans h3.up (pow_le_pow_right₀ (by norm_num) (by norm_num)))

theorem average_map (f : ℚ → ℚ) (vals : List ℚ) :
    average (vals.map f) = (vals.map f).sum / vals.length := by simp [average]

/-- The variance of fair values. -/
theorem variance_fair {vals : List ℚ} (h : Fair vals) {m : ℚ}
    (hmean : meanF64 (vals.map .finite) = .finite m) (hm : Mult (-202) m) (hmb : |m| ≤ 2 ^ 202) :
    ∃ r, varianceF64 (vals.map .finite) = .finite r ∧
      Fl (vals.length + 4) (-454) 458 r (momentAbout 2 m vals) := by
  obtain ⟨hne, hn, hv⟩ := h
  have hn0 : 0 < vals.length := List.length_pos_of_ne_nil hne
  have hn0' : (0 : ℚ) < vals.length := by exact_mod_cast hn0
  set f : ℚ → ℚ := fun v => roundF64 (roundF64 (v - m) * roundF64 (v - m)) with hf
  have hd := fun v hv' => diff_fair (hv v hv').2.1 (hv v hv').2.2 hm hmb
  have hmap : (vals.map F64.finite).map (fun v => (v.sub (meanF64 (vals.map .finite))).powi2)
      = (vals.map f).map .finite := by
    rw [List.map_map, List.map_map, hmean]
    apply List.map_congr_left
    intro v hv'
    simp only [Function.comp, F64.powi2]
    rw [(hd v hv').1, (square_fair (hd v hv').2.2).1]
  obtain ⟨s, h1, h2⟩ := fl_sum (f := f) (g := fun v => (v - m) ^ 2) (k := 3) (lo := -404)
    (up := 406) (by norm_num) (by norm_num) vals hn
    (fun v hv' => (square_fair (hd v hv').2.2).2)
  obtain ⟨h3, h4⟩ := fl_round (fl_count h2 hn0 hn) (by norm_num) (by norm_num)
  refine ⟨roundF64 (s / vals.length), ?_, ?_⟩
  · unfold varianceF64
    rw [hmap, h1, List.length_map, of_count (le_trans hn.le (by norm_num))]
    simp only [F64.div]
    rw [if_neg hn0'.ne', h3]
  · rw [momentAbout, average_map]
    have := h4
    rwa [show 3 + vals.length + 1 = vals.length + 4 by omega] at this

/-- `1.0 / n`. -/
theorem one_over {n : ℕ} (hn0 : 0 < n) (hn : n < 2 ^ 50) :
    (F64.finite 1).div (.finite n) = .finite (roundF64 (1 / n)) ∧
      Fl 1 (-50) 0 (roundF64 (1 / n)) (1 / n) := by
  have hn0' : (0 : ℚ) < n := by exact_mod_cast hn0
  have h : Fl 0 0 0 1 1 := ⟨near_refl _, .inr (by norm_num), by norm_num, by norm_num⟩
  obtain ⟨h1, h2⟩ := fl_round (fl_count h hn0 hn) (by norm_num) (by norm_num)
  refine ⟨?_, h2⟩
  simp only [F64.div]
  rw [if_neg hn0'.ne', h1]

/-- The numerator of the kurtosis. -/
theorem fourth_moment {vals : List ℚ} (h : Fair vals) {m : ℚ}
    (hm : Mult (-202) m) (hmb : |m| ≤ 2 ^ 202) :
    ∃ r, ((F64.finite 1).div (.finite vals.length)).mul
        (F64.sum ((vals.map F64.finite).map fun v => (v.sub (.finite m)).powi4)) = .finite r ∧
      Fl (vals.length + 9) (-858) 864 r (momentAbout 4 m vals) := by
  obtain ⟨hne, hn, hv⟩ := h
  have hn0 : 0 < vals.length := List.length_pos_of_ne_nil hne
  set f : ℚ → ℚ := fun v => roundF64 (roundF64 (roundF64 (v - m) * roundF64 (v - m))
    * roundF64 (roundF64 (v - m) * roundF64 (v - m))) with hf
  have hd := fun v hv' => diff_fair (hv v hv').2.1 (hv v hv').2.2 hm hmb
  have hmap : (vals.map F64.finite).map (fun v => (v.sub (.finite m)).powi4)
      = (vals.map f).map .finite := by
    rw [List.map_map, List.map_map]
    apply List.map_congr_left
    intro v hv'
    simp only [Function.comp]
    rw [(hd v hv').1, (fourth_fair (hd v hv').2.2).1]
  obtain ⟨s, h1, h2⟩ := fl_sum (f := f) (g := fun v => (v - m) ^ 4) (k := 7) (lo := -808)
    (up := 812) (by norm_num) (by norm_num) vals hn
    (fun v hv' => (fourth_fair (hd v hv').2.2).2)
  obtain ⟨h3, h4⟩ := one_over hn0 hn
  obtain ⟨h5, h6⟩ := fl_round (fl_mul h4 h2) (by norm_num) (by norm_num)
  refine ⟨roundF64 (roundF64 (1 / vals.length) * s), ?_, ?_⟩
  · rw [hmap, h1, h3]
    exact h5
  · have e : momentAbout 4 m vals
        = 1 / vals.length * (vals.map fun v => (v - m) ^ 4).sum := by
      rw [momentAbout, average_map]; ring
    have := h6
    rw [← e, show 1 + (7 + vals.length) + 1 = vals.length + 9 by omega,
      show 0 + (812 + 52) = 864 by norm_num, show (-50 : ℤ) + -808 = -858 by norm_num] at this
    exact this

theorem moment_nonneg {k : ℕ} (hk : Even k) (m : ℚ) (vals : List ℚ) : 0 ≤ momentAbout k m vals := by
  rw [momentAbout, average_map]
  exact div_nonneg (sum_map_nonneg vals (fun v _ => hk.pow_nonneg _)) (Nat.cast_nonneg _)

/-- Kurtosis is at least one, about any centre. -/
theorem kurtosis_ge {vals : List ℚ} (h : vals ≠ []) (m : ℚ) :
    momentAbout 2 m vals ^ 2 ≤ momentAbout 4 m vals := by
  have hn : (0 : ℚ) < vals.length := by exact_mod_cast List.length_pos_of_ne_nil h
  have key : ∀ (ws : List ℚ) (a : ℚ), (ws.map fun v => ((v - m) ^ 2 - a) ^ 2).sum
      = (ws.map fun v => (v - m) ^ 4).sum - 2 * a * (ws.map fun v => (v - m) ^ 2).sum
        + ws.length * a ^ 2 := by
    intro ws a
    induction ws with
    | nil => simp
    | cons w ws ih =>
      simp only [List.map_cons, List.sum_cons, List.length_cons]
      rw [ih]; push_cast; ring
  have h0 : 0 ≤ (vals.map fun v => ((v - m) ^ 2 - momentAbout 2 m vals) ^ 2).sum :=
    sum_map_nonneg vals (fun v _ => sq_nonneg _)
  rw [key] at h0
  have e2 : (vals.map fun v => (v - m) ^ 2).sum = momentAbout 2 m vals * vals.length := by
    rw [momentAbout, average_map]; field_simp
  have e4 : (vals.map fun v => (v - m) ^ 4).sum = momentAbout 4 m vals * vals.length := by
    rw [momentAbout, average_map]; field_simp
  rw [e2, e4] at h0
  have : 0 ≤ (momentAbout 4 m vals - momentAbout 2 m vals ^ 2) * vals.length := by
    have e : (momentAbout 4 m vals - momentAbout 2 m vals ^ 2) * vals.length
      = momentAbout 4 m vals * vals.length
        - 2 * momentAbout 2 m vals * (momentAbout 2 m vals * vals.length)
        + vals.length * momentAbout 2 m vals ^ 2 := by ring
    rw [e]; exact h0
  have := nonneg_of_mul_nonneg_left this hn
  linarith

/-- Kurtosis is at most the number of values. -/
theorem kurtosis_le {vals : List ℚ} (h : vals ≠ []) (m : ℚ) :
    momentAbout 4 m vals ≤ vals.length * momentAbout 2 m vals ^ 2 := by
  have hn : (0 : ℚ) < vals.length := by exact_mod_cast List.length_pos_of_ne_nil h
  have key : ∀ ws : List ℚ, (ws.map fun v => (v - m) ^ 4).sum
      ≤ (ws.map fun v => (v - m) ^ 2).sum ^ 2 := by
    intro ws
    induction ws with
    | nil => simp
    | cons w ws ih =>
      simp only [List.map_cons, List.sum_cons]
      have h0 : 0 ≤ (ws.map fun v => (v - m) ^ 2).sum := sum_map_nonneg ws (fun v _ => sq_nonneg _)
      have h1 := mul_nonneg (sq_nonneg (w - m)) h0
      have e : ((w - m) ^ 2 + (ws.map fun v => (v - m) ^ 2).sum) ^ 2
        = (w - m) ^ 4 + 2 * ((w - m) ^ 2 * (ws.map fun v => (v - m) ^ 2).sum)
          + (ws.map fun v => (v - m) ^ 2).sum ^ 2 := by ring
      rw [e]
      linarith
  rw [momentAbout, momentAbout, average_map, average_map, div_pow, ← mul_div_assoc,
    div_le_div_iff₀ hn (by positivity)]
  have := key vals
  calc _ ≤ (vals.map fun v => (v - m) ^ 2).sum ^ 2 * (vals.length : ℚ) ^ 2 :=
        mul_le_mul_of_nonneg_right this (by positivity)
    _ = _ := by ring

/-- The kurtosis before 3 is subtracted. -/
theorem kurtosis_fair {vals : List ℚ} (h : Fair vals) {m r a : ℚ} (hr : r ≠ 0)
    (h2 : Fl (vals.length + 4) (-454) 458 r (momentAbout 2 m vals))
    (h4 : Fl (vals.length + 9) (-858) 864 a (momentAbout 4 m vals)) :
    0 < momentAbout 2 m vals ∧
    ∃ k, (F64.finite a).div (F64.finite r).powi2 = .finite k ∧ IsDouble k ∧
      Fl (3 * vals.length + 19) (-1) 51 k (momentAbout 4 m vals / momentAbout 2 m vals ^ 2) := by
  obtain ⟨hne, hn, _⟩ := h
  have hr0 : 0 < r := lt_of_le_of_ne h2.nonneg (Ne.symm hr)
  have hM2 := near_pos h2.near hr0
  obtain ⟨h5, h6⟩ := fl_round (fl_mul h2 h2) (by norm_num) (by norm_num)
  rw [← pow_two (momentAbout 2 m vals)] at h6
  set V := roundF64 (r * r) with hV
  have hV0 : 0 < V := by
    have := near_symm h6.near
    exact near_pos this (by positivity)
  set K := momentAbout 4 m vals / momentAbout 2 m vals ^ 2 with hK
  have hK1 : 1 ≤ K := by
    rw [hK, le_div_iff₀ (by positivity), one_mul]; exact kurtosis_ge hne m
  have hKn : K ≤ vals.length := by
    rw [hK, div_le_iff₀ (by positivity)]; exact kurtosis_le hne m
  have hnear := near_div h4.near h6.near h4.nonneg h4.exact hV0 (by positivity)
  rw [← hK, show vals.length + 9 + (vals.length + 4 + (vals.length + 4) + 1)
    = 3 * vals.length + 18 by ring] at hnear
  have hk : 3 * vals.length + 18 ≤ 2 ^ 52 := by
    have : 3 * (2 : ℕ) ^ 50 + 18 ≤ 2 ^ 52 := by norm_num
    omega
  have hq0 : 0 ≤ a / V := div_nonneg h4.nonneg hV0.le
  have hfl : Fl (3 * vals.length + 18) (-1) 51 (a / V) K := by
    refine ⟨hnear, .inr ?_, ?_, by linarith⟩
    · have := near_two (near_symm hnear) hk (by linarith)
      norm_num
      linarith
    · have a1 := near_two hnear hk hq0
      have a2 := count_cast hn
      have a3 : (2 : ℚ) ^ 51 = 2 * 2 ^ 50 := by norm_num
      rw [a3]
      linarith
  obtain ⟨h7, h8⟩ := fl_round hfl (by norm_num) (by norm_num)
  refine ⟨hM2, roundF64 (a / V), ?_, roundF64_isDouble _, h8⟩
  have e : (F64.finite r).powi2 = .finite V := h5
  rw [e]
  simp only [F64.div]
  rw [if_neg hV0.ne', h7]

/-! ## The third moment -/

theorem sum_terms_abs {α : Type} {f g h : α → ℚ} {a : ℚ} : ∀ (ws : List α),
    (∀ w ∈ ws, |f w - g w| ≤ a * h w) →
    |(ws.map f).sum - (ws.map g).sum| ≤ a * (ws.map h).sum
  | [], _ => by simp
  | w :: ws, hw => by
    have h1 := sum_terms_abs ws (fun x hx => hw x (by simp [hx]))
    have h2 := hw w (by simp)
    simp only [List.map_cons, List.sum_cons]
    have e : f w + (ws.map f).sum - (g w + (ws.map g).sum)
        = (f w - g w) + ((ws.map f).sum - (ws.map g).sum) := by ring
    rw [e]
    refine le_trans (abs_add_le _ _) ?_
    linarith

theorem sum_le_sum {α : Type} {f g : α → ℚ} : ∀ (ws : List α), (∀ w ∈ ws, f w ≤ g w) →
    (ws.map f).sum ≤ (ws.map g).sum
  | [], _ => by simp
  | w :: ws, h => by
    have h1 := sum_le_sum ws (fun x hx => h x (by simp [hx]))
    have h2 := h w (by simp)
    simp only [List.map_cons, List.sum_cons]
    linarith

theorem sum_scale {α : Type} {f : α → ℚ} {a : ℚ} : ∀ (ws : List α),
    (ws.map fun w => a * f w).sum = a * (ws.map f).sum
  | [] => by simp
  | w :: ws => by
    simp only [List.map_cons, List.sum_cons, sum_scale ws]
    ring

/-- One more rounding. -/
theorem one_more {y s S A P : ℚ} (hy : |y - s| ≤ ulp * |s|) (h : |s - S| ≤ (P - 1) * A)
    (hS : |S| ≤ A) : |y - S| ≤ (P * (1 + ulp) - 1) * A := by
  have hs : |s| ≤ P * A := by
    have a := abs_add_le (s - S) S
    rw [sub_add_cancel] at a
    linarith
  have e : y - S = (y - s) + (s - S) := by ring
  rw [e]
  refine le_trans (abs_add_le _ _) ?_
  have b := mul_le_mul_of_nonneg_left hs ulp_pos.le
  have : (P * (1 + ulp) - 1) * A = ulp * (P * A) + (P - 1) * A := by ring
  linarith

theorem round_low {x : ℚ} (h : Low (-1022) |x|) : |roundF64 x - x| ≤ ulp * |x| := by
  rcases h with h | h
  · rw [abs_eq_zero.1 h, roundF64_zero]; simp
  · have := roundF64_rel h
    unfold ulp
    linarith [show |x| / 2 ^ 53 = 1 / 2 ^ 53 * |x| by ring]

/-- A cube and its sign. -/
theorem third_error {x d : ℚ} (hd : d = roundF64 x) (h : Fl 1 (-202) 203 |d| |x|) :
    |roundF64 (d * roundF64 (d * d))| ≤ (1 + ulp) ^ 6 * |x| ^ 3 ∧
    |roundF64 (d * roundF64 (d * d)) - x ^ 3| ≤ ((1 + ulp) ^ 6 - 1) * |x| ^ 3 := by
  obtain ⟨_, h1⟩ := third_fair h
  set t := roundF64 (d * roundF64 (d * d)) with ht
  have hq : 1 ≤ (1 + ulp) ^ 6 * (1 - ulp) ^ 5 := by unfold ulp; norm_num
  have hq2 : 1 ≤ (1 + ulp) ^ 6 := one_le_pow_ulp 6
  have hx0 : 0 ≤ |x| ^ 3 := by positivity
  have hup : |t| ≤ (1 + ulp) ^ 6 * |x| ^ 3 := by
    have a := h1.near.2
    have b := mul_le_mul_of_nonneg_left a (show (0 : ℚ) ≤ (1 + ulp) ^ 6 by linarith)
    have c := mul_le_mul_of_nonneg_left hq (abs_nonneg t)
    have e : (1 + ulp) ^ 6 * (|t| * (1 - ulp) ^ 5) = |t| * ((1 + ulp) ^ 6 * (1 - ulp) ^ 5) := by
      ring
    linarith
  have hlo : |x| ^ 3 - |t| ≤ ((1 + ulp) ^ 6 - 1) * |x| ^ 3 := by
    have a := h1.near.1
    have b : 1 - (1 - ulp) ^ 5 ≤ (1 + ulp) ^ 6 - 1 := by unfold ulp; norm_num
    have c := mul_le_mul_of_nonneg_right b hx0
    linarith
  refine ⟨hup, ?_⟩
  have hsign : |t - x ^ 3| = |(|t| - |x| ^ 3)| := by
    have hs : 0 ≤ roundF64 (d * d) := roundF64_nonneg (mul_self_nonneg d)
    rcases le_total 0 x with hx | hx
    · have hd0 : 0 ≤ d := by rw [hd]; exact roundF64_nonneg hx
      have ht0 : 0 ≤ t := roundF64_nonneg (mul_nonneg hd0 hs)
      rw [abs_of_nonneg ht0, abs_of_nonneg hx]
    · have hd0 : d ≤ 0 := by
        rw [hd]
        have := roundF64_mono hx
        rwa [roundF64_zero] at this
      have ht0 : t ≤ 0 := by
        have := roundF64_mono (mul_nonpos_of_nonpos_of_nonneg hd0 hs)
        rwa [roundF64_zero] at this
      rw [abs_of_nonpos ht0, abs_of_nonpos hx, ← abs_neg]
      congr 1
      ring
  rw [hsign, abs_le]
  constructor <;> linarith

/-- The numerator of the skew. -/
theorem third_moment {vals : List ℚ} (h : Fair vals) {m : ℚ}
    (hm : Mult (-202) m) (hmb : |m| ≤ 2 ^ 202) :
    ∃ r, ((F64.finite 1).div (.finite vals.length)).mul
        (F64.sum ((vals.map F64.finite).map fun v => (v.sub (.finite m)).powi3)) = .finite r ∧
      Low (-656) |r| ∧ |r| ≤ 2 ^ 661 ∧
      |momentAbout 3 m vals| ≤ absMomentAbout 3 m vals ∧
      |r - momentAbout 3 m vals| ≤ ((1 + ulp) ^ (vals.length + 8) - 1) * absMomentAbout 3 m vals := by
  obtain ⟨hne, hn, hv⟩ := h
  have hn0 : 0 < vals.length := List.length_pos_of_ne_nil hne
  have hn0' : (0 : ℚ) < vals.length := by exact_mod_cast hn0
  have hn1 : (1 : ℚ) ≤ vals.length := by exact_mod_cast hn0
  set f : ℚ → ℚ := fun v => roundF64 (roundF64 (v - m) * roundF64 (roundF64 (v - m)
    * roundF64 (v - m))) with hf
  have hd := fun v hv' => diff_fair (hv v hv').2.1 (hv v hv').2.2 hm hmb
  have hmap : (vals.map F64.finite).map (fun v => (v.sub (.finite m)).powi3)
      = (vals.map f).map .finite := by
    rw [List.map_map, List.map_map]
    apply List.map_congr_left
    intro v hv'
    simp only [Function.comp]
    rw [(hd v hv').1, (third_fair (hd v hv').2.2).1]
  have hmult : ∀ w ∈ vals.map f, Mult (-606) w := fun w hw => by
    obtain ⟨v, hv', rfl⟩ := List.mem_map.1 hw
    have a := (hd v hv').2.1
    have b := mult_round (mult_mul a (mult_round (mult_mul a a)))
    exact b
  have hbound : ∀ v ∈ vals, |f v| ≤ 2 ^ 609 := fun v hv' => (third_fair (hd v hv').2.2).2.up
  have habs : ((vals.map f).map fun v => |v|).sum = (vals.map fun v => |f v|).sum := by
    rw [List.map_map]; rfl
  have hsumb : (vals.map fun v => |f v|).sum ≤ 2 ^ 659 :=
    le_trans (sum_le_count vals hbound)
      (pow_mul_le (count_cast hn) le_rfl (by positivity) (by norm_num))
  have hlen : (vals.map f).length = vals.length := List.length_map ..
  obtain ⟨s, h1, h2, h3⟩ := sum_error (vals.map f) (fun w hw => by
      obtain ⟨v, _, rfl⟩ := List.mem_map.1 hw
      exact roundF64_isDouble _) (by rw [hlen]; exact le_trans hn.le (by norm_num))
    (by rw [habs]; exact le_trans hsumb (pow_le_pow_right₀ (by norm_num) (by norm_num)))
  rw [habs, hlen] at h3
  have hsm := mult_low (mult_sum _ hmult s h1)
  set X := (vals.map fun v => (v - m) ^ 3).sum with hX
  set A := (vals.map fun v => |v - m| ^ 3).sum with hA
  have hA0 : 0 ≤ A := sum_map_nonneg vals (fun v _ => by positivity)
  have hXA : |X| ≤ A := by
    refine le_trans (abs_sum_le _) (le_of_eq ?_)
    rw [List.map_map, hA]
    have : vals.map ((fun v => |v|) ∘ fun v => (v - m) ^ 3) = vals.map fun v => |v - m| ^ 3 :=
      List.map_congr_left fun v _ => abs_pow _ _
    rw [this]
  have hF : (vals.map fun v => |f v|).sum ≤ (1 + ulp) ^ 6 * A := by
    rw [hA, ← sum_scale]
    exact sum_le_sum vals (fun v hv' => (third_error rfl (hd v hv').2.2).1)
  have hT : |(vals.map f).sum - X| ≤ ((1 + ulp) ^ 6 - 1) * A :=
    sum_terms_abs vals (fun v hv' => (third_error rfl (hd v hv').2.2).2)
  have p1 : 1 ≤ (1 + ulp) ^ vals.length := one_le_pow_ulp _
  have p2 : (1 + ulp) ^ vals.length ≤ 2 := pow_two_le (le_trans hn.le (by norm_num))
  have hs : |s - X| ≤ ((1 + ulp) ^ (vals.length + 6) - 1) * A := by
    have e : s - X = (s - (vals.map f).sum) + ((vals.map f).sum - X) := by ring
    rw [e]
    refine le_trans (abs_add_le _ _) ?_
    have b := mul_le_mul_of_nonneg_left hF (show 0 ≤ (1 + ulp) ^ vals.length - 1 by linarith)
    have : ((1 + ulp) ^ (vals.length + 6) - 1) * A
        = ((1 + ulp) ^ vals.length - 1) * ((1 + ulp) ^ 6 * A) + ((1 + ulp) ^ 6 - 1) * A := by
      rw [pow_add]; ring
    linarith
  have hsb : |s| ≤ 2 ^ 661 := by
    have a := abs_add_le (s - (vals.map f).sum) (vals.map f).sum
    rw [sub_add_cancel] at a
    have b := abs_sum_le (vals.map f)
    rw [habs] at b
    have c0 : 0 ≤ (vals.map fun v => |f v|).sum := sum_map_nonneg vals (fun v _ => abs_nonneg _)
    have c := mul_le_mul_of_nonneg_right (show (1 + ulp) ^ vals.length - 1 ≤ 1 by linarith) c0
    have d : (2 : ℚ) ^ 661 = 4 * 2 ^ 659 := by
      rw [show 661 = 659 + 2 by norm_num, pow_add]; ring
    rw [d]
    have e : (0 : ℚ) ≤ 2 ^ 659 := by positivity
    clear d
    generalize (2 : ℚ) ^ 659 = B at *
    linarith
  obtain ⟨h4, h5⟩ := one_over hn0 hn
  set c := roundF64 (1 / (vals.length : ℚ)) with hc
  have hc0 := h5.nonneg
  have hlow : Low (-656) |c * s| := by
    rw [abs_mul, abs_of_nonneg hc0]
    exact low_mul h5.low hsm
  have hcs : |c * s| ≤ 2 ^ 661 := by
    rw [abs_mul, abs_of_nonneg hc0]
    have := h5.up
    rw [pow_zero] at this
    exact le_trans (mul_le_of_le_one_left (abs_nonneg s) this) hsb
  have hq : |s / vals.length - X / vals.length|
      ≤ ((1 + ulp) ^ (vals.length + 6) - 1) * (A / vals.length) := by
    rw [← sub_div, abs_div, abs_of_pos hn0', ← mul_div_assoc]
    exact div_le_div_of_nonneg_right hs hn0'.le
  have hXA' : |X / vals.length| ≤ A / vals.length := by
    rw [abs_div, abs_of_pos hn0']
    exact div_le_div_of_nonneg_right hXA hn0'.le
  have hone : |c * s - s / vals.length| ≤ ulp * |s / vals.length| := by
    have hl : Low (-1022) |1 / (vals.length : ℚ)| := by
      rw [abs_of_nonneg (by positivity)]
      refine low_weaken (e := 0 - 50) ?_ (by norm_num)
      exact low_div (.inr (by norm_num)) hn0 hn
    have a := round_low hl
    rw [← hc] at a
    have e : c * s - s / vals.length = (c - 1 / vals.length) * s := by ring
    have e2 : ulp * |s / vals.length| = ulp * |1 / (vals.length : ℚ)| * |s| := by
      rw [mul_assoc, ← abs_mul, one_div_mul_eq_div]
    rw [e, e2, abs_mul]
    exact mul_le_mul_of_nonneg_right a (abs_nonneg s)
  have b1 := one_more hone hq hXA'
  have b2 := one_more (round_low (low_weaken hlow (by norm_num))) b1 hXA'
  refine ⟨roundF64 (c * s), ?_, ?_, ?_, ?_, ?_⟩
  · rw [hmap, h1, h4]
    exact of_finite (le_trans hcs (pow_le_pow_right₀ (by norm_num) (by norm_num)))
  · rw [round_abs]; exact low_round hlow (by norm_num)
  · exact round_abs_le hcs
  · rw [momentAbout, absMomentAbout, average_map, average_map]; exact hXA'
  · rw [momentAbout, absMomentAbout, average_map, average_map]
    have e : (1 + ulp) ^ (vals.length + 8)
        = (1 + ulp) ^ (vals.length + 6) * (1 + ulp) * (1 + ulp) := by ring
    rw [e]
    exact b2

end Lfest
