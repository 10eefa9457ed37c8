import Verif.Lemmas.MomentsF64

/-!
# Rounding errors of means and variances
-/

namespace Lfest
open Spec

theorem sum_le_count {α : Type} {f : α → ℚ} {b : ℚ} : ∀ (ws : List α), (∀ w ∈ ws, f w ≤ b) →
    (ws.map f).sum ≤ ws.length * b
  | [], _ => by simp
  | w :: ws, h => by
    have h1 := sum_le_count ws (fun x hx => h x (by simp [hx]))
    have h2 := h w (by simp)
    simp only [List.map_cons, List.sum_cons, List.length_cons]
    push_cast
    linarith

theorem sum_map_nonneg {α : Type} {f : α → ℚ} : ∀ (ws : List α), (∀ w ∈ ws, 0 ≤ f w) →
    0 ≤ (ws.map f).sum
  | [], _ => by simp
  | w :: ws, h => by
    have h1 := sum_map_nonneg ws (fun x hx => h x (by simp [hx]))
    have h2 := h w (by simp)
    simp only [List.map_cons, List.sum_cons]
    linarith

theorem sum_abs_of_nonneg : ∀ (ws : List ℚ), (∀ w ∈ ws, 0 ≤ w) →
    (ws.map fun v => |v|).sum = ws.sum
  | [], _ => by simp
  | w :: ws, h => by
    simp only [List.map_cons, List.sum_cons]
    rw [sum_abs_of_nonneg ws (fun x hx => h x (by simp [hx])), abs_of_nonneg (h w (by simp))]

/-- Terms that are each off by a relative and an absolute amount. -/
theorem sum_terms {α : Type} {f g : α → ℚ} {a b : ℚ} : ∀ (ws : List α),
    (∀ w ∈ ws, |f w - g w| ≤ a * g w + b) →
    |(ws.map f).sum - (ws.map g).sum| ≤ a * (ws.map g).sum + ws.length * b
  | [], _ => by simp
  | w :: ws, h => by
    have h1 := sum_terms ws (fun x hx => h x (by simp [hx]))
    have h2 := h w (by simp)
    simp only [List.map_cons, List.sum_cons, List.length_cons]
    push_cast
    have e : f w + (ws.map f).sum - (g w + (ws.map g).sum)
        = (f w - g w) + ((ws.map f).sum - (ws.map g).sum) := by ring
    rw [e]
    refine le_trans (abs_add_le _ _) ?_
    linarith

theorem count_cast {n : ℕ} (h : n < 2 ^ 50) : (n : ℚ) ≤ 2 ^ 50 := by exact_mod_cast h.le

theorem pow_mul_le {a b c : ℕ} {x y : ℚ} (hx : x ≤ 2 ^ a) (hy : y ≤ 2 ^ b) (h0 : 0 ≤ y)
    (h : a + b ≤ c) : x * y ≤ 2 ^ c := by
  have h1 : x * y ≤ 2 ^ a * 2 ^ b := mul_le_mul hx hy h0 (by positivity)
  rw [← pow_add] at h1
  exact le_trans h1 (pow_le_pow_right₀ (by norm_num) h)

theorem eta_small : eta ≤ 1 := by
  unfold eta
  exact zpow_le_one_of_nonpos₀ (by norm_num) (by norm_num)

/-- The mean of moderate values. -/
theorem mean_ok {vals : List ℚ} (hm : Moderate vals) :
    ∃ m, meanF64 (vals.map .finite) = .finite m ∧ IsDouble m ∧
      |m - average vals| ≤ ((1 + ulp) ^ (vals.length + 1) - 1) * averageAbs vals + eta ∧
      |m| ≤ 2 ^ 402 := by
  obtain ⟨hne, hn, hv⟩ := hm
  have hn0 : 0 < vals.length := List.length_pos_of_ne_nil hne
  have hn0' : (0 : ℚ) < vals.length := by exact_mod_cast hn0
  have hA0 := sum_abs_nonneg vals
  have hA1 : (vals.map fun v => |v|).sum ≤ vals.length * 2 ^ 400 :=
    sum_le_count vals (fun w hw => (hv w hw).2)
  have hA2 : (vals.map fun v => |v|).sum ≤ 2 ^ 450 :=
    le_trans hA1 (pow_mul_le (count_cast hn) le_rfl (by positivity) (by norm_num))
  obtain ⟨s, h1, h2, h3⟩ := sum_error vals (fun w hw => (hv w hw).1)
    (le_trans hn.le (by norm_num))
    (le_trans hA2 (pow_le_pow_right₀ (by norm_num) (by norm_num)))
  have hS := abs_sum_le vals
  have p2 : (1 + ulp) ^ vals.length ≤ 2 := pow_two_le (le_trans hn.le (by norm_num))
  have p2' : (1 + ulp) ^ (vals.length + 1) ≤ 2 := pow_two_le (by
    have : (2 : ℕ) ^ 50 ≤ 2 ^ 52 := by norm_num
    omega)
  have hq := quotient_error (c := 0) hn0 (by rw [add_zero]; exact h3) hS
  have havg : vals.sum / vals.length = average vals := rfl
  have habs : (vals.map fun v => |v|).sum / vals.length = averageAbs vals := by
    simp [averageAbs, average]
  have habs0 : 0 ≤ averageAbs vals := by rw [← habs]; positivity
  have habs1 : averageAbs vals ≤ 2 ^ 400 := by
    rw [← habs, div_le_iff₀ hn0', mul_comm]; exact hA1
  have ha : |average vals| ≤ averageAbs vals := by
    rw [← havg, ← habs, abs_div, abs_of_pos hn0']
    exact div_le_div_of_nonneg_right hS hn0'.le
  rw [havg, habs, zero_div, mul_zero, add_zero] at hq
  have hfin : |s / vals.length| ≤ 2 ^ 1000 := by
    have e : s = (s - vals.sum) + vals.sum := by ring
    have a := abs_add_le (s - vals.sum) vals.sum
    rw [← e] at a
    have : |s| ≤ 2 * (vals.map fun v => |v|).sum := by nlinarith
    have h5 : |s| ≤ 2 ^ 451 := by
      rw [pow_succ']
      exact le_trans this (mul_le_mul_of_nonneg_left hA2 (by norm_num))
    rw [abs_div, abs_of_pos hn0']
    have h6 : |s| / vals.length ≤ |s| := div_le_self (abs_nonneg s) (by exact_mod_cast hn0)
    exact le_trans h6 (le_trans h5 (pow_le_pow_right₀ (by norm_num) (by norm_num)))
  refine ⟨roundF64 (s / vals.length), ?_, roundF64_isDouble _, hq, ?_⟩
  · unfold meanF64
    rw [h1, List.length_map, of_count (le_trans hn.le (by norm_num))]
    simp only [F64.div]
    rw [if_neg hn0'.ne', of_finite hfin]
  · have a := abs_add_le (roundF64 (s / vals.length) - average vals) (average vals)
    rw [sub_add_cancel] at a
    have b : ((1 + ulp) ^ (vals.length + 1) - 1) * averageAbs vals ≤ 1 * averageAbs vals :=
      mul_le_mul_of_nonneg_right (by linarith) habs0
    have c : eta ≤ 2 ^ 400 := le_trans eta_small (one_le_pow₀ (by norm_num))
    have d : (2 : ℚ) ^ 402 = 4 * 2 ^ 400 := by rw [show 402 = 400 + 2 by norm_num, pow_add]; ring
    rw [d]
    clear d hfin hA1 hv
    generalize (2 : ℚ) ^ 400 = B at *
    linarith

/-- The square of a rounded difference. -/
theorem square_error {v m : ℚ} (hv : IsDouble v) (hm : IsDouble m) :
    |roundF64 (roundF64 (v - m) * roundF64 (v - m)) - (v - m) ^ 2|
      ≤ ((1 + ulp) ^ 3 - 1) * (v - m) ^ 2 + eta := by
  have h1 := round_add hv (isDouble_neg hm)
  rw [← sub_eq_add_neg] at h1
  set x := v - m
  set d := roundF64 x
  have h2 := round_err (d * d)
  have hu := ulp_pos
  have hu1 : ulp ≤ 1 := by unfold ulp; norm_num
  have hx := abs_nonneg x
  have hxx : |x| * |x| = x ^ 2 := by rw [abs_mul_abs_self]; ring
  have hd : |d| ≤ (1 + ulp) * |x| := by
    have a := abs_add_le (d - x) x
    rw [sub_add_cancel] at a
    linarith
  have hdd : |d * d - x ^ 2| ≤ ((1 + ulp) ^ 2 - 1) * x ^ 2 := by
    have e : d * d - x ^ 2 = (d - x) * (d + x) := by ring
    rw [e, abs_mul]
    have a : |d + x| ≤ (2 + ulp) * |x| := by
      have := abs_add_le d x
      linarith
    calc |d - x| * |d + x| ≤ (ulp * |x|) * ((2 + ulp) * |x|) :=
          mul_le_mul h1 a (abs_nonneg _) (by positivity)
      _ = ulp * (2 + ulp) * (|x| * |x|) := by ring
      _ = ((1 + ulp) ^ 2 - 1) * x ^ 2 := by rw [hxx]; ring
  have hda : |d * d| ≤ (1 + ulp) ^ 2 * x ^ 2 := by
    have a := abs_add_le (d * d - x ^ 2) (x ^ 2)
    rw [sub_add_cancel, abs_of_nonneg (sq_nonneg x)] at a
    linarith
  have e : roundF64 (d * d) - x ^ 2 = (roundF64 (d * d) - d * d) + (d * d - x ^ 2) := by ring
  rw [e]
  refine le_trans (abs_add_le _ _) ?_
  have b : ulp * |d * d| ≤ ulp * ((1 + ulp) ^ 2 * x ^ 2) := mul_le_mul_of_nonneg_left hda hu.le
  have : ((1 + ulp) ^ 3 - 1) * x ^ 2 + eta
      = ulp * ((1 + ulp) ^ 2 * x ^ 2) + eta + ((1 + ulp) ^ 2 - 1) * x ^ 2 := by ring
  linarith

theorem roundF64_nonneg {x : ℚ} (h : 0 ≤ x) : 0 ≤ roundF64 x := by
  have := roundF64_mono h
  rwa [roundF64_zero] at this

/-- The mean squared distance from `m`. -/
def spread (m : ℚ) (vals : List ℚ) : ℚ := (vals.map fun v => (v - m) ^ 2).sum / vals.length

/-- Steiner's theorem. -/
theorem spread_eq {vals : List ℚ} (h : vals ≠ []) (m : ℚ) :
    spread m vals = variance vals + (m - average vals) ^ 2 := by
  have hn : (0 : ℚ) < vals.length := by exact_mod_cast List.length_pos_of_ne_nil h
  have key : ∀ (ws : List ℚ) (a : ℚ), (ws.map fun v => (v - a) ^ 2).sum
      = (ws.map fun v => v ^ 2).sum - 2 * a * ws.sum + ws.length * a ^ 2 := by
    intro ws a
    induction ws with
    | nil => simp
    | cons w ws ih =>
      simp only [List.map_cons, List.sum_cons, List.length_cons]
      rw [ih]; push_cast; ring
  unfold spread variance
  rw [show average (vals.map fun v => (v - average vals) ^ 2)
    = (vals.map fun v => (v - average vals) ^ 2).sum / vals.length by simp [average]]
  rw [key, key]
  have e : vals.sum = average vals * vals.length := by unfold average; field_simp
  rw [e]
  field_simp
  ring

/-- The variance of moderate values. -/
theorem variance_ok {vals : List ℚ} (hmod : Moderate vals) {m : ℚ}
    (hmean : meanF64 (vals.map .finite) = .finite m) (hmd : IsDouble m) (hmb : |m| ≤ 2 ^ 402) :
    ∃ r, varianceF64 (vals.map .finite) = .finite r ∧ IsDouble r ∧ 0 ≤ r ∧
      |r - spread m vals| ≤ (vals.length + 4) / 2 ^ 52 * spread m vals + 3 * eta := by
  obtain ⟨hne, hn, hv⟩ := hmod
  have hn0 : 0 < vals.length := List.length_pos_of_ne_nil hne
  have hn0' : (0 : ℚ) < vals.length := by exact_mod_cast hn0
  set f : ℚ → ℚ := fun v => roundF64 (roundF64 (v - m) * roundF64 (v - m)) with hf
  have hdist : ∀ v ∈ vals, |v - m| ≤ 2 ^ 403 := fun v hv' => by
    have b := (hv v hv').2
    have d : (2 : ℚ) ^ 403 = 8 * 2 ^ 400 := by
      rw [show 403 = 400 + 3 by norm_num, pow_add]; ring
    have d2 : (2 : ℚ) ^ 402 = 4 * 2 ^ 400 := by
      rw [show 402 = 400 + 2 by norm_num, pow_add]; ring
    have e : (0 : ℚ) ≤ 2 ^ 400 := by positivity
    rw [d2] at hmb
    rw [d]
    have := abs_add_le v (-m)
    rw [abs_neg, ← sub_eq_add_neg] at this
    clear d d2 hv
    generalize (2 : ℚ) ^ 400 = B at *
    linarith
  have hsq : ∀ v ∈ vals, |roundF64 (v - m) * roundF64 (v - m)| ≤ 2 ^ 806 := fun v hv' => by
    have := round_abs_le (hdist v hv')
    rw [abs_mul]
    exact pow_mul_le this this (abs_nonneg _) (by norm_num)
  have hf0 : ∀ v ∈ vals, 0 ≤ f v := fun v _ => roundF64_nonneg (mul_self_nonneg _)
  have hfb : ∀ v ∈ vals, f v ≤ 2 ^ 806 := fun v hv' =>
    le_trans (le_abs_self _) (round_abs_le (hsq v hv'))
  have hmap : (vals.map F64.finite).map (fun v => (v.sub (meanF64 (vals.map .finite))).powi2)
      = (vals.map f).map .finite := by
    rw [List.map_map, List.map_map, hmean]
    apply List.map_congr_left
    intro v hv'
    simp only [Function.comp, F64.sub, F64.neg, F64.add, F64.powi2]
    rw [← sub_eq_add_neg, of_finite (le_trans (hdist v hv')
      (pow_le_pow_right₀ (by norm_num) (by norm_num)))]
    simp only [F64.mul]
    rw [of_finite (le_trans (hsq v hv') (pow_le_pow_right₀ (by norm_num) (by norm_num)))]
  have hlen : (vals.map f).length = vals.length := List.length_map ..
  have hfl0 : ∀ w ∈ vals.map f, 0 ≤ w := fun w hw => by
    obtain ⟨v, hv', rfl⟩ := List.mem_map.1 hw
    exact hf0 v hv'
  have habs : ((vals.map f).map fun v => |v|).sum = (vals.map f).sum := sum_abs_of_nonneg _ hfl0
  have hsumb : (vals.map f).sum ≤ 2 ^ 856 :=
    le_trans (sum_le_count vals hfb) (pow_mul_le (count_cast hn) le_rfl (by positivity) (by norm_num))
  obtain ⟨s, h1, h2, h3⟩ := sum_error (vals.map f) (fun w hw => by
      obtain ⟨v, _, rfl⟩ := List.mem_map.1 hw
      exact roundF64_isDouble _) (by rw [hlen]; exact le_trans hn.le (by norm_num))
    (by rw [habs]; exact le_trans hsumb (pow_le_pow_right₀ (by norm_num) (by norm_num)))
  rw [habs, hlen] at h3
  have hterms := sum_terms (f := f) (g := fun v => (v - m) ^ 2) (a := (1 + ulp) ^ 3 - 1) (b := eta)
    vals (fun v hv' => square_error (hv v hv').1 hmd)
  set X := (vals.map fun v => (v - m) ^ 2).sum with hX
  have hX0 : 0 ≤ X := sum_map_nonneg vals (fun v _ => sq_nonneg _)
  have hFs0 : 0 ≤ (vals.map f).sum := sum_map_nonneg vals hf0
  set p := (1 + ulp) ^ vals.length with hp
  have p1 : 1 ≤ p := one_le_pow_ulp _
  have p2 : p ≤ 2 := pow_two_le (le_trans hn.le (by norm_num))
  have hF : (vals.map f).sum ≤ (1 + ulp) ^ 3 * X + vals.length * eta := by
    have := (abs_le.1 hterms).2
    linarith
  have hs : |s - X| ≤ ((1 + ulp) ^ (vals.length + 3) - 1) * X + p * (vals.length * eta) := by
    have e : s - X = (s - (vals.map f).sum) + ((vals.map f).sum - X) := by ring
    rw [e]
    refine le_trans (abs_add_le _ _) ?_
    have b : (p - 1) * (vals.map f).sum ≤ (p - 1) * ((1 + ulp) ^ 3 * X + vals.length * eta) :=
      mul_le_mul_of_nonneg_left hF (by linarith)
    have : ((1 + ulp) ^ (vals.length + 3) - 1) * X + p * (vals.length * eta)
        = (p - 1) * ((1 + ulp) ^ 3 * X + vals.length * eta)
          + (((1 + ulp) ^ 3 - 1) * X + vals.length * eta) := by
      rw [pow_add, ← hp]; ring
    linarith
  have hq := quotient_error hn0 hs (by rw [abs_of_nonneg hX0])
  have hs0 : 0 ≤ s := by
    have := (abs_le.1 h3).1
    nlinarith
  have hfin : |s / vals.length| ≤ 2 ^ 1000 := by
    have a : s ≤ 2 ^ 857 := by
      have := (abs_le.1 h3).2
      have : s ≤ p * (vals.map f).sum := by linarith
      refine le_trans this ?_
      rw [pow_succ']
      exact mul_le_mul p2 hsumb hFs0 (by norm_num)
    rw [abs_of_nonneg (by positivity)]
    have h6 : s / vals.length ≤ s := div_le_self hs0 (by exact_mod_cast hn0)
    exact le_trans h6 (le_trans a (pow_le_pow_right₀ (by norm_num) (by norm_num)))
  refine ⟨roundF64 (s / vals.length), ?_, roundF64_isDouble _,
    roundF64_nonneg (by positivity), ?_⟩
  · unfold varianceF64
    rw [hmap, h1, List.length_map, of_count (le_trans hn.le (by norm_num))]
    simp only [F64.div]
    rw [if_neg hn0'.ne', of_finite hfin]
  · refine le_trans hq ?_
    have hsp : X / vals.length = spread m vals := rfl
    rw [hsp]
    have hk : vals.length + 3 + 1 ≤ 2 ^ 52 := by
      have : (2 : ℕ) ^ 50 + 4 ≤ 2 ^ 52 := by norm_num
      omega
    have h7 := pow_one_ulp hk
    have hsp0 : 0 ≤ spread m vals := by rw [← hsp]; positivity
    have c1 : ((1 + ulp) ^ (vals.length + 3 + 1) - 1) * spread m vals
        ≤ (vals.length + 4) / 2 ^ 52 * spread m vals := by
      apply mul_le_mul_of_nonneg_right _ hsp0
      push_cast at h7
      have : ((vals.length : ℚ) + 3 + 1) / 2 ^ 52 = (vals.length + 4) / 2 ^ 52 := by ring
      linarith
    have c2 : (1 + ulp) * (p * (vals.length * eta) / vals.length) ≤ 2 * eta := by
      have e : (1 + ulp) * (p * (vals.length * eta) / vals.length)
          = (1 + ulp) ^ (vals.length + 1) * eta := by
        rw [pow_succ, ← hp]; field_simp
      rw [e]
      exact mul_le_mul_of_nonneg_right (pow_two_le (by omega)) eta_pos.le
    linarith

end Lfest
