import Verif.Lemmas.Float
import Verif.Model.MomentsF64
import Verif.SpecMoments
import Mathlib.Algebra.Order.BigOperators.Group.List
import Mathlib.Algebra.Order.Ring.Pow
import Mathlib.Tactic.Positivity
import Mathlib.Tactic.Linarith
import Mathlib.Tactic.FieldSimp
import Mathlib.Tactic.Ring

/-!
# Rounding errors of sums, means and variances
-/

namespace Lfest
open Spec

/-- Half the distance of 1 and the next double. -/
def ulp : ℚ := 1 / 2 ^ 53

/-- Half the smallest double. -/
def eta : ℚ := 2 ^ (-1075 : ℤ)

theorem ulp_pos : 0 < ulp := by unfold ulp; norm_num

theorem eta_pos : 0 < eta := by unfold eta; positivity

theorem round_err (x : ℚ) : |roundF64 x - x| ≤ ulp * |x| + eta := by
  by_cases hx : 2 ^ (-1022 : ℤ) ≤ |x|
  · have h := roundF64_rel hx
    have := eta_pos
    unfold ulp
    linarith [show |x| / 2 ^ 53 = 1 / 2 ^ 53 * |x| by ring]
  · push Not at hx
    by_cases hz : x = 0
    · rw [hz, roundF64_zero]; simpa using eta_pos.le
    have h := roundF64_error x
    have hs : f64Step x ≤ 2 ^ (-1074 : ℤ) := by
      unfold f64Step
      apply zpow_le_zpow_right₀ (by norm_num)
      have : Int.log 2 |x| ≤ -1022 := by
        by_contra hc
        push Not at hc
        have := (Int.zpow_le_iff_le_log (b := 2) (by norm_num) (abs_pos.2 hz)).2 hc.le
        push_cast at this
        linarith
      omega
    have he : (2 : ℚ) ^ (-1074 : ℤ) / 2 = eta := by
      unfold eta
      rw [show (-1074 : ℤ) = -1075 + 1 by norm_num, zpow_add₀ (by norm_num)]
      norm_num
    have : 0 ≤ ulp * |x| := mul_nonneg ulp_pos.le (abs_nonneg x)
    linarith

theorem isDouble_unit {v : ℚ} (h : IsDouble v) : ∃ k : ℤ, v = k * 2 ^ (-1074 : ℤ) := by
  obtain ⟨m, e, _, he, rfl⟩ := h
  refine ⟨m * 2 ^ (e + 1074).toNat, ?_⟩
  push_cast
  rw [mul_assoc, ← zpow_natCast, ← zpow_add₀ (by norm_num)]
  congr 2
  omega

/-- Sums of doubles have no error of underflow. -/
theorem round_add {a b : ℚ} (ha : IsDouble a) (hb : IsDouble b) :
    |roundF64 (a + b) - (a + b)| ≤ ulp * |a + b| := by
  by_cases hx : 2 ^ (-1022 : ℤ) ≤ |a + b|
  · have h := roundF64_rel hx
    unfold ulp
    linarith [show |a + b| / 2 ^ 53 = 1 / 2 ^ 53 * |a + b| by ring]
  · push Not at hx
    have hd : IsDouble (a + b) := by
      obtain ⟨k, rfl⟩ := isDouble_unit ha
      obtain ⟨l, rfl⟩ := isDouble_unit hb
      refine ⟨k + l, -1074, ?_, le_refl _, by push_cast; ring⟩
      rw [← add_mul, abs_mul, abs_of_pos (show (0 : ℚ) < 2 ^ (-1074 : ℤ) by positivity),
        show (-1022 : ℤ) = 52 + -1074 by norm_num, zpow_add₀ (by norm_num)] at hx
      have := lt_of_mul_lt_mul_right hx (by positivity)
      have h2 : |k + l| < 2 ^ 52 := by
        exact_mod_cast this
      have : (2 : ℤ) ^ 52 ≤ 2 ^ 53 := by norm_num
      omega
    rw [roundF64_of_isDouble hd, sub_self, abs_zero]
    exact mul_nonneg ulp_pos.le (abs_nonneg _)

theorem round_abs_le {x : ℚ} {n : ℕ} (h : |x| ≤ 2 ^ n) : |roundF64 x| ≤ 2 ^ n := by
  rw [abs_le] at h ⊢
  have h1 := roundF64_mono h.1
  have h2 := roundF64_mono h.2
  rw [roundF64_neg, roundF64_of_isDouble (isDouble_two_pow n)] at h1
  rw [roundF64_of_isDouble (isDouble_two_pow n)] at h2
  exact ⟨h1, h2⟩

theorem of_finite {x : ℚ} (h : |x| ≤ 2 ^ 1000) : F64.of x = .finite (roundF64 x) := by
  unfold F64.of
  have h1 := round_abs_le h
  have h2 : (2 : ℚ) ^ 1000 < f64Limit := by
    unfold f64Limit
    exact pow_lt_pow_right₀ (by norm_num) (by norm_num)
  exact if_neg (by linarith)

theorem pow_one_ulp {k : ℕ} (hk : k ≤ 2 ^ 52) : (1 + ulp) ^ k ≤ 1 + k / 2 ^ 52 := by
  have hk' : (k : ℚ) ≤ 2 ^ 52 := by exact_mod_cast hk
  have h0 : (0 : ℚ) ≤ k := Nat.cast_nonneg k
  have h1 : 1 + (k : ℚ) * (-ulp) ≤ (1 + -ulp) ^ k :=
    one_add_mul_le_pow (by unfold ulp; norm_num) k
  have h2 : (1 + ulp) ^ k * (1 + -ulp) ^ k ≤ 1 := by
    rw [← mul_pow]
    apply pow_le_one₀
    · unfold ulp; norm_num
    · unfold ulp; norm_num
  have h3 : (1 + ulp) ^ k * (1 + (k : ℚ) * (-ulp)) ≤ 1 :=
    le_trans (mul_le_mul_of_nonneg_left h1 (pow_nonneg (by linarith [ulp_pos]) k)) h2
  have e : 1 + (k : ℚ) * (-ulp) = 1 - k / 2 ^ 53 := by unfold ulp; ring
  rw [e] at h3
  have hp : (0 : ℚ) < 1 - k / 2 ^ 53 := by
    have : (k : ℚ) / 2 ^ 53 ≤ 1 / 2 := by
      rw [div_le_iff₀ (by norm_num)]; norm_num at hk' ⊢; linarith
    linarith
  rw [← le_div_iff₀ hp] at h3
  refine le_trans h3 ?_
  rw [div_le_iff₀ hp]
  set t : ℚ := k / 2 ^ 53 with ht
  have e2 : (k : ℚ) / 2 ^ 52 = 2 * t := by rw [ht]; ring
  have ht0 : 0 ≤ t := by rw [ht]; positivity
  have ht1 : t ≤ 1 / 2 := by
    rw [ht, div_le_iff₀ (by norm_num)]; norm_num at hk' ⊢; linarith
  rw [e2]
  nlinarith

theorem pow_two_le {k : ℕ} (hk : k ≤ 2 ^ 52) : (1 + ulp) ^ k ≤ 2 := by
  have h := pow_one_ulp hk
  have hk' : (k : ℚ) ≤ 2 ^ 52 := by exact_mod_cast hk
  have : (k : ℚ) / 2 ^ 52 ≤ 1 := by rw [div_le_one (by norm_num)]; exact hk'
  linarith

theorem one_le_pow_ulp (k : ℕ) : 1 ≤ (1 + ulp) ^ k := one_le_pow₀ (by linarith [ulp_pos])

theorem sumF_append (ws : List F64) (w : F64) : F64.sum (ws ++ [w]) = (F64.sum ws).add w := by
  simp [F64.sum, List.foldl_append]

theorem abs_sum_le (ws : List ℚ) : |ws.sum| ≤ (ws.map fun v => |v|).sum := by
  induction ws with
  | nil => simp
  | cons a l ih =>
    simp only [List.sum_cons, List.map_cons]
    have := abs_add_le a l.sum
    linarith

theorem sum_abs_nonneg (ws : List ℚ) : 0 ≤ (ws.map fun v => |v|).sum := by
  induction ws with
  | nil => simp
  | cons a l ih =>
    simp only [List.sum_cons, List.map_cons]
    have := abs_nonneg a
    linarith

/-- The rounding error of a sum, from the left. -/
theorem sum_error (ws : List ℚ) (hd : ∀ w ∈ ws, IsDouble w) (hn : ws.length ≤ 2 ^ 52)
    (hb : (ws.map fun v => |v|).sum ≤ 2 ^ 990) :
    ∃ s, F64.sum (ws.map .finite) = .finite s ∧ IsDouble s ∧
      |s - ws.sum| ≤ ((1 + ulp) ^ ws.length - 1) * (ws.map fun v => |v|).sum := by
  induction ws using List.reverseRecOn with
  | nil => exact ⟨0, rfl, isDouble_zero, by simp⟩
  | append_singleton ws w ih =>
    simp only [List.map_append, List.map_cons, List.map_nil, List.sum_append, List.sum_cons,
      List.sum_nil, add_zero, List.length_append, List.length_cons, List.length_nil, zero_add]
      at hb hn ⊢
    have hw := abs_nonneg w
    obtain ⟨s, h1, h2, h3⟩ := ih (fun x hx => hd x (by simp [hx])) (by omega) (by linarith)
    have hA := sum_abs_nonneg ws
    have hS := abs_sum_le ws
    set A := (ws.map fun v => |v|).sum
    set p := (1 + ulp) ^ ws.length with hp
    have p1 : 1 ≤ p := one_le_pow_ulp _
    have p2 : p ≤ 2 := pow_two_le (by omega)
    have hx : |s + w| ≤ p * (A + |w|) := by
      have e : s + w = (s - ws.sum) + (ws.sum + w) := by ring
      have a1 := abs_add_le (s - ws.sum) (ws.sum + w)
      have a2 := abs_add_le ws.sum w
      rw [← e] at a1
      nlinarith
    have hfin : |s + w| ≤ 2 ^ 1000 := by
      have h4 : p * (A + |w|) ≤ 2 * 2 ^ 990 :=
        mul_le_mul p2 hb (by linarith) (by norm_num)
      rw [← pow_succ'] at h4
      exact le_trans hx (le_trans h4 (pow_le_pow_right₀ (by norm_num) (by norm_num)))
    refine ⟨roundF64 (s + w), ?_, roundF64_isDouble _, ?_⟩
    · rw [sumF_append, h1]
      exact of_finite hfin
    · have hr := round_add h2 (hd w (by simp))
      have e : roundF64 (s + w) - (ws.sum + w)
          = (roundF64 (s + w) - (s + w)) + (s - ws.sum) := by ring
      rw [e]
      refine le_trans (abs_add_le _ _) ?_
      rw [pow_succ, ← hp]
      have hu := ulp_pos
      have b1 : ulp * |s + w| ≤ ulp * (p * (A + |w|)) := mul_le_mul_of_nonneg_left hx hu.le
      have b2 : (p - 1) * A ≤ (p - 1) * (A + |w|) :=
        mul_le_mul_of_nonneg_left (by linarith) (by linarith)
      have : (p * (1 + ulp) - 1) * (A + |w|) = ulp * (p * (A + |w|)) + (p - 1) * (A + |w|) := by
        ring
      linarith

theorem isDouble_count {n : ℕ} (h : n ≤ 2 ^ 53) : IsDouble n :=
  ⟨n, 0, by rw [abs_of_nonneg (by positivity)]; exact_mod_cast h, by norm_num, by simp⟩

theorem of_count {n : ℕ} (h : n ≤ 2 ^ 53) : F64.of n = .finite n := by
  rw [of_finite, roundF64_of_isDouble (isDouble_count h)]
  rw [abs_of_nonneg (by positivity)]
  have h1 : (n : ℚ) ≤ 2 ^ 53 := by exact_mod_cast h
  exact le_trans h1 (pow_le_pow_right₀ (by norm_num) (by norm_num))

/-- Dividing a rounded sum by the count. -/
theorem quotient_error {s S A c : ℚ} {n k : ℕ} (hn : 0 < n)
    (h : |s - S| ≤ ((1 + ulp) ^ k - 1) * A + c) (hS : |S| ≤ A) :
    |roundF64 (s / n) - S / n| ≤ ((1 + ulp) ^ (k + 1) - 1) * (A / n) + (1 + ulp) * (c / n) + eta := by
  have hn' : (0 : ℚ) < n := by exact_mod_cast hn
  have hr := round_err (s / n)
  have hu := ulp_pos
  have hs : |s / n| ≤ (1 + ulp) ^ k * (A / n) + c / n := by
    have e : s = (s - S) + S := by ring
    have a := abs_add_le (s - S) S
    rw [← e] at a
    rw [abs_div, abs_of_pos hn', ← mul_div_assoc, ← add_div]
    apply div_le_div_of_nonneg_right _ hn'.le
    linarith
  have hq : |s / n - S / n| ≤ ((1 + ulp) ^ k - 1) * (A / n) + c / n := by
    rw [← sub_div, abs_div, abs_of_pos hn', ← mul_div_assoc, ← add_div]
    exact div_le_div_of_nonneg_right h hn'.le
  have e : roundF64 (s / n) - S / n = (roundF64 (s / n) - s / n) + (s / n - S / n) := by ring
  rw [e]
  refine le_trans (abs_add_le _ _) ?_
  have b : ulp * |s / n| ≤ ulp * ((1 + ulp) ^ k * (A / n) + c / n) :=
    mul_le_mul_of_nonneg_left hs hu.le
  rw [pow_succ]
  have : ((1 + ulp) ^ k * (1 + ulp) - 1) * (A / n) + (1 + ulp) * (c / n) + eta
      = ulp * ((1 + ulp) ^ k * (A / n) + c / n) + eta
        + (((1 + ulp) ^ k - 1) * (A / n) + c / n) := by ring
  linarith

end Lfest
