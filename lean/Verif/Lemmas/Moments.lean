import Verif.Model.Moments
import Mathlib.Algebra.BigOperators.Group.List.Basic
import Mathlib.Algebra.Order.BigOperators.Group.List
import Mathlib.Tactic.Ring
import Mathlib.Tactic.Linarith
import Mathlib.Tactic.FieldSimp
import Mathlib.Tactic.NormNum

/-! Lemmas for C73. -/

namespace Lfest

/-- Mean of the `k`-th powers of the distances to `m`. -/
noncomputable def centralMoment (m : ℝ) (k : ℕ) (vals : List ℝ) : ℝ :=
  (vals.map fun v => (v - m) ^ k).sum / vals.length

theorem length_pos {vals : List ℝ} (h : vals ≠ []) : (0 : ℝ) < vals.length := by
  have : 0 < vals.length := List.length_pos_of_ne_nil h
  exact_mod_cast this

theorem moments_eq (vals : List ℝ) : statisticalMoments vals =
    let m := vals.sum / vals.length
    let v := centralMoment m 2 vals
    ⟨m, Real.sqrt v, centralMoment m 3 vals / v ^ (1.5 : ℝ), centralMoment m 4 vals / v ^ 2 - 3⟩ := by
  simp only [statisticalMoments, centralMoment]
  congr 2 <;> ring

theorem sum_map_add_const (a : ℝ) : ∀ vals : List ℝ,
    (vals.map (· + a)).sum = vals.sum + vals.length * a
  | [] => by simp
  | v :: vs => by
    simp only [List.map_cons, List.sum_cons, sum_map_add_const a vs, List.length_cons]
    push_cast; ring

theorem sum_map_mul_const (a : ℝ) : ∀ vals : List ℝ,
    (vals.map (a * ·)).sum = a * vals.sum
  | [] => by simp
  | v :: vs => by
    simp only [List.map_cons, List.sum_cons, sum_map_mul_const a vs]
    ring

theorem central_shift (m a : ℝ) (k : ℕ) (vals : List ℝ) :
    centralMoment (m + a) k (vals.map (· + a)) = centralMoment m k vals := by
  simp [centralMoment, List.map_map, Function.comp_def]

theorem central_scale (m a : ℝ) (k : ℕ) (vals : List ℝ) :
    centralMoment (a * m) k (vals.map (a * ·)) = a ^ k * centralMoment m k vals := by
  have : ∀ vs : List ℝ, (vs.map fun v => (a * v - a * m) ^ k).sum
      = a ^ k * (vs.map fun v => (v - m) ^ k).sum := by
    intro vs
    induction vs with
    | nil => simp
    | cons v vs ih =>
      rw [List.map_cons, List.sum_cons, ih, ← mul_sub, mul_pow, List.map_cons, List.sum_cons]
      ring
  simp only [centralMoment, List.map_map, Function.comp_def, List.length_map, this, mul_div_assoc]

theorem central_one (vals : List ℝ) (h : vals ≠ []) :
    (vals.map fun v => v - vals.sum / vals.length).sum = 0 := by
  have h0 := length_pos h
  have : ∀ (m : ℝ) (vs : List ℝ), (vs.map fun v => v - m).sum = vs.sum - vs.length * m := by
    intro m vs
    have := sum_map_add_const (-m) vs
    simp only [← sub_eq_add_neg] at this
    rw [this]; ring
  rw [this]
  field_simp
  ring

theorem sum_nonneg_of {f : ℝ → ℝ} (hf : ∀ v, 0 ≤ f v) : ∀ vals : List ℝ, 0 ≤ (vals.map f).sum
  | [] => by simp
  | v :: vs => by
    have := sum_nonneg_of hf vs
    have := hf v
    simp only [List.map_cons, List.sum_cons]; linarith

theorem sum_zero_of {f : ℝ → ℝ} (hf : ∀ v, 0 ≤ f v) : ∀ vals : List ℝ, (vals.map f).sum = 0 →
    ∀ v ∈ vals, f v = 0
  | [], _ => by simp
  | v :: vs, h => by
    have h1 := sum_nonneg_of hf vs
    have h2 := hf v
    simp only [List.map_cons, List.sum_cons] at h
    intro w hw
    rcases List.mem_cons.mp hw with rfl | hw
    · linarith
    · exact sum_zero_of hf vs (by linarith) w hw

theorem variance_nonneg (m : ℝ) (vals : List ℝ) : 0 ≤ centralMoment m 2 vals :=
  div_nonneg (sum_nonneg_of (fun _ => sq_nonneg _) vals) (by positivity)

/-- The sum of `((v - m)² - a (v - m) - b)²` in terms of the power sums. -/
theorem sum_square (m a b : ℝ) : ∀ vals : List ℝ,
    (vals.map fun v => ((v - m) ^ 2 - a * (v - m) - b) ^ 2).sum =
      (vals.map fun v => (v - m) ^ 4).sum - 2 * a * (vals.map fun v => (v - m) ^ 3).sum
      + (a ^ 2 - 2 * b) * (vals.map fun v => (v - m) ^ 2).sum
      + 2 * a * b * (vals.map fun v => v - m).sum + vals.length * b ^ 2
  | [] => by simp
  | v :: vs => by
    simp only [List.map_cons, List.sum_cons, sum_square m a b vs, List.length_cons]
    push_cast; ring

/-- Pearson's inequality for the central moments. -/
theorem pearson {vals : List ℝ} (h : vals ≠ []) :
    let m := vals.sum / vals.length
    centralMoment m 3 vals ^ 2 + centralMoment m 2 vals ^ 3
      ≤ centralMoment m 4 vals * centralMoment m 2 vals := by
  intro m
  have hn := length_pos h
  have h1 : (vals.map fun v => v - m).sum = 0 := central_one vals h
  have key : ∀ a : ℝ, 0 ≤ centralMoment m 4 vals - 2 * a * centralMoment m 3 vals
      + a ^ 2 * centralMoment m 2 vals - centralMoment m 2 vals ^ 2 := by
    intro a
    have hs := sum_nonneg_of (f := fun v => ((v - m) ^ 2 - a * (v - m) - centralMoment m 2 vals) ^ 2)
      (fun _ => sq_nonneg _) vals
    rw [sum_square, h1] at hs
    have e : ∀ k, (vals.map fun v => (v - m) ^ k).sum = centralMoment m k vals * vals.length := by
      intro k; unfold centralMoment; field_simp
    rw [e, e, e] at hs
    by_contra hc
    push Not at hc
    have := mul_neg_of_neg_of_pos hc hn
    nlinarith
  have v0 := variance_nonneg m vals
  generalize centralMoment m 2 vals = v at *
  generalize centralMoment m 3 vals = s at *
  generalize centralMoment m 4 vals = k at *
  rcases eq_or_lt_of_le v0 with hv | hv
  · subst hv
    have : s = 0 := by
      by_contra hs
      have h3 := key ((k + 1) / (2 * s))
      have : 2 * ((k + 1) / (2 * s)) * s = k + 1 := by field_simp
      rw [this] at h3
      nlinarith
    subst this
    simp
  · have h3 := key (s / v)
    have e : k - 2 * (s / v) * s + (s / v) ^ 2 * v - v ^ 2 = (k * v - s ^ 2 - v ^ 3) / v := by
      field_simp; ring
    rw [e] at h3
    have := (div_nonneg_iff.mp h3)
    rcases this with ⟨h4, _⟩ | ⟨_, h5⟩
    · linarith
    · linarith

theorem sum_between {lo hi : ℝ} : ∀ vals : List ℝ, (∀ v ∈ vals, lo ≤ v ∧ v ≤ hi) →
    vals.length * lo ≤ vals.sum ∧ vals.sum ≤ vals.length * hi
  | [], _ => by simp
  | v :: vs, h => by
    obtain ⟨h1, h2⟩ := sum_between vs (fun w hw => h w (by simp [hw]))
    obtain ⟨h3, h4⟩ := h v (by simp)
    simp only [List.sum_cons, List.length_cons]
    push_cast
    constructor <;> linarith

theorem sum_sq_le {lo hi m : ℝ} : ∀ vals : List ℝ, (∀ v ∈ vals, lo ≤ v ∧ v ≤ hi) →
    (vals.map fun v => (v - m) ^ 2).sum ≤
      (hi + lo - 2 * m) * vals.sum + vals.length * (m ^ 2 - hi * lo)
  | [], _ => by simp
  | v :: vs, h => by
    have h1 := sum_sq_le (m := m) vs (fun w hw => h w (by simp [hw]))
    obtain ⟨h3, h4⟩ := h v (by simp)
    simp only [List.map_cons, List.sum_cons, List.length_cons]
    push_cast
    nlinarith [mul_nonneg (sub_nonneg.mpr h3) (sub_nonneg.mpr h4)]

end Lfest
