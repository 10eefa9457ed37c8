import Verif.Lemmas.Ledger

/-! Rounded division and averages. -/

namespace Lfest

open Spec

theorem tdiv_bounds {x s : Int} (hx : 0 ≤ x) (hs : 0 < s) :
    x.tdiv s * s ≤ x ∧ x < x.tdiv s * s + s ∧ 0 ≤ x.tdiv s := by
  rw [Int.tdiv_eq_ediv_of_nonneg hx]
  have h1 := Int.ediv_mul_le x (by omega : s ≠ 0)
  have h2 := Int.lt_ediv_add_one_mul_self x hs
  rw [Int.add_mul, Int.one_mul] at h2
  exact ⟨h1, h2, Int.ediv_nonneg hx (by omega)⟩

theorem le_tdiv {x s k : Int} (hs : 0 < s) (hx : 0 ≤ x) (h : k * s ≤ x) : k ≤ x.tdiv s := by
  rw [Int.tdiv_eq_ediv_of_nonneg hx]; exact (Int.le_ediv_iff_mul_le hs).2 h

theorem tdiv_le {x s k : Int} (hs : 0 < s) (hx : 0 ≤ x) (h : x ≤ k * s) : x.tdiv s ≤ k := by
  rw [Int.tdiv_eq_ediv_of_nonneg hx]
  have := Int.ediv_le_ediv hs h
  rwa [Int.mul_ediv_cancel _ (by omega)] at this

theorem tdiv_mono {x y s : Int} (hs : 0 < s) (hx : 0 ≤ x) (h : x ≤ y) : x.tdiv s ≤ y.tdiv s :=
  le_tdiv hs (by omega) (Int.le_trans (tdiv_bounds hx hs).1 h)

/-- The weighted price against the exact mean. -/
theorem weighted_bounds (e : Env) {p0 w0 p1 w1 : Int} (hp0 : 0 ≤ p0) (hp1 : 0 ≤ p1)
    (hw0 : 0 ≤ w0) (hw1 : 0 ≤ w1) (hw : 0 < w0 + w1) :
    0 ≤ weighted e p0 w0 p1 w1 ∧
    weighted e p0 w0 p1 w1 * (w0 + w1) ≤ p0 * w0 + p1 * w1 ∧
    p0 * w0 + p1 * w1 < weighted e p0 w0 p1 w1 * (w0 + w1) + (w0 + w1) + 2 * e.scale := by
  have hs := scale_pos e
  obtain ⟨a1, a2, a3⟩ := tdiv_bounds (Int.mul_nonneg hp0 hw0) hs
  obtain ⟨b1, b2, b3⟩ := tdiv_bounds (Int.mul_nonneg hp1 hw1) hs
  have hn : 0 ≤ ((p0 * w0).tdiv e.scale + (p1 * w1).tdiv e.scale) * e.scale :=
    Int.mul_nonneg (by omega) (by omega)
  obtain ⟨c1, c2, c3⟩ := tdiv_bounds hn hw
  have hd := Int.add_mul ((p0 * w0).tdiv e.scale) ((p1 * w1).tdiv e.scale) e.scale
  simp only [weighted]
  refine ⟨c3, ?_, ?_⟩ <;> omega

theorem weighted_le (e : Env) {p0 w0 p1 w1 m : Int} (hp0 : 0 ≤ p0) (hp1 : 0 ≤ p1)
    (hw0 : 0 ≤ w0) (hw1 : 0 ≤ w1) (hw : 0 < w0 + w1) (h0 : p0 ≤ m) (h1 : p1 ≤ m) :
    weighted e p0 w0 p1 w1 ≤ m := by
  have h := (weighted_bounds e hp0 hp1 hw0 hw1 hw).2.1
  have e0 := Int.mul_le_mul_of_nonneg_right h0 hw0
  have e1 := Int.mul_le_mul_of_nonneg_right h1 hw1
  have : weighted e p0 w0 p1 w1 * (w0 + w1) ≤ m * (w0 + w1) := by
    rw [Int.mul_add m]; omega
  exact Int.le_of_mul_le_mul_right this hw

end Lfest
