import Verif.Lemmas.Tracker

/-! Lemmas for C72. -/

namespace Lfest

open Spec

theorem volume_nonneg (c : Cfg) (sd : Side) : ∀ (fs : List Fill),
    (∀ f ∈ fs, 0 < f.price ∧ 0 < f.qty) → 0 ≤ volume c sd fs := by
  intro fs
  induction fs with
  | nil => intro _; simp [volume]
  | cons f fs ih =>
    intro hn
    have h1 := hn f (by simp)
    have := value_nonneg c.env (q := f.qty) (p := f.price) (by omega) (by omega)
    have := ih (fun g hg => hn g (by simp [hg]))
    simp only [volume]
    split <;> omega

theorem rat_ratio {a b n : Nat} (h : a + b ≤ n) (hn : n ≠ 0) :
    (0 : Rat) ≤ (a : Rat) / n ∧ (0 : Rat) ≤ (b : Rat) / n ∧ (a : Rat) / n + (b : Rat) / n ≤ 1 := by
  have h0 : (0 : Rat) < n := by exact_mod_cast Nat.pos_of_ne_zero hn
  have nn : ∀ k : Nat, (0 : Rat) ≤ (k : Rat) / n := by
    intro k
    have h1 : (0 : Rat) ≤ k := by exact_mod_cast Nat.zero_le k
    rw [Rat.div_def]
    exact Rat.mul_nonneg h1 (by have := Rat.inv_pos.mpr h0; grind)
  refine ⟨nn a, nn b, ?_⟩
  have h1 : (a : Rat) + b ≤ n := by exact_mod_cast h
  have e1 : (a : Rat) / n * n = a := by grind
  have e2 : (b : Rat) / n * n = b := by grind
  apply Rat.not_lt.mp
  intro hh
  have := Rat.mul_lt_mul_of_pos_right hh h0
  grind

end Lfest
