import Verif.SpecSample
import Verif.Lemmas.Single
import Verif.Lemmas.Inv

/-! Helper lemmas for C106. -/

namespace Lfest
open Spec

/-- Two singles are integers times a common unit, and the smaller integer is below `2^24`, or the
larger at most `2^24`. -/
theorem singles_common {p c : ℚ} (hp : IsSingle p) (hc : IsSingle c) (h0 : 0 < p) (h : p < c) :
    ∃ (m k : ℤ) (u : ℚ), 0 < u ∧ p = m * u ∧ c = k * u ∧ 0 < m ∧ m < k ∧ m < 2 ^ 24 := by
  obtain ⟨m, e, hm, he, rfl⟩ := hp
  obtain ⟨k, f, hk, hf, rfl⟩ := hc
  have ue : (0 : ℚ) < 2 ^ e := by positivity
  have uf : (0 : ℚ) < 2 ^ f := by positivity
  have hm0 : 0 < m := by
    have := (mul_pos_iff_of_pos_right ue).1 h0
    exact_mod_cast this
  rw [abs_of_pos hm0] at hm
  have hk0 : 0 < k := by
    have := (mul_pos_iff_of_pos_right uf).1 (h0.trans h)
    exact_mod_cast this
  rw [abs_of_pos hk0] at hk
  rcases le_or_gt f e with hfe | hfe
  · -- unit of the larger one
    obtain ⟨n, rfl⟩ := Int.le.dest hfe
    have e2 : (2 : ℚ) ^ (f + n) = 2 ^ n * 2 ^ f := by
      rw [zpow_add₀ (by norm_num), zpow_natCast, mul_comm]
    refine ⟨m * 2 ^ n, k, 2 ^ f, uf, by push_cast; rw [e2]; ring, rfl, by positivity, ?_, ?_⟩
    · rw [e2, ← mul_assoc] at h
      have := lt_of_mul_lt_mul_right h uf.le
      exact_mod_cast this
    · rw [e2, ← mul_assoc] at h
      have := lt_of_mul_lt_mul_right h uf.le
      have h2 : m * 2 ^ n < k := by exact_mod_cast this
      omega
  · obtain ⟨n, rfl⟩ := Int.le.dest hfe
    have e2 : (2 : ℚ) ^ (e + 1 + n) = 2 ^ (n + 1) * 2 ^ e := by
      rw [show e + 1 + (n : ℤ) = e + ((n + 1 : ℕ) : ℤ) by push_cast; ring,
        zpow_add₀ (by norm_num), zpow_natCast, mul_comm]
    have hlt : m < k * 2 ^ (n + 1) := by
      rw [e2, ← mul_assoc] at h
      have := lt_of_mul_lt_mul_right h ue.le
      exact_mod_cast this
    rcases lt_or_eq_of_le hm with hm | hm
    · exact ⟨m, k * 2 ^ (n + 1), 2 ^ e, ue, rfl, by push_cast; rw [e2]; ring, hm0, hlt, hm⟩
    · refine ⟨2 ^ 23, k * 2 ^ n, 2 * 2 ^ e, by positivity, ?_, ?_, by norm_num, ?_, by norm_num⟩
      · rw [hm]; push_cast; ring
      · push_cast; rw [e2]; ring
      · have e3 : k * 2 ^ (n + 1) = 2 * (k * 2 ^ n) := by ring
        rw [hm, e3] at hlt
        omega

/-- A single just above one, and one just below. -/
theorem isSingle_above : IsSingle (1 + 1 / 2 ^ 23) :=
  ⟨2 ^ 23 + 1, -23, by norm_num, by norm_num, by norm_num⟩

theorem isSingle_below : IsSingle (1 - 1 / 2 ^ 24) :=
  ⟨2 ^ 24 - 1, -24, by norm_num, by norm_num, by norm_num⟩

theorem round_above {x : ℚ} (h : 1 + 1 / 2 ^ 24 < x) : 1 < roundF32 x := by
  have h1 := roundF32_one_le (x := x) (by linarith [show (0 : ℚ) < 1 / 2 ^ 24 by norm_num])
  rcases lt_or_eq_of_le h1 with h1 | h1
  · exact h1
  · exfalso
    rcases le_or_gt (1 + 1 / 2 ^ 23) x with h2 | h2
    · have := roundF32_mono h2
      rw [roundF32_of_isSingle isSingle_above, ← h1] at this
      norm_num at this
    · have := (roundF32_nearest x).2 _ isSingle_above
      rw [← h1, abs_of_nonpos (by linarith [show (0 : ℚ) < 1 / 2 ^ 24 by norm_num]),
        abs_of_pos (by linarith)] at this
      norm_num at this h h2
      linarith

theorem round_below {x : ℚ} (h : x ≤ 1 - 1 / 2 ^ 24) : roundF32 x < 1 := by
  have := roundF32_mono h
  rw [roundF32_of_isSingle isSingle_below] at this
  exact lt_of_le_of_lt this (by norm_num)

/-- The quotient of a larger single by a smaller one is rounded to more than one. -/
theorem quotient_above {p c : ℚ} (hp : IsSingle p) (hc : IsSingle c) (h0 : 0 < p) (h : p < c) :
    1 < roundF32 (c / p) := by
  obtain ⟨m, k, u, hu, rfl, rfl, hm, hmk, hm2⟩ := singles_common hp hc h0 h
  apply round_above
  have hm' : (0 : ℚ) < m := by exact_mod_cast hm
  have hk' : (m : ℚ) + 1 ≤ k := by exact_mod_cast hmk
  have hm2' : (m : ℚ) < 2 ^ 24 := by exact_mod_cast hm2
  rw [mul_div_mul_right _ _ hu.ne', lt_div_iff₀ hm']
  have : 1 / 2 ^ 24 * (m : ℚ) < 1 := by
    rw [div_mul_eq_mul_div, one_mul, div_lt_one (by norm_num)]
    exact hm2'
  linarith

/-- The quotient of a smaller single by a larger one is rounded to less than one. -/
theorem quotient_below {p c : ℚ} (hp : IsSingle p) (hc : IsSingle c) (h0 : 0 < p) (h : p < c) :
    roundF32 (p / c) < 1 := by
  obtain ⟨m, k, u, hu, rfl, rfl, hm, hmk, hm2⟩ := singles_common hp hc h0 h
  apply round_below
  have hm' : (0 : ℚ) < m := by exact_mod_cast hm
  have hk' : (m : ℚ) + 1 ≤ k := by exact_mod_cast hmk
  have hm2' : (m : ℚ) + 1 ≤ 2 ^ 24 := by exact_mod_cast hm2
  rw [mul_div_mul_right _ _ hu.ne', div_le_iff₀ (by linarith)]
  have e : (1 - 1 / 2 ^ 24) * (k : ℚ) = (2 ^ 24 - 1) * k / 2 ^ 24 := by ring
  rw [e, le_div_iff₀ (by norm_num)]
  nlinarith

theorem converts_pos {e : Env} {toF64 : Int → ℚ} (hc : Converts e toF64) {a : Int} (ha : Sane e a) :
    0 < toF64 a ∧ 1 / 2 ^ 64 ≤ toF64 a ∧ toF64 a ≤ 2 ^ 63 := by
  have h := hc.2 a
  obtain ⟨h1, h2⟩ := ha
  set x := (a : ℚ) / e.scale
  have hx : 0 < x := lt_of_lt_of_le (by norm_num) h1
  rw [abs_of_pos hx] at h
  obtain ⟨h3, h4⟩ := abs_le.1 h
  refine ⟨?_, ?_, ?_⟩
  · have : x / 2 ^ 50 ≤ x / 2 := div_le_div_of_nonneg_left hx.le (by norm_num) (by norm_num)
    linarith
  · have : x / 2 ^ 50 ≤ x / 2 := div_le_div_of_nonneg_left hx.le (by norm_num) (by norm_num)
    have e : (1 : ℚ) / 2 ^ 64 = 1 / 2 ^ 63 / 2 := by norm_num
    rw [e]; linarith
  · have : x / 2 ^ 50 ≤ x := div_le_self hx.le (by norm_num)
    have e : (2 : ℚ) ^ 63 = 2 ^ 62 + 2 ^ 62 := by norm_num
    rw [e]; linarith

/-- The single of an amount: value, bounds and relative error. -/
theorem single_of {e : Env} {toF64 : Int → ℚ} (hc : Converts e toF64) {a : Int} (ha : Sane e a) :
    F32.of (toF64 a) = .finite (roundF32 (toF64 a)) ∧ 0 < roundF32 (toF64 a) ∧
      1 / 2 ^ 64 ≤ roundF32 (toF64 a) ∧ roundF32 (toF64 a) ≤ 2 ^ 63 ∧
      |roundF32 (toF64 a) - a / e.scale| ≤ (a : ℚ) / e.scale * (9 / 2 ^ 27) := by
  obtain ⟨h0, h1, h2⟩ := converts_pos hc ha
  have hs : IsSingle (1 / 2 ^ 64) := ⟨1, -64, by norm_num, by norm_num, by norm_num⟩
  have h3 := roundF32_mono h1
  rw [roundF32_of_isSingle hs] at h3
  refine ⟨F32.of_finite h0.le (h2.trans (by norm_num)), lt_of_lt_of_le (by norm_num) h3, h3,
    roundF32_le_pow 63 h2, ?_⟩
  have h4 := roundF32_rel (tiny32 h1)
  rw [abs_of_pos h0] at h4
  have h5 := hc.2 a
  have hx : 0 < (a : ℚ) / e.scale := lt_of_lt_of_le (by norm_num) ha.1
  set x := (a : ℚ) / e.scale
  rw [abs_of_pos hx] at h5
  have h6 : toF64 a ≤ x + x / 2 ^ 50 := by have := (abs_le.1 h5).2; linarith
  calc |roundF32 (toF64 a) - x| ≤ |roundF32 (toF64 a) - toF64 a| + |toF64 a - x| :=
        abs_sub_le _ _ _
    _ ≤ toF64 a / 2 ^ 24 + x / 2 ^ 50 := add_le_add h4 h5
    _ ≤ (x + x / 2 ^ 50) / 2 ^ 24 + x / 2 ^ 50 := by
        have := div_le_div_of_nonneg_right h6 (show (0 : ℚ) ≤ 2 ^ 24 by norm_num)
        linarith
    _ ≤ x * (9 / 2 ^ 27) := by
        norm_num
        linarith

/-- One return. -/
theorem seen {e : Env} {toF64 : Int → ℚ} {ln : F32 → F32} (hc : Converts e toF64) (hl : LogSign ln)
    {p b : Int} (hp : Sane e p) (hb : Sane e b) :
    SeenAs toF64 (p, b) (ln ((F32.of (toF64 b)).div (F32.of (toF64 p)))) := by
  obtain ⟨ep, p0, p1, p2, p3⟩ := single_of hc hp
  obtain ⟨eb, b0, b1, b2, b3⟩ := single_of hc hb
  have sp := roundF32_isSingle (toF64 p)
  have sb := roundF32_isSingle (toF64 b)
  have hS : (0 : ℚ) < e.scale := by exact_mod_cast scale_pos e
  unfold SeenAs
  simp only [ep, eb, F32.finite.injEq]
  have mono : p ≤ b → roundF32 (toF64 p) ≤ roundF32 (toF64 b) := fun h => roundF32_mono (hc.1 _ _ h)
  have mono' : b ≤ p → roundF32 (toF64 b) ≤ roundF32 (toF64 p) := fun h => roundF32_mono (hc.1 _ _ h)
  have big : ∀ {x y : Int} {X Y : ℚ}, Sane e x → Sane e y →
      |X - x / e.scale| ≤ (x : ℚ) / e.scale * (9 / 2 ^ 27) →
      |Y - y / e.scale| ≤ (y : ℚ) / e.scale * (9 / 2 ^ 27) →
      (x : ℚ) * (1 + 1 / (2 ^ 22 : ℚ)) < y → X < Y := by
    intro x y X Y hx hy h1 h2 h
    have hx0 : 0 < (x : ℚ) / e.scale := lt_of_lt_of_le (by norm_num) hx.1
    have h3 : (x : ℚ) / e.scale * (1 + 1 / (2 ^ 22 : ℚ)) < y / e.scale := by
      rw [div_mul_eq_mul_div]
      exact (div_lt_div_iff_of_pos_right hS).2 h
    have h4 := (abs_le.1 h1).2
    have h5 := (abs_le.1 h2).1
    generalize (x : ℚ) / e.scale = x' at *
    generalize (y : ℚ) / e.scale = y' at *
    norm_num at *
    linarith
  generalize roundF32 (toF64 p) = P at *
  generalize roundF32 (toF64 b) = B at *
  have hq0 : 0 < B / P := div_pos b0 p0
  have hq1 : B / P ≤ 2 ^ 127 := by
    rw [div_le_iff₀ p0]
    have : (2 : ℚ) ^ 127 * (1 / 2 ^ 64) ≤ 2 ^ 127 * P := mul_le_mul_of_nonneg_left p1 (by norm_num)
    refine b2.trans (le_trans ?_ this)
    norm_num
  have hr1 := roundF32_le_pow 127 hq1
  have hr0 : 0 < roundF32 (B / P) := by
    have hs : IsSingle (1 / 2 ^ 127) := ⟨1, -127, by norm_num, by norm_num, by norm_num⟩
    have : (1 : ℚ) / 2 ^ 127 ≤ B / P := by
      rw [le_div_iff₀ p0]
      have : (1 : ℚ) / 2 ^ 127 * P ≤ 1 / 2 ^ 127 * 2 ^ 63 :=
        mul_le_mul_of_nonneg_left p2 (by norm_num)
      refine this.trans (le_trans ?_ b1)
      norm_num
    have := roundF32_mono this
    rw [roundF32_of_isSingle hs] at this
    exact lt_of_lt_of_le (by norm_num) this
  have hq2 : F32.of (B / P) = .finite (roundF32 (B / P)) := by
    unfold F32.of
    rw [if_neg]
    rw [abs_of_pos hr0, not_le]
    exact lt_of_le_of_lt hr1 (by unfold f32Limit; norm_num)
  have hdiv : (F32.finite B).div (.finite P) = .finite (roundF32 (B / P)) := by
    simp only [F32.div]
    rw [if_neg p0.ne', hq2]
  rw [hdiv]
  obtain ⟨v, hv, h1, h2⟩ := hl _ hr0
  have up : P < B → 0 < v := fun h => h2.2 (quotient_above sp sb p0 h)
  have down : B < P → v < 0 := fun h => h1.2 (quotient_below sb sp b0 h)
  have same : P = B → v = 0 := fun h => by
    rw [← h, div_self p0.ne', roundF32_of_isSingle isSingle_one] at h1 h2
    rcases lt_trichotomy v 0 with h3 | h3 | h3
    · exact absurd (h1.1 h3) (lt_irrefl _)
    · exact h3
    · exact absurd (h2.1 h3) (lt_irrefl _)
  refine ⟨v, hv, fun h => ?_, fun h => ?_, fun h => ?_, fun h => ?_, ?_⟩
  · by_contra hn
    rcases lt_or_eq_of_le (mono (not_lt.1 hn)) with h3 | h3
    · exact lt_asymm h (up h3)
    · rw [same h3] at h; exact lt_irrefl _ h
  · by_contra hn
    rcases lt_or_eq_of_le (mono' (not_lt.1 hn)) with h3 | h3
    · exact lt_asymm h (down h3)
    · rw [same h3.symm] at h; exact lt_irrefl _ h
  · apply down
    refine big hb hp b3 p3 ?_
    have hb0 : 0 < (b : ℚ) := by
      have : 0 < (b : ℚ) / e.scale := lt_of_lt_of_le (by norm_num) hb.1
      exact (div_pos_iff_of_pos_right hS).1 this
    have hp0 : 0 < (p : ℚ) := by
      have : 0 < (p : ℚ) / e.scale := lt_of_lt_of_le (by norm_num) hp.1
      exact (div_pos_iff_of_pos_right hS).1 this
    norm_num at h ⊢
    linarith
  · exact up (big hp hb p3 b3 h)
  · constructor
    · intro h
      rcases lt_trichotomy P B with h3 | h3 | h3
      · have := up h3; linarith
      · exact h3
      · have := down h3; linarith
    · exact same

end Lfest
