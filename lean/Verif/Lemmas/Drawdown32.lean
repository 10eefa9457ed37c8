import Verif.SpecDrawdown32
import Verif.Props.Drawdown
import Verif.Lemmas.Stats32

/-! Helper lemmas for C121. -/

namespace Lfest
open Spec

/-- The largest of the amounts. -/
def maxOf : List Int → Int
  | [] => 0
  | x :: xs => xs.foldl max x

theorem foldl_max_map {f : Int → ℚ} (hf : Monotone f) : ∀ (xs : List Int) (x : Int),
    (xs.map f).foldl max (f x) = f (xs.foldl max x)
  | [], _ => rfl
  | y :: ys, x => by
    simp only [List.map_cons, List.foldl_cons]
    rw [← hf.map_max]
    exact foldl_max_map hf ys (max x y)

theorem peak_map {f : Int → ℚ} (hf : Monotone f) {xs : List Int} (h : xs ≠ []) :
    peak (xs.map f) = f (maxOf xs) := by
  cases xs with
  | nil => exact absurd rfl h
  | cons x xs => exact foldl_max_map hf xs x

theorem maxOf_mem : ∀ {xs : List Int}, xs ≠ [] → maxOf xs ∈ xs := by
  have : ∀ (xs : List Int) (x : Int), xs.foldl max x = x ∨ xs.foldl max x ∈ xs := by
    intro xs
    induction xs with
    | nil => intro x; exact .inl rfl
    | cons y ys ih =>
      intro x
      simp only [List.foldl_cons, List.mem_cons]
      rcases ih (max x y) with h | h
      · rcases max_choice x y with h2 | h2
        · left; rw [h, h2]
        · right; left; rw [h, h2]
      · exact .inr (.inr h)
  intro xs h
  cases xs with
  | nil => exact absurd rfl h
  | cons x xs =>
    simp only [maxOf, List.mem_cons]
    exact this xs x

theorem le_maxOf : ∀ {xs : List Int} {y : Int}, y ∈ xs → y ≤ maxOf xs := by
  intro xs y hy
  cases xs with
  | nil => cases hy
  | cons x xs =>
    simp only [List.mem_cons] at hy
    rcases hy with rfl | hy
    · exact le_foldl_max.1
    · exact le_foldl_max.2 y hy

/-- A result far below one is off by far less. -/
theorem round_small (x : ℚ) : |roundF32 x - x| ≤ max |x| (2 ^ (-126 : ℤ)) / 2 ^ 24 := by
  rcases le_or_gt (2 ^ (-126 : ℤ)) |x| with h | h
  · rw [max_eq_left h]; exact roundF32_rel h
  · rw [max_eq_right h.le]
    by_cases h0 : x = 0
    · rw [h0, roundF32_zero, sub_self, abs_zero]; positivity
    refine (roundF32_error x).trans ?_
    have hl : f32Step x = 2 ^ (-149 : ℤ) := by
      unfold f32Step
      rw [max_eq_right]
      · norm_num
      · have : Int.log 2 |x| < -126 := by
          rw [← Int.lt_zpow_iff_log_lt (by norm_num) (abs_pos.2 h0)]
          simpa only [Nat.cast_ofNat] using h
        exact this.le
    rw [hl]
    norm_num

/-- One fall: it is a number from zero to one, and off by at most `2^-21`. -/
theorem fall_error {e : Env} {toF64 : Int → ℚ} (hc : Converts e toF64) {p x : Int} (hp : Sane e p)
    (hx : Sane e x) (h : x ≤ p) :
    ∃ v, ((F32.finite (roundF32 (toF64 p))).sub (.finite (roundF32 (toF64 x)))).div
        (.finite (roundF32 (toF64 p))) = .finite v ∧ 0 ≤ v ∧ v ≤ 1 ∧
      (roundF32 (toF64 x) = roundF32 (toF64 p) → v = 0) ∧
      |v - ((p : ℚ) / e.scale - x / e.scale) / (p / e.scale)| ≤ 1 / 2 ^ 21 := by
  obtain ⟨_, p0, p1, p2, p3⟩ := single_of hc hp
  obtain ⟨_, x0, x1, x2, x3⟩ := single_of hc hx
  have hgx := roundF32_mono (hc.1 _ _ h)
  have hP : 0 < (p : ℚ) / e.scale := lt_of_lt_of_le (by norm_num) hp.1
  have hX : 0 < (x : ℚ) / e.scale := lt_of_lt_of_le (by norm_num) hx.1
  have hS : (0 : ℚ) < e.scale := by exact_mod_cast scale_pos e
  have hXP : (x : ℚ) / e.scale ≤ p / e.scale :=
    div_le_div_of_nonneg_right (by exact_mod_cast h) hS.le
  have sp := roundF32_isSingle (toF64 p)
  generalize roundF32 (toF64 p) = P at *
  generalize roundF32 (toF64 x) = X at *
  generalize (p : ℚ) / e.scale = A at *
  generalize (x : ℚ) / e.scale = B at *
  -- the difference
  have d0 : 0 ≤ P - X := by linarith
  have hd0 := roundF32_nonneg d0
  have hd1 : roundF32 (P - X) ≤ P := by
    have := roundF32_mono (show P - X ≤ P by linarith)
    rwa [roundF32_of_isSingle sp] at this
  have hd2 := round_small (P - X)
  have hm : max |P - X| (2 ^ (-126 : ℤ)) ≤ P := by
    refine max_le ?_ ?_
    · rw [abs_of_nonneg d0]; linarith
    · have := tiny32 p1
      rwa [_root_.abs_of_pos p0] at this
  have hsub : (F32.finite P).sub (.finite X) = .finite (roundF32 (P - X)) := by
    simp only [F32.sub, F32.neg, F32.add]
    rw [← sub_eq_add_neg]
    exact F32.of_finite d0 (by
      have : (2 : ℚ) ^ 63 ≤ 2 ^ 64 := by norm_num
      linarith)
  have hz : X = P → roundF32 (P - X) = 0 := by
    intro hh; rw [hh, sub_self, roundF32_zero]
  generalize roundF32 (P - X) = D at *
  -- the quotient
  have q0 : 0 ≤ D / P := div_nonneg hd0 p0.le
  have q1 : D / P ≤ 1 := (div_le_one p0).2 hd1
  have hq := round_small (D / P)
  have hqm : max |D / P| (2 ^ (-126 : ℤ)) ≤ 1 := by
    refine max_le ?_ (by norm_num)
    rw [abs_of_nonneg q0]; exact q1
  refine ⟨roundF32 (D / P), ?_, roundF32_nonneg q0, roundF32_le_one q1, fun hh => ?_, ?_⟩
  · rw [hsub]
    simp only [F32.div]
    rw [if_neg p0.ne']
    exact F32.of_finite q0 (q1.trans (by norm_num))
  · rw [hz hh, zero_div, roundF32_zero]
  · have e1 : |roundF32 (D / P) - D / P| ≤ 1 / 2 ^ 24 :=
      hq.trans (div_le_div_of_nonneg_right hqm (by norm_num))
    have e2 : |D / P - (P - X) / P| ≤ 1 / 2 ^ 24 := by
      rw [← sub_div, abs_div, _root_.abs_of_pos p0, div_le_iff₀ p0]
      refine hd2.trans ?_
      rw [div_le_iff₀ (by norm_num)]
      refine hm.trans (le_of_eq ?_)
      ring
    have e3 : |(P - X) / P - (A - B) / A| ≤ 1 / 2 ^ 22 := by
      have : (P - X) / P - (A - B) / A = ((P - A) * B - (X - B) * A) / (P * A) := by
        field_simp; ring
      rw [this, abs_div, _root_.abs_of_pos (mul_pos p0 hP), div_le_iff₀ (mul_pos p0 hP)]
      have i1 : |(P - A) * B - (X - B) * A| ≤ A * (9 / 2 ^ 27) * B + B * (9 / 2 ^ 27) * A := by
        refine (abs_sub _ _).trans ?_
        rw [abs_mul, abs_mul, _root_.abs_of_pos hX, _root_.abs_of_pos hP]
        exact add_le_add (mul_le_mul_of_nonneg_right p3 hX.le) (mul_le_mul_of_nonneg_right x3 hP.le)
      refine i1.trans ?_
      have i2 : A * (1 - 9 / 2 ^ 27) ≤ P := by
        have := (abs_le.1 p3).1
        linarith
      have i3 : A * (1 - 9 / 2 ^ 27) * A ≤ P * A := mul_le_mul_of_nonneg_right i2 hP.le
      have i4 : A * B ≤ A * A := mul_le_mul_of_nonneg_left hXP hP.le
      norm_num at i3 ⊢
      nlinarith [mul_pos hP hP]
    have t1 := abs_sub_le (roundF32 (D / P)) (D / P) ((A - B) / A)
    have t2 := abs_sub_le (D / P) ((P - X) / P) ((A - B) / A)
    norm_num at *
    linarith

end Lfest
