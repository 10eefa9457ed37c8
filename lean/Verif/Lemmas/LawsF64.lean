import Verif.Lemmas.VarianceF64

/-!
# Signs in floating point arithmetic
-/

namespace Lfest
open Spec

theorem limit_pos : 0 < f64Limit := by unfold f64Limit; positivity

theorem of_neg (x : ℚ) : F64.of (-x) = (F64.of x).neg := by
  unfold F64.of
  rw [roundF64_neg, abs_neg]
  split
  · next h =>
    have hx : x ≠ 0 := by
      rintro rfl
      rw [roundF64_zero, abs_zero] at h
      exact absurd limit_pos (not_lt.2 h)
    simp only [F64.neg, F64.inf.injEq]
    rcases lt_or_gt_of_ne hx with h | h
    · simp [h, h.le]
    · simp [h, h.le]
  · rfl

theorem neg_neg64 (a : F64) : a.neg.neg = a := by
  cases a <;> simp [F64.neg]

theorem add_neg64 (a b : F64) : a.neg.add b.neg = (a.add b).neg := by
  cases a with
  | finite a =>
    cases b with
    | finite b =>
      show F64.of (-a + -b) = (F64.of (a + b)).neg
      rw [← of_neg]; congr 1; ring
    | inf n => rfl
    | nan => rfl
  | inf m =>
    cases b with
    | finite b => rfl
    | inf n => cases m <;> cases n <;> rfl
    | nan => rfl
  | nan => cases b <;> rfl

theorem sub_neg64 (a b : F64) : a.neg.sub b.neg = (a.sub b).neg := add_neg64 a b.neg

theorem mul_comm64 (a b : F64) : a.mul b = b.mul a := by
  cases a with
  | finite a => cases b <;> simp [F64.mul, mul_comm]
  | inf m => cases b <;> simp [F64.mul]; cases m <;> (rename_i n; cases n <;> rfl)
  | nan => cases b <;> rfl

theorem neg_mul64 (a b : F64) : a.neg.mul b = (a.mul b).neg := by
  have sign : ∀ x : ℚ, x ≠ 0 → decide (-x < 0) = !decide (x < 0) := fun x hx => by
    rcases lt_or_gt_of_ne hx with h | h
    · simp [h, h.le]
    · simp [h, h.le]
  cases a with
  | finite a =>
    cases b with
    | finite b =>
      show F64.of (-a * b) = (F64.of (a * b)).neg
      rw [← of_neg]; congr 1; ring
    | inf n =>
      simp only [F64.neg, F64.mul, neg_eq_zero]
      split
      · rfl
      · next h => simp only [F64.inf.injEq]; rw [sign a h]; cases n <;> simp
    | nan => rfl
  | inf m =>
    cases b with
    | finite b =>
      simp only [F64.neg, F64.mul]
      split
      · rfl
      · simp only [F64.inf.injEq]; cases m <;> simp
    | inf n => cases m <;> cases n <;> rfl
    | nan => rfl
  | nan => cases b <;> rfl

theorem neg_div64 (a b : F64) : a.neg.div b = (a.div b).neg := by
  have sign : ∀ x : ℚ, x ≠ 0 → decide (-x < 0) = !decide (x < 0) := fun x hx => by
    rcases lt_or_gt_of_ne hx with h | h
    · simp [h, h.le]
    · simp [h, h.le]
  cases a with
  | finite a =>
    cases b with
    | finite b =>
      by_cases hb : b = 0
      · simp only [F64.neg, F64.div, neg_eq_zero, if_pos hb]
        split
        · rfl
        · next h => simp only [F64.inf.injEq]; exact sign a h
      · simp only [F64.div, if_neg hb, show (F64.finite a).neg = .finite (-a) from rfl]
        rw [← of_neg]; congr 1; ring
    | inf n => simp [F64.neg, F64.div]
    | nan => rfl
  | inf m =>
    cases b with
    | finite b => simp only [F64.neg, F64.div, F64.inf.injEq]; cases m <;> simp
    | inf n => rfl
    | nan => rfl
  | nan => cases b <;> rfl

theorem neg_mul_neg64 (a b : F64) : a.neg.mul b.neg = a.mul b := by
  rw [neg_mul64, mul_comm64, neg_mul64, neg_neg64, mul_comm64]

theorem sum_neg64 (ws : List F64) : F64.sum (ws.map F64.neg) = (F64.sum ws).neg := by
  induction ws using List.reverseRecOn with
  | nil => simp [F64.sum, F64.neg]
  | append_singleton ws w ih =>
    rw [List.map_append, List.map_cons, List.map_nil, sumF_append, sumF_append, ih, add_neg64]

/-- Not below zero: NaN, plus infinity, or a number that is not negative. -/
def NotNeg : F64 → Prop
  | .finite v => 0 ≤ v
  | .inf n => n = false
  | .nan => True

theorem notNeg_of {x : ℚ} (h : 0 ≤ x) : NotNeg (F64.of x) := by
  unfold F64.of
  split
  · simpa [NotNeg] using h
  · exact roundF64_nonneg h

theorem notNeg_add {a b : F64} (ha : NotNeg a) (hb : NotNeg b) : NotNeg (a.add b) := by
  cases a with
  | finite a =>
    cases b with
    | finite b => exact notNeg_of (add_nonneg ha hb)
    | inf n => exact hb
    | nan => trivial
  | inf m =>
    cases b with
    | finite b => exact ha
    | inf n => cases ha; cases hb; rfl
    | nan => trivial
  | nan => cases b <;> trivial

theorem notNeg_square (a : F64) : NotNeg (a.mul a) := by
  cases a with
  | finite a => exact notNeg_of (mul_self_nonneg a)
  | inf m => cases m <;> rfl
  | nan => trivial

theorem notNeg_sum (ws : List F64) (h : ∀ w ∈ ws, NotNeg w) : NotNeg (F64.sum ws) := by
  induction ws using List.reverseRecOn with
  | nil => exact le_refl (0 : ℚ)
  | append_singleton ws w ih =>
    rw [sumF_append]
    exact notNeg_add (ih fun x hx => h x (by simp [hx])) (h w (by simp))

theorem notNeg_div {a b : F64} (ha : NotNeg a) (hb : NotNeg b) : NotNeg (a.div b) := by
  cases a with
  | finite a =>
    cases b with
    | finite b =>
      simp only [F64.div]
      split
      · split
        · trivial
        · have : ¬ a < 0 := not_lt.2 ha
          simp [NotNeg, this]
      · exact notNeg_of (div_nonneg ha hb)
    | inf n => exact le_refl (0 : ℚ)
    | nan => trivial
  | inf m =>
    cases b with
    | finite b =>
      have : ¬ b < 0 := not_lt.2 hb
      cases ha
      simp only [F64.div, NotNeg]
      simp [this]
    | inf n => trivial
    | nan => trivial
  | nan => cases b <;> trivial

theorem notNeg_variance (vals : List F64) : NotNeg (varianceF64 vals) := by
  apply notNeg_div
  · apply notNeg_sum
    intro w hw
    obtain ⟨v, _, rfl⟩ := List.mem_map.1 hw
    exact notNeg_square _
  · exact notNeg_of (by positivity)

/-- Sums of multiples of one unit are exact while they are small. -/
theorem sum_exact (e : ℤ) (he : -1074 ≤ e) (he2 : e ≤ 900) (ks : List ℤ)
    (h : (ks.map fun k => |k|).sum ≤ 2 ^ 53) :
    F64.sum ((ks.map fun k : ℤ => (k : ℚ) * 2 ^ e).map .finite) = .finite (ks.sum * 2 ^ e) := by
  induction ks using List.reverseRecOn with
  | nil => simp [F64.sum]
  | append_singleton ks k ih =>
    have nn : ∀ l : List ℤ, |l.sum| ≤ (l.map fun k => |k|).sum := fun l => by
      induction l with
      | nil => simp
      | cons a l ih =>
        simp only [List.sum_cons, List.map_cons]
        have := abs_add_le a l.sum
        omega
    have hk := nn (ks ++ [k])
    simp only [List.map_append, List.map_cons, List.map_nil, List.sum_append, List.sum_cons,
      List.sum_nil, add_zero] at h hk ⊢
    have hk0 := abs_nonneg k
    rw [sumF_append, ih (by omega)]
    simp only [F64.add]
    have e1 : (ks.sum : ℚ) * 2 ^ e + k * 2 ^ e = ((ks.sum + k : ℤ) : ℚ) * 2 ^ e := by
      push_cast; ring
    rw [e1, of_finite, roundF64_of_isDouble ⟨ks.sum + k, e, by omega, he, rfl⟩]
    rw [abs_mul, abs_of_pos (show (0 : ℚ) < 2 ^ e by positivity)]
    have a : ((|ks.sum + k| : ℤ) : ℚ) ≤ 2 ^ 53 := by
      have : |ks.sum + k| ≤ 2 ^ 53 := by omega
      exact_mod_cast this
    push_cast at a
    have b : (2 : ℚ) ^ e ≤ 2 ^ 900 := by
      rw [← zpow_natCast]
      exact zpow_le_zpow_right₀ (by norm_num) (by omega)
    push_cast
    exact pow_mul_le a b (by positivity) (by norm_num)

end Lfest
