import Verif.SpecDRatio
import Verif.Lemmas.MomentsF64

/-!
# Signs and errors in the discriminant ratio
-/

namespace Lfest
open Spec

theorem round_pos {x : ℚ} (h : 0 < roundF64 x) : 0 < x := by
  by_contra hc
  have := roundF64_mono (not_lt.1 hc)
  rw [roundF64_zero] at this
  linarith

theorem f64Limit_pos : 0 < f64Limit := by unfold f64Limit; positivity

/-- A rounded number is positive only if the number is. -/
theorem of_more {x : ℚ} (h : MoreThan 0 (F64.of x)) : 0 < x := by
  unfold F64.of at h
  split at h
  · rename_i hl
    simp only [MoreThan, decide_eq_false_iff_not, not_lt] at h
    rcases h.eq_or_lt with rfl | h
    · rw [roundF64_zero, abs_zero] at hl
      exact absurd hl (not_le.2 f64Limit_pos)
    · exact h
  · exact round_pos h

theorem neg_less {x : F64} : LessThan 0 x ↔ MoreThan 0 x.neg := by
  cases x <;> simp [LessThan, MoreThan, F64.neg]

theorem of_negated (x : ℚ) (hx : x ≠ 0) : (F64.of x).neg = F64.of (-x) := by
  unfold F64.of
  rw [roundF64_neg, abs_neg]
  split
  · simp only [F64.neg]
    congr 1
    rcases lt_or_gt_of_ne hx with h | h
    · simp [h, not_lt.2 (by linarith : (0 : ℚ) ≤ -x)]
    · simp [not_lt.2 h.le, h]
  · rfl

theorem of_less {x : ℚ} (h : LessThan 0 (F64.of x)) : x < 0 := by
  by_cases hx : x = 0
  · subst hx
    unfold F64.of at h
    rw [roundF64_zero, abs_zero, if_neg (not_le.2 f64Limit_pos)] at h
    exact absurd h (lt_irrefl _)
  · rw [neg_less, of_negated x hx] at h
    linarith [of_more h]

/-- The larger of two rounded numbers is the larger of the two numbers. -/
theorem sub_more {x y : ℚ} (h : MoreThan 0 ((F64.of x).sub (F64.of y))) : y < x := by
  by_contra hc
  have hm := roundF64_mono (not_lt.1 hc)
  unfold F64.sub at h
  have hf := f64Limit_pos
  unfold F64.of at h
  by_cases hx : f64Limit ≤ |roundF64 x| <;> by_cases hy : f64Limit ≤ |roundF64 y|
  · rw [if_pos hx, if_pos hy] at h
    simp only [F64.neg, F64.add] at h
    split at h
    · simp only [MoreThan, decide_eq_false_iff_not, not_lt] at h
      rename_i e
      have : y < 0 := by
        by_contra hy0
        rw [decide_eq_false (not_lt.2 h), decide_eq_false hy0] at e
        cases e
      linarith
    · exact h
  · rw [if_pos hx, if_neg hy] at h
    simp only [F64.neg, F64.add, MoreThan, decide_eq_false_iff_not, not_lt] at h
    have h0 := roundF64_mono h
    rw [roundF64_zero] at h0
    rw [_root_.abs_of_nonneg h0] at hx
    exact hy ((hx.trans hm).trans (le_abs_self _))
  · rw [if_neg hx, if_pos hy] at h
    simp only [F64.neg, F64.add, MoreThan] at h
    have hy0 : y < 0 := by simpa using h
    have h0 := roundF64_mono hy0.le
    rw [roundF64_zero] at h0
    rw [_root_.abs_of_nonpos h0] at hy
    apply hx
    rw [_root_.abs_of_nonpos (hm.trans h0)]
    linarith
  · rw [if_neg hx, if_neg hy] at h
    have := of_more (x := roundF64 x + -roundF64 y) h
    linarith

theorem sub_less {x y : ℚ} (h : LessThan 0 ((F64.of x).sub (F64.of y))) : x < y := by
  by_contra hc
  have hm := roundF64_mono (not_lt.1 hc)
  unfold F64.sub at h
  have hf := f64Limit_pos
  unfold F64.of at h
  by_cases hx : f64Limit ≤ |roundF64 x| <;> by_cases hy : f64Limit ≤ |roundF64 y|
  · rw [if_pos hx, if_pos hy] at h
    simp only [F64.neg, F64.add] at h
    split at h
    · simp only [LessThan, decide_eq_true_eq] at h
      rename_i e
      have : 0 ≤ y := by
        by_contra hy0
        rw [decide_eq_true h, decide_eq_true (not_le.1 hy0)] at e
        cases e
      linarith
    · exact h
  · rw [if_pos hx, if_neg hy] at h
    simp only [F64.neg, F64.add, LessThan, decide_eq_true_eq] at h
    have h0 := roundF64_mono h.le
    rw [roundF64_zero] at h0
    rw [_root_.abs_of_nonpos h0] at hx
    apply hy
    rw [_root_.abs_of_nonpos (hm.trans h0)]
    linarith
  · rw [if_neg hx, if_pos hy] at h
    simp only [F64.neg, F64.add, LessThan] at h
    have hy0 : 0 ≤ y := by simpa using h
    have h0 := roundF64_mono hy0
    rw [roundF64_zero] at h0
    rw [_root_.abs_of_nonneg h0] at hy
    exact hx ((hy.trans hm).trans (le_abs_self _))
  · rw [if_neg hx, if_neg hy] at h
    have := of_less (x := roundF64 x + -roundF64 y) h
    linarith

/-- Division by something that is not negative keeps the sign. -/
theorem div_more {x y : F64} (h : MoreThan 0 (x.div y.abs)) : MoreThan 0 x := by
  cases x with
  | nan => cases y <;> exact h
  | inf m =>
    cases y with
    | finite v => simpa [F64.div, F64.abs, MoreThan, not_lt.2 (abs_nonneg v)] using h
    | inf n => exact absurd h (by simp [F64.div, F64.abs, MoreThan])
    | nan => exact absurd h (by simp [F64.div, F64.abs, MoreThan])
  | finite u =>
    cases y with
    | finite v =>
      simp only [F64.div, F64.abs] at h
      show 0 < u
      split at h
      · split at h
        · exact absurd h (by simp [MoreThan])
        · simp only [MoreThan, decide_eq_false_iff_not, not_lt] at h
          rename_i hu
          exact lt_of_le_of_ne h (Ne.symm hu)
      · rename_i hv
        have hp : 0 < |v| := lt_of_le_of_ne (abs_nonneg v) (Ne.symm hv)
        have := of_more h
        rwa [div_pos_iff_of_pos_right hp] at this
    | inf n => exact absurd h (by simp [F64.div, F64.abs, MoreThan])
    | nan => exact absurd h (by simp [F64.div, F64.abs, MoreThan])

theorem div_less {x y : F64} (h : LessThan 0 (x.div y.abs)) : LessThan 0 x := by
  cases x with
  | nan => cases y <;> exact h
  | inf m =>
    cases y with
    | finite v => simpa [F64.div, F64.abs, LessThan, not_lt.2 (abs_nonneg v)] using h
    | inf n => exact absurd h (by simp [F64.div, F64.abs, LessThan])
    | nan => exact absurd h (by simp [F64.div, F64.abs, LessThan])
  | finite u =>
    cases y with
    | finite v =>
      simp only [F64.div, F64.abs] at h
      show u < 0
      split at h
      · split at h
        · exact absurd h (by simp [LessThan])
        · simpa [LessThan] using h
      · rename_i hv
        have hp : 0 < |v| := lt_of_le_of_ne (abs_nonneg v) (Ne.symm hv)
        have := of_less h
        rwa [div_lt_iff₀ hp, zero_mul] at this
    | inf n => exact absurd h (by simp [F64.div, F64.abs, LessThan])
    | nan => exact absurd h (by simp [F64.div, F64.abs, LessThan])

theorem roundF64_one : roundF64 1 = 1 := by
  simpa using roundF64_of_isDouble (isDouble_two_pow 0)

theorem one_add_more {x : F64} (h : MoreThan 1 ((F64.finite 1).add x)) : MoreThan 0 x := by
  cases x with
  | nan => exact h
  | inf n => exact h
  | finite v =>
    show 0 < v
    by_contra hc
    have hm := roundF64_mono (show 1 + v ≤ 1 by linarith)
    rw [roundF64_one] at hm
    simp only [F64.add, F64.of] at h
    split at h
    · simp only [MoreThan, decide_eq_false_iff_not, not_lt] at h
      rename_i hl
      have h0 := roundF64_mono h
      rw [roundF64_zero] at h0
      rw [_root_.abs_of_nonneg h0] at hl
      have : (1 : ℚ) < f64Limit := by unfold f64Limit; exact one_lt_pow₀ (by norm_num) (by norm_num)
      linarith
    · have : 1 < roundF64 (1 + v) := h
      linarith

theorem one_add_less {x : F64} (h : LessThan 1 ((F64.finite 1).add x)) : LessThan 0 x := by
  cases x with
  | nan => exact h
  | inf n => exact h
  | finite v =>
    show v < 0
    by_contra hc
    have hm := roundF64_mono (show 1 ≤ 1 + v by linarith)
    rw [roundF64_one] at hm
    simp only [F64.add, F64.of] at h
    split at h
    · simp only [LessThan, decide_eq_true_eq] at h
      linarith
    · have : roundF64 (1 + v) < 1 := h
      linarith

/-- The error of `1 + (a - b) / |b|`. -/
theorem ratio_err {a b : ℚ} (ha : |a| ≤ 2 ^ 100) (hb : 1 / 2 ^ 100 ≤ |b|) (hb2 : |b| ≤ 2 ^ 100) :
    ∃ v, (F64.finite 1).add (((F64.of a).sub (F64.of b)).div (F64.of b).abs) = .finite v ∧
      |v - (1 + (a - b) / |b|)| ≤ 1 / 2 ^ 49 * (1 + |a| / |b|) := by
  have hu : ulp = 1 / 2 ^ 53 := rfl
  have hη0 := eta_pos
  have hη : eta ≤ ulp * (1 / 2 ^ 100) := by
    unfold eta ulp
    rw [show (1 : ℚ) / 2 ^ 53 * (1 / 2 ^ 100) = 2 ^ (-153 : ℤ) by norm_num]
    exact zpow_le_zpow_right₀ (by norm_num) (by norm_num)
  have hu0 := ulp_pos
  have hbig : (2 : ℚ) ^ 100 ≤ 2 ^ 1000 := pow_le_pow_right₀ (by norm_num) (by norm_num)
  have hβ : 0 < |b| := lt_of_lt_of_le (by positivity) hb
  have hηb : eta ≤ ulp * |b| := hη.trans (mul_le_mul_of_nonneg_left hb hu0.le)
  have hα := abs_nonneg a
  have ea := round_err a
  have eb := round_err b
  rw [of_finite (ha.trans hbig), of_finite (hb2.trans hbig)]
  set a' := roundF64 a with ha'
  set b' := roundF64 b with hb'
  set α := |a| with hαd
  set β := |b| with hβd
  have eb2 : |b' - b| ≤ 2 * ulp * β := by linarith
  have hbb : |(|b'| - β)| ≤ 2 * ulp * β := (abs_abs_sub_abs_le _ _).trans eb2
  have hb'lo : (1 - 2 * ulp) * β ≤ |b'| := by linarith [(abs_le.1 hbb).1]
  have hb'p : 0 < |b'| := lt_of_lt_of_le (mul_pos (by rw [hu]; norm_num) hβ) hb'lo
  have hz0 : |(a' + -b') - (a - b)| ≤ ulp * α + 3 * ulp * β := by
    have := abs_sub (a' - a) (b' - b)
    rw [show (a' + -b') - (a - b) = (a' - a) - (b' - b) by ring]
    refine this.trans ?_
    linarith
  have hab : |a - b| ≤ α + β := abs_sub a b
  have hz1 : |a' + -b'| ≤ 2 * (α + β) := by
    have := abs_sub_abs_le_abs_sub (a' + -b') (a - b)
    have h1 : ulp * α ≤ α := by rw [hu]; linarith
    have h2 : 3 * ulp * β ≤ β := by rw [hu]; linarith
    have h3 : ulp * α + 3 * ulp * β ≤ α + β := by linarith
    linarith
  have hT : α + β ≤ 2 ^ 101 := by
    have : (2 : ℚ) ^ 101 = 2 ^ 100 + 2 ^ 100 := by norm_num
    linarith
  have hzf : |a' + -b'| ≤ 2 ^ 1000 := by
    refine hz1.trans ?_
    have h1 : (2 : ℚ) * 2 ^ 101 ≤ 2 ^ 1000 := by
      rw [← pow_succ']; exact pow_le_pow_right₀ (by norm_num) (by norm_num)
    exact (mul_le_mul_of_nonneg_left hT (by norm_num)).trans h1
  have ez := round_err (a' + -b')
  simp only [F64.sub, F64.neg, F64.add]
  rw [of_finite hzf]
  set z' := roundF64 (a' + -b') with hz'
  have hz2 : |z' - (a - b)| ≤ 6 * ulp * (α + β) := by
    have := abs_add_le (z' - (a' + -b')) ((a' + -b') - (a - b))
    rw [show z' - (a' + -b') + ((a' + -b') - (a - b)) = z' - (a - b) by ring] at this
    have h1 : ulp * |a' + -b'| ≤ ulp * (2 * (α + β)) := mul_le_mul_of_nonneg_left hz1 hu0.le
    have h2 : 0 ≤ ulp * α := mul_nonneg hu0.le hα
    linarith
  simp only [F64.abs, F64.div]
  rw [if_neg hb'p.ne']
  set ρ := 1 + α / β with hρ
  have hρ1 : 1 ≤ ρ := by
    have : 0 ≤ α / β := div_nonneg hα hβ.le
    linarith
  have hρT : (α + β) = ρ * β := by rw [hρ]; field_simp; ring
  have hw : |z' / |b'| - (a - b) / β| ≤ 9 * ulp * ρ := by
    have e : z' / |b'| - (a - b) / β
        = ((z' - (a - b)) * β - (a - b) * (|b'| - β)) / (|b'| * β) := by
      field_simp
      ring
    rw [e, abs_div, _root_.abs_of_pos (mul_pos hb'p hβ), div_le_iff₀ (mul_pos hb'p hβ)]
    have h1 := abs_sub ((z' - (a - b)) * β) ((a - b) * (|b'| - β))
    rw [abs_mul, abs_mul, _root_.abs_of_pos hβ] at h1
    have h2 : |z' - (a - b)| * β ≤ 6 * ulp * (ρ * β) * β := by
      rw [← hρT]; exact mul_le_mul_of_nonneg_right hz2 hβ.le
    have h3 : |a - b| * |(|b'| - β)| ≤ (ρ * β) * (2 * ulp * β) := by
      rw [← hρT]
      exact mul_le_mul hab hbb (abs_nonneg _) (by linarith)
    have h4 : 9 * ulp * ρ * ((1 - 2 * ulp) * β * β) ≤ 9 * ulp * ρ * (|b'| * β) := by
      apply mul_le_mul_of_nonneg_left _ (by positivity)
      exact mul_le_mul_of_nonneg_right hb'lo hβ.le
    have h5 : 8 * ulp * (ρ * β * β) ≤ 9 * ulp * ρ * ((1 - 2 * ulp) * β * β) := by
      have : 0 ≤ ulp * (ρ * β * β) := by positivity
      have h6 : 8 * ulp * (ρ * β * β) = 8 * (ulp * (ρ * β * β)) := by ring
      have h7 : 9 * ulp * ρ * ((1 - 2 * ulp) * β * β)
          = (9 * (1 - 2 * ulp)) * (ulp * (ρ * β * β)) := by ring
      rw [h6, h7]
      apply mul_le_mul_of_nonneg_right _ this
      rw [hu]; norm_num
    have h8 : 6 * ulp * (ρ * β) * β + (ρ * β) * (2 * ulp * β) = 8 * ulp * (ρ * β * β) := by ring
    linarith
  have hq : |(a - b) / β| ≤ ρ := by
    rw [abs_div, _root_.abs_of_pos hβ, div_le_iff₀ hβ, ← hρT]
    exact hab
  have hwb : |(z' / |b'|)| ≤ 2 * ρ := by
    have := abs_sub_abs_le_abs_sub (z' / |b'|) ((a - b) / β)
    have h1 : 9 * ulp * ρ ≤ ρ := by rw [hu]; linarith
    linarith
  have hρf : ρ ≤ 2 ^ 201 := by
    have h1 : α / β ≤ 2 ^ 200 := by
      rw [div_le_iff₀ hβ]
      have : (2 : ℚ) ^ 200 * (1 / 2 ^ 100) ≤ 2 ^ 200 * β :=
        mul_le_mul_of_nonneg_left hb (by positivity)
      have e : (2 : ℚ) ^ 200 * (1 / 2 ^ 100) = 2 ^ 100 := by norm_num
      linarith
    have : (2 : ℚ) ^ 201 = 2 ^ 200 + 2 ^ 200 := by norm_num
    have h2 : (1 : ℚ) ≤ 2 ^ 200 := one_le_pow₀ (by norm_num)
    linarith
  have hwf : |(z' / |b'|)| ≤ 2 ^ 1000 := by
    refine hwb.trans ?_
    have h1 : (2 : ℚ) * 2 ^ 201 ≤ 2 ^ 1000 := by
      rw [← pow_succ']; exact pow_le_pow_right₀ (by norm_num) (by norm_num)
    exact (mul_le_mul_of_nonneg_left hρf (by norm_num)).trans h1
  rw [of_finite hwf]
  have ew := round_err (z' / |b'|)
  set w := z' / |b'| with hwd
  set w' := roundF64 w with hw'
  have hηρ : eta ≤ ulp * ρ := by
    refine hη.trans (mul_le_mul_of_nonneg_left ?_ hu0.le)
    have : (1 : ℚ) / 2 ^ 100 ≤ 1 := by norm_num
    linarith
  have ew2 : |w' - w| ≤ 2 * ulp * ρ + eta := by
    have : ulp * |w| ≤ ulp * (2 * ρ) := mul_le_mul_of_nonneg_left hwb hu0.le
    linarith
  have hw3 : |1 + w'| ≤ 1 + 2 * ρ + (2 * ulp * ρ + eta) := by
    have h1 := abs_add_le 1 w'
    rw [abs_one] at h1
    have := abs_sub_abs_le_abs_sub w' w
    linarith
  have hfin : |1 + w'| ≤ 4 * ρ := by
    have h1 : 2 * ulp * ρ + eta ≤ ρ := by
      have : 3 * ulp * ρ ≤ ρ := by rw [hu]; linarith
      linarith
    linarith
  have hff : |1 + w'| ≤ 2 ^ 1000 := by
    refine hfin.trans ?_
    have h1 : (4 : ℚ) * 2 ^ 201 ≤ 2 ^ 1000 := by
      rw [show (4 : ℚ) = 2 ^ 2 by norm_num, ← pow_add]
      exact pow_le_pow_right₀ (by norm_num) (by norm_num)
    exact (mul_le_mul_of_nonneg_left hρf (by norm_num)).trans h1
  refine ⟨roundF64 (1 + w'), of_finite hff, ?_⟩
  have ef := round_err (1 + w')
  have h1 : ulp * |1 + w'| ≤ ulp * (1 + 2 * ρ + (2 * ulp * ρ + eta)) :=
    mul_le_mul_of_nonneg_left hw3 hu0.le
  have h2 := abs_add_le (roundF64 (1 + w') - (1 + w')) ((w' - w) + (w - (a - b) / β))
  have h3 := abs_add_le (w' - w) (w - (a - b) / β)
  rw [show roundF64 (1 + w') - (1 + w') + ((w' - w) + (w - (a - b) / β))
    = roundF64 (1 + w') - (1 + (a - b) / β) by ring] at h2
  have h4 : eta ≤ ulp * (1 / 2 ^ 100) * ρ := by
    refine hη.trans ?_
    have : 0 ≤ ulp * (1 / 2 ^ 100) := by positivity
    exact le_mul_of_one_le_right this hρ1
  have h5 : ulp * (1 + 2 * ρ + (2 * ulp * ρ + eta)) ≤ ulp * (4 * ρ) := by
    apply mul_le_mul_of_nonneg_left _ hu0.le
    have : 3 * ulp * ρ ≤ ρ := by rw [hu]; linarith
    linarith
  have e16 : 1 / 2 ^ 49 * ρ = 16 * ulp * ρ := by rw [hu]; norm_num
  rw [e16]
  have h6 : ulp * (1 / 2 ^ 100) * ρ ≤ ulp * (1 / 4) * ρ := by
    apply mul_le_mul_of_nonneg_right _ (by linarith)
    exact mul_le_mul_of_nonneg_left (by norm_num) hu0.le
  have h7 : 0 ≤ ulp * ρ := by positivity
  linarith

end Lfest
