import Verif.Lemmas.Sample32
import Verif.Model.Stats32

/-! # Welford's recurrence in single precision -/

namespace Lfest
open Spec

theorem f32Step_neg (x : ℚ) : f32Step (-x) = f32Step x := by unfold f32Step; rw [abs_neg]

theorem roundF32_neg (x : ℚ) : roundF32 (-x) = -roundF32 x := by
  unfold roundF32
  rw [f32Step_neg, neg_div, nearestEven_neg]
  push_cast; ring

theorem IsSingle.neg {x : ℚ} (h : IsSingle x) : IsSingle (-x) := by
  obtain ⟨m, e, hm, he, rfl⟩ := h
  exact ⟨-m, e, by rwa [abs_neg], he, by push_cast; ring⟩

theorem isSingle_zero : IsSingle 0 := ⟨0, 0, by norm_num, by norm_num, by norm_num⟩

/-- Singles are multiples of the smallest one. -/
theorem single_multiple {x : ℚ} (h : IsSingle x) : ∃ k : ℤ, x = k * 2 ^ (-149 : ℤ) := by
  obtain ⟨m, e, _, he, rfl⟩ := h
  obtain ⟨n, hn⟩ := Int.eq_ofNat_of_zero_le (show 0 ≤ e + 149 by omega)
  refine ⟨m * 2 ^ n, ?_⟩
  have : (2 : ℚ) ^ e = 2 ^ n * 2 ^ (-149 : ℤ) := by
    rw [← zpow_natCast, ← zpow_add₀ (by norm_num)]
    congr 1; omega
  rw [this]; push_cast; ring

/-- Small differences are exact. -/
theorem single_difference {a b : ℚ} (ha : IsSingle a) (hb : IsSingle b)
    (h : |b - a| ≤ 2 ^ (-126 : ℤ)) : IsSingle (b - a) := by
  obtain ⟨k, hk⟩ := single_multiple ha
  obtain ⟨l, hl⟩ := single_multiple hb
  have e : b - a = (l - k : ℤ) * 2 ^ (-149 : ℤ) := by rw [hk, hl]; push_cast; ring
  refine ⟨l - k, -149, ?_, le_refl _, e⟩
  rw [e, abs_mul, abs_of_pos (show (0 : ℚ) < 2 ^ (-149 : ℤ) by positivity)] at h
  have h2 : |((l - k : ℤ) : ℚ)| ≤ 2 ^ 23 := by
    have e2 : (2 : ℚ) ^ (-126 : ℤ) = 2 ^ 23 * 2 ^ (-149 : ℤ) := by norm_num
    rw [e2] at h
    exact le_of_mul_le_mul_right h (by positivity)
  have h3 : ((|l - k| : ℤ) : ℚ) ≤ ((2 ^ 23 : ℤ) : ℚ) := by rw [Int.cast_abs]; exact_mod_cast h2
  have h4 : |l - k| ≤ 2 ^ 23 := by exact_mod_cast h3
  omega

/-- Half of a difference, or less, is not rounded beyond the difference. -/
theorem half_difference {a b k : ℚ} (ha : IsSingle a) (hb : IsSingle b) (h : a ≤ b) (hk : 2 ≤ k) :
    roundF32 (roundF32 (b - a) / k) ≤ b - a := by
  have hd0 : 0 ≤ b - a := sub_nonneg.2 h
  have hr0 := roundF32_nonneg hd0
  have hk0 : 0 < k := by linarith
  have h1 : roundF32 (b - a) / k ≤ roundF32 (b - a) / 2 := by
    rw [div_le_div_iff₀ hk0 (by norm_num)]
    exact mul_le_mul_of_nonneg_left hk hr0
  have h2 := roundF32_mono h1
  refine h2.trans ?_
  rcases le_or_gt (b - a) (2 ^ (-126 : ℤ)) with hs | hs
  · have hS := single_difference ha hb (by rwa [abs_of_nonneg hd0])
    rw [roundF32_of_isSingle hS]
    have : roundF32 ((b - a) / 2) ≤ roundF32 (b - a) := roundF32_mono (by linarith)
    rwa [roundF32_of_isSingle hS] at this
  · have e1 := roundF32_rel (x := b - a) (by rw [abs_of_nonneg hd0]; exact hs.le)
    rw [abs_of_nonneg hd0] at e1
    have e2 := (abs_le.1 e1).2
    rcases le_or_gt (roundF32 (b - a) / 2) (2 ^ (-126 : ℤ)) with ht | ht
    · have : IsSingle (2 ^ (-126 : ℤ)) := ⟨1, -126, by norm_num, by norm_num, by norm_num⟩
      have h3 := roundF32_mono ht
      rw [roundF32_of_isSingle this] at h3
      exact h3.trans hs.le
    · have e3 := roundF32_rel (x := roundF32 (b - a) / 2)
        (by rw [abs_of_nonneg (by linarith)]; exact ht.le)
      rw [abs_of_nonneg (show 0 ≤ roundF32 (b - a) / 2 by linarith)] at e3
      have e4 := (abs_le.1 e3).2
      generalize roundF32 (roundF32 (b - a) / 2) = z at *
      generalize roundF32 (b - a) = y at *
      norm_num at e2 e4
      linarith

/-- The new mean lies between the old one and the new value. -/
theorem mean_between {m x k : ℚ} (hm : IsSingle m) (hx : IsSingle x) (hk : 2 ≤ k) :
    (m ≤ x → m ≤ roundF32 (m + roundF32 (roundF32 (x - m) / k)) ∧
      roundF32 (m + roundF32 (roundF32 (x - m) / k)) ≤ x) ∧
    (x ≤ m → x ≤ roundF32 (m + roundF32 (roundF32 (x - m) / k)) ∧
      roundF32 (m + roundF32 (roundF32 (x - m) / k)) ≤ m) := by
  have hk0 : 0 < k := by linarith
  constructor
  · intro h
    have h1 := half_difference hm hx h hk
    have h2 : 0 ≤ roundF32 (roundF32 (x - m) / k) :=
      roundF32_nonneg (div_nonneg (roundF32_nonneg (by linarith)) hk0.le)
    have h3 := roundF32_mono (show m ≤ m + roundF32 (roundF32 (x - m) / k) by linarith)
    have h4 := roundF32_mono (show m + roundF32 (roundF32 (x - m) / k) ≤ x by linarith)
    rw [roundF32_of_isSingle hm] at h3
    rw [roundF32_of_isSingle hx] at h4
    exact ⟨h3, h4⟩
  · intro h
    have h1 := half_difference hx hm h hk
    have e : roundF32 (roundF32 (x - m) / k) = -roundF32 (roundF32 (m - x) / k) := by
      rw [← neg_sub m x, roundF32_neg, neg_div, roundF32_neg]
    have h2 : 0 ≤ roundF32 (roundF32 (m - x) / k) :=
      roundF32_nonneg (div_nonneg (roundF32_nonneg (by linarith)) hk0.le)
    rw [e]
    have h3 := roundF32_mono (show m + -roundF32 (roundF32 (m - x) / k) ≤ m by linarith)
    have h4 := roundF32_mono (show x ≤ m + -roundF32 (roundF32 (m - x) / k) by linarith)
    rw [roundF32_of_isSingle hm] at h3
    rw [roundF32_of_isSingle hx] at h4
    exact ⟨h4, h3⟩

/-- A large sum stops growing. -/
theorem sum_stops {s p : ℚ} (hs : s ≤ 2 ^ 41) (hp : p ≤ 2 ^ 16) : roundF32 (s + p) ≤ 2 ^ 41 := by
  refine (roundF32_mono (show s + p ≤ 2 ^ 41 + 2 ^ 16 by linarith)).trans ?_
  by_contra hn
  rw [not_le] at hn
  have hb := (roundF32_nearest (2 ^ 41 + 2 ^ 16)).2 (2 ^ 41) (isSingle_two_pow 41)
  obtain ⟨m, e, hm, he, hw⟩ := roundF32_isSingle (2 ^ 41 + 2 ^ 16)
  rw [hw] at hn hb
  have he2 : 18 ≤ e := by
    by_contra h
    have h1 : (2 : ℚ) ^ e ≤ 2 ^ (17 : ℤ) := zpow_le_zpow_right₀ (by norm_num) (by omega)
    have h2 : (m : ℚ) ≤ 2 ^ 24 := by
      have : m ≤ 2 ^ 24 := (le_abs_self m).trans hm
      exact_mod_cast this
    have h3 : (m : ℚ) * 2 ^ e ≤ 2 ^ 24 * 2 ^ (17 : ℤ) :=
      mul_le_mul h2 h1 (by positivity) (by norm_num)
    have h4 : (2 : ℚ) ^ 24 * 2 ^ (17 : ℤ) = 2 ^ 41 := by norm_num
    linarith
  obtain ⟨n, hn2⟩ := Int.eq_ofNat_of_zero_le (show 0 ≤ e - 18 by omega)
  have e1 : (2 : ℚ) ^ e = 2 ^ n * 2 ^ 18 := by
    rw [show e = (n : ℤ) + 18 by omega, zpow_add₀ (by norm_num), zpow_natCast]
    norm_num
  have e2 : (m : ℚ) * 2 ^ e = ((m * 2 ^ n : ℤ) : ℚ) * 2 ^ 18 := by
    rw [e1]; push_cast; ring
  rw [e2] at hn hb
  have h5 : (2 ^ 23 : ℤ) < m * 2 ^ n := by
    have h6 : ((2 ^ 23 : ℤ) : ℚ) * 2 ^ 18 < ((m * 2 ^ n : ℤ) : ℚ) * 2 ^ 18 := by
      refine lt_of_eq_of_lt ?_ hn
      norm_num
    have := lt_of_mul_lt_mul_right h6 (by norm_num)
    exact_mod_cast this
  have h7 : (2 ^ 23 + 1 : ℚ) ≤ ((m * 2 ^ n : ℤ) : ℚ) := by
    have : (2 ^ 23 + 1 : ℤ) ≤ m * 2 ^ n := h5
    exact_mod_cast this
  generalize ((m * 2 ^ n : ℤ) : ℚ) = y at *
  rw [abs_of_nonneg (by linarith), abs_of_nonpos (by linarith)] at hb
  norm_num at hb h7
  linarith

/-! ## Finite values stay finite -/

theorem roundF32_abs_le {x : ℚ} (n : ℕ) (h : |x| ≤ 2 ^ n) : |roundF32 x| ≤ 2 ^ n := by
  obtain ⟨h1, h2⟩ := abs_le.1 h
  have h3 := roundF32_le_pow n h2
  have h4 := roundF32_le_pow (x := -x) n (by linarith)
  rw [roundF32_neg] at h4
  exact abs_le.2 ⟨by linarith, h3⟩

theorem F32.of_small {x : ℚ} (n : ℕ) (hn : n ≤ 64) (h : |x| ≤ 2 ^ n) :
    F32.of x = .finite (roundF32 x) := by
  have h1 := roundF32_abs_le n h
  unfold F32.of
  rw [if_neg]
  rw [not_le]
  have h2 : (2 : ℚ) ^ n ≤ 2 ^ 64 := pow_le_pow_right₀ (by norm_num) hn
  exact lt_of_le_of_lt (h1.trans h2) (by unfold f32Limit; norm_num)

theorem sub_small {x y : ℚ} (n : ℕ) (hn : n ≤ 64) (h : |x - y| ≤ 2 ^ n) :
    (F32.finite x).sub (.finite y) = .finite (roundF32 (x - y)) := by
  simp only [F32.sub, F32.neg, F32.add, ← sub_eq_add_neg]
  exact F32.of_small n hn h

/-- One step of the recurrence, all of whose intermediate results are finite. -/
theorem update_finite {n : ℕ} {m s x : ℚ} (hn : n + 1 ≤ 2 ^ 64) (hm : |m| ≤ 2 ^ 7)
    (hx : |x| ≤ 2 ^ 7) (hs : |s| ≤ 2 ^ 41) :
    let m' := roundF32 (m + roundF32 (roundF32 (x - m) / roundF32 (n + 1 : ℕ)))
    Welford32.update ⟨n, .finite m, .finite s⟩ (.finite x) =
      ⟨n + 1, .finite m', .finite (roundF32 (s + roundF32 (roundF32 (x - m) * roundF32 (x - m'))))⟩ ∧
    |roundF32 (x - m)| ≤ 2 ^ 8 ∧ 1 ≤ roundF32 (n + 1 : ℕ) := by
  intro m'
  have d1 : |x - m| ≤ 2 ^ 8 := (abs_sub _ _).trans (by linarith)
  have d2 := roundF32_abs_le 8 d1
  have k1 : 1 ≤ roundF32 (n + 1 : ℕ) := roundF32_one_le (by push_cast; linarith [Nat.cast_nonneg (α := ℚ) n])
  have k2 : |((n + 1 : ℕ) : ℚ)| ≤ 2 ^ 64 := by
    rw [Nat.abs_cast]; exact_mod_cast hn
  have k0 : 0 < roundF32 (n + 1 : ℕ) := by linarith
  have q1 : |roundF32 (x - m) / roundF32 (n + 1 : ℕ)| ≤ 2 ^ 8 := by
    rw [abs_div, abs_of_pos k0, div_le_iff₀ k0]
    nlinarith
  have q2 := roundF32_abs_le 8 q1
  have m1 : |m + roundF32 (roundF32 (x - m) / roundF32 (n + 1 : ℕ))| ≤ 2 ^ 9 :=
    (abs_add_le _ _).trans (by linarith)
  have m2 : |m'| ≤ 2 ^ 9 := roundF32_abs_le 9 m1
  have e1 : |x - m'| ≤ 2 ^ 10 := (abs_sub _ _).trans (by linarith)
  have e2 := roundF32_abs_le 10 e1
  have p1 : |roundF32 (x - m) * roundF32 (x - m')| ≤ 2 ^ 18 := by
    rw [abs_mul]
    refine (mul_le_mul d2 e2 (abs_nonneg _) (by norm_num)).trans (by norm_num)
  have p2 := roundF32_abs_le 18 p1
  have s1 : |s + roundF32 (roundF32 (x - m) * roundF32 (x - m'))| ≤ 2 ^ 42 :=
    (abs_add_le _ _).trans (by linarith)
  refine ⟨?_, d2, k1⟩
  have hsub := sub_small (x := x) (y := m) 8 (by norm_num) d1
  have hmean : (F32.finite m).add ((F32.finite (roundF32 (x - m))).div (.of (n + 1 : ℕ))) =
      .finite m' := by
    rw [F32.of_small 64 (le_refl _) k2]
    simp only [F32.div, if_neg k0.ne']
    rw [F32.of_small 8 (by norm_num) q1]
    simp only [F32.add]
    rw [F32.of_small 9 (by norm_num) m1]
  have hsub' := sub_small (x := x) (y := m') 10 (by norm_num) e1
  simp only [Welford32.update, hsub, hmean, hsub', F32.mul]
  rw [F32.of_small 18 (by norm_num) p1]
  simp only [F32.add]
  rw [F32.of_small 42 (by norm_num) s1]

/-- Mean and sum of squares of a list of returns: finite, the mean between the least and the
greatest return, the sum of squares not negative, and zero if all are the same. -/
theorem welford32 (xs : List ℚ) (h : ∀ v ∈ xs, IsSingle v ∧ |v| ≤ 2 ^ 7) (hl : xs.length ≤ 2 ^ 64) :
    ∃ m s, Welford32.ofList (xs.map .finite) = ⟨xs.length, .finite m, .finite s⟩ ∧ IsSingle m ∧
      |m| ≤ 2 ^ 7 ∧ 0 ≤ s ∧ s ≤ 2 ^ 41 ∧ (xs = [] → m = 0 ∧ s = 0) ∧
      (xs ≠ [] → ∀ lo hi, (∀ v ∈ xs, lo ≤ v ∧ v ≤ hi) → lo ≤ m ∧ m ≤ hi) ∧
      (∀ v, (∀ x ∈ xs, x = v) → s = 0) := by
  induction xs with
  | nil =>
    exact ⟨0, 0, rfl, isSingle_zero, by norm_num, le_refl _, by norm_num, fun _ => ⟨rfl, rfl⟩,
      fun h => absurd rfl h, fun _ _ => rfl⟩
  | cons x xs ih =>
    obtain ⟨m, s, e, sm, bm, s0, s1, hnil, hbet, heq⟩ :=
      ih (fun v hv => h v (List.mem_cons_of_mem _ hv)) (by simp only [List.length_cons] at hl; omega)
    obtain ⟨sx, bx⟩ := h x List.mem_cons_self
    have hn : xs.length + 1 ≤ 2 ^ 64 := by simpa using hl
    obtain ⟨hu, d2, k1⟩ := update_finite (n := xs.length) (m := m) (s := s) (x := x) hn bm bx
      (by rw [abs_of_nonneg s0]; exact s1)
    simp only [List.map_cons, Welford32.ofList, e, hu, List.length_cons, Welford32.mk.injEq, true_and,
      F32.finite.injEq]
    refine ⟨_, _, ⟨rfl, rfl⟩, roundF32_isSingle _, ?_⟩
    by_cases hx : xs = []
    · obtain ⟨rfl, rfl⟩ := hnil hx
      subst hx
      have e1 : roundF32 ((0 + 1 : ℕ) : ℚ) = 1 := by
        rw [show ((0 + 1 : ℕ) : ℚ) = 1 by norm_num, roundF32_of_isSingle isSingle_one]
      simp only [List.length_nil, e1, sub_zero, div_one, zero_add, roundF32_of_isSingle sx, sub_self,
        roundF32_zero, mul_zero]
      exact ⟨bx, le_refl _, by norm_num, by simp, fun _ lo hi hv => hv x List.mem_cons_self,
        fun _ _ => trivial⟩
    · have hlen : 1 ≤ xs.length := List.length_pos_iff.2 hx
      have hk : 2 ≤ roundF32 (xs.length + 1 : ℕ) := by
        have : roundF32 2 ≤ roundF32 (xs.length + 1 : ℕ) := by
          apply roundF32_mono
          have : (2 : ℕ) ≤ xs.length + 1 := by omega
          exact_mod_cast this
        rwa [roundF32_of_isSingle (by simpa using isSingle_two_pow 1)] at this
      obtain ⟨up, down⟩ := mean_between sm sx hk
      set m' := roundF32 (m + roundF32 (roundF32 (x - m) / roundF32 (xs.length + 1 : ℕ))) with hm'
      have bounds : ∀ lo hi, lo ≤ m ∧ m ≤ hi → lo ≤ x ∧ x ≤ hi → lo ≤ m' ∧ m' ≤ hi := by
        intro lo hi h1 h2
        rcases le_total m x with hmx | hmx
        · obtain ⟨a, b⟩ := up hmx
          exact ⟨h1.1.trans a, b.trans h2.2⟩
        · obtain ⟨a, b⟩ := down hmx
          exact ⟨h2.1.trans a, b.trans h1.2⟩
      have b' : |m'| ≤ 2 ^ 7 := abs_le.2 (bounds _ _ (abs_le.1 bm) (abs_le.1 bx))
      have hp : 0 ≤ roundF32 (x - m) * roundF32 (x - m') := by
        rcases le_total m x with hmx | hmx
        · exact mul_nonneg (roundF32_nonneg (by linarith)) (roundF32_nonneg (by linarith [(up hmx).2]))
        · have h1 : roundF32 (x - m) ≤ 0 := by
            have := roundF32_mono (show x - m ≤ 0 by linarith)
            rwa [roundF32_zero] at this
          have h2 : roundF32 (x - m') ≤ 0 := by
            have := roundF32_mono (show x - m' ≤ 0 by linarith [(down hmx).1])
            rwa [roundF32_zero] at this
          exact mul_nonneg_of_nonpos_of_nonpos h1 h2
      have hd' : |roundF32 (x - m')| ≤ 2 ^ 8 :=
        roundF32_abs_le 8 ((abs_sub _ _).trans (by linarith))
      have hp1 : roundF32 (x - m) * roundF32 (x - m') ≤ 2 ^ 16 := by
        refine (le_abs_self _).trans ?_
        rw [abs_mul]
        exact (mul_le_mul d2 hd' (abs_nonneg _) (by norm_num)).trans (by norm_num)
      have hp2 := roundF32_nonneg hp
      have hp3 := roundF32_le_pow 16 hp1
      refine ⟨b', roundF32_nonneg (by linarith), sum_stops s1 hp3, by simp, ?_, ?_⟩
      · intro _ lo hi hv
        exact bounds lo hi (hbet hx lo hi fun v hv' => hv v (List.mem_cons_of_mem _ hv'))
          (hv x List.mem_cons_self)
      · intro v hv
        have hs := heq v (fun y hy => hv y (List.mem_cons_of_mem _ hy))
        have hx1 : x = v := hv x List.mem_cons_self
        have hm1 := hbet hx v v (fun y hy => by rw [hv y (List.mem_cons_of_mem _ hy)]; simp)
        have hm2 : m = v := le_antisymm hm1.2 hm1.1
        rw [hs, hm2, hx1, sub_self, roundF32_zero, zero_mul, roundF32_zero, add_zero, roundF32_zero]

end Lfest
