import Verif.Props.Ratios
import Verif.Lemmas.Single
import Verif.Lemmas.Rounds

/-!
# The ratios of the tracker in `f32` arithmetic: C91
-/

namespace Lfest

open Spec

/-- C91: both order ratios are NaN if no limit order was submitted. Otherwise each is a single
between zero and one, off by at most `2^-22` of the exact share of the submitted orders. It is zero
exactly if the share is. Up to `2^24` submitted orders it is the nearest single, and one exactly if
the share is one. -/
theorem C91_order_ratios (c : Cfg) (ops : List Op) (s : State) (tr : List (Op × Resp))
    (start : Int) (t : FullTracker) (h : history c (State.init c) ops = .ok (s, tr))
    (ht : FullTracker.replay c.env start s.log = .ok t) (hn : t.submittedLimit < 2 ^ 64) :
    (t.submittedLimit = 0 ∧ t.fillRatioF32 = .nan ∧ t.cancelRatioF32 = .nan) ∨
    (0 < t.submittedLimit ∧ ∃ f k, t.fillRatioF32 = .finite f ∧ t.cancelRatioF32 = .finite k ∧
      ∀ p ∈ [(f, t.fullyFilledLimit), (k, t.cancelledLimit)],
        let share : ℚ := p.2 / t.submittedLimit
        IsSingle p.1 ∧ 0 ≤ p.1 ∧ p.1 ≤ 1 ∧ |p.1 - share| ≤ share / 2 ^ 22 ∧ (p.1 = 0 ↔ p.2 = 0) ∧
        (t.submittedLimit ≤ 2 ^ 24 →
          NearestSingle p.1 share ∧ (p.1 = 1 ↔ p.2 = t.submittedLimit))) := by
  have hc := (C50_limit_counters c ops s tr start t h ht).1
  by_cases h0 : t.submittedLimit = 0
  · left
    have h1 : t.fullyFilledLimit = 0 := by omega
    have h2 : t.cancelledLimit = 0 := by omega
    have e : F32.of ((0 : ℕ) : ℚ) = .finite 0 := by
      rw [F32.of_finite (by simp) (by norm_num)]; simp [roundF32_zero]
    simp only [FullTracker.fillRatioF32, FullTracker.cancelRatioF32, h0, h1, h2, e, F32.div]
    simp
  · right
    have hp : 0 < t.submittedLimit := by omega
    have zero : ∀ (a : ℕ) (v : ℚ),
        |v - a / t.submittedLimit| ≤ (a : ℚ) / t.submittedLimit / 2 ^ 22 → (v = 0 ↔ a = 0) := by
      intro a v hv
      constructor
      · rintro rfl
        by_contra ha
        have : (0 : ℚ) < a / t.submittedLimit :=
          div_pos (by exact_mod_cast Nat.pos_of_ne_zero ha) (by exact_mod_cast hp)
        rw [zero_sub, abs_neg, _root_.abs_of_pos this] at hv
        norm_num at hv
        linarith
      · rintro rfl
        simpa using hv
    obtain ⟨f, f1, f2, f3, f4, f5, f6⟩ :=
      count_div (a := t.fullyFilledLimit) (b := t.submittedLimit) (by omega) hp hn
    obtain ⟨k, k1, k2, k3, k4, k5, k6⟩ :=
      count_div (a := t.cancelledLimit) (b := t.submittedLimit) (by omega) hp hn
    refine ⟨hp, f, k, f1, k1, fun p hpm => ?_⟩
    simp only [List.mem_cons, List.not_mem_nil, or_false] at hpm
    rcases hpm with rfl | rfl
    · exact ⟨f2, f3, f4, f5, zero _ _ f5, f6⟩
    · exact ⟨k2, k3, k4, k5, zero _ _ k5, k6⟩

/-- One of three limit orders was filled and two were cancelled. -/
def Ex.thirds : List Op := Ex.ops3 ++ [.limit .buy (Ex.d 90) (Ex.d 1) 9, .cancel (.userOrderId 9)]

example : Ex.tracked Ex.lin Ex.thirds (fun s _ t => decide
    (t.submittedLimit = 3 ∧ t.fullyFilledLimit = 1 ∧ t.cancelledLimit = 2 ∧ s.active = [])) = true := by
  decide +kernel

/-- C91: the two reported shares can add up to more than one. -/
theorem C91_shares_exceed_one : ∃ (c : Cfg) (ops : List Op) (s : State) (tr : List (Op × Resp))
    (t : FullTracker) (f k : ℚ), history c (State.init c) ops = .ok (s, tr) ∧
    FullTracker.replay c.env c.start s.log = .ok t ∧
    t.fillRatioF32 = .finite f ∧ t.cancelRatioF32 = .finite k ∧ 1 < f + k := by
  have h : Ex.tracked Ex.lin Ex.thirds (fun _ _ t => decide
    (t.submittedLimit = 3 ∧ t.fullyFilledLimit = 1 ∧ t.cancelledLimit = 2)) = true := by
    decide +kernel
  unfold Ex.tracked at h
  split at h
  · next s tr e =>
    split at h
    · next t e2 =>
      simp only [decide_eq_true_eq] at h
      obtain ⟨h3, h1, h2⟩ := h
      refine ⟨Ex.lin, Ex.thirds, s, tr, t, 11184811 / 33554432, 11184811 / 16777216, e, e2, ?_, ?_,
        by norm_num⟩
      · rw [FullTracker.fillRatioF32, h1, h3]
        have a : F32.of ((1 : ℕ) : ℚ) = .finite 1 := by
          rw [F32.of_finite (by simp) (by norm_num)]; simp [roundF32_of_isSingle isSingle_one]
        have b : F32.of ((3 : ℕ) : ℚ) = .finite 3 := by
          rw [F32.of_finite (by simp) (by norm_num), roundF32_of_isSingle (isSingle_nat (by norm_num))]
          norm_num
        rw [a, b]
        simp only [F32.div]
        rw [if_neg (by norm_num), F32.of_finite (by norm_num) (by norm_num)]
        congr 1; decide +kernel
      · rw [FullTracker.cancelRatioF32, h2, h3]
        have a : F32.of ((2 : ℕ) : ℚ) = .finite 2 := by
          rw [F32.of_finite (by simp) (by norm_num), roundF32_of_isSingle (isSingle_nat (by norm_num))]
          norm_num
        have b : F32.of ((3 : ℕ) : ℚ) = .finite 3 := by
          rw [F32.of_finite (by simp) (by norm_num), roundF32_of_isSingle (isSingle_nat (by norm_num))]
          norm_num
        rw [a, b]
        simp only [F32.div]
        rw [if_neg (by norm_num), F32.of_finite (by norm_num) (by norm_num)]
        congr 1; decide +kernel
    · cases h
  · cases h

theorem full_rounds : ∀ n : Nat, ∃ s t, run Ex.lin (State.init Ex.lin) (Ex.rounds n) = .ok s ∧
    Idle s n ∧ FullTracker.replay Ex.lin.env Ex.lin.start s.log = .ok t ∧
    t.submittedLimit = n ∧ t.cancelledLimit = n
  | 0 => by
    obtain ⟨s, h1, h2⟩ := Idle.rounds 0
    obtain ⟨t, ht⟩ := C50_tracker_total Ex.lin s Ex.lin.start ⟨_, h1⟩ (by decide)
    refine ⟨s, t, h1, h2, ht, ?_⟩
    simp only [Ex.rounds] at h1
    cases h1
    cases ht
    exact ⟨rfl, rfl⟩
  | n + 1 => by
    obtain ⟨s, t, h1, h2, ht, e1, e2⟩ := full_rounds n
    obtain ⟨s1, a1, a2, a3, a4, a5, a6, a7⟩ := place_step h2
    obtain ⟨s2, g1, g2, g3, g4, g5, g6, g7⟩ := cancel_step a3 a4 a5 a6
    refine ⟨s2, { t with submittedLimit := t.submittedLimit + 1
                         cancelledLimit := t.cancelledLimit + 1 }, ?_, ⟨?_, ?_, ?_, g4, g5, ?_, ?_⟩,
      ?_, by simp [e1], by simp [e2]⟩
    · rw [Ex.rounds, run_append h1]
      simp [run, a1, g1, bind, Except.bind]
    · rw [g2, a2]; exact h2.bid
    · rw [g2, a2]; exact h2.ask
    · rw [g3]; push_cast; rfl
    · rw [g6, g5]
    · rw [g7, a7]; exact h2.quiet
    · rw [g7, a7]
      simp [FullTracker.replay, ht, FullTracker.handle, bind, Except.bind]

/-- C91: beyond `2^24` submitted orders a ratio of one no longer means all of them: here all were
cancelled but one, which is active. -/
theorem C91_one_without_all : ∃ (c : Cfg) (ops : List Op) (s : State) (t : FullTracker),
    run c (State.init c) ops = .ok s ∧ FullTracker.replay c.env c.start s.log = .ok t ∧
    t.submittedLimit = 2 ^ 24 + 1 ∧ t.cancelledLimit = 2 ^ 24 ∧ s.active.length = 1 ∧
    t.cancelRatioF32 = .finite 1 := by
  obtain ⟨s, t, h1, h2, ht, e1, e2⟩ := full_rounds (2 ^ 24)
  obtain ⟨s1, a1, _, _, _, a5, _, a7⟩ := place_step h2
  refine ⟨Ex.lin, Ex.rounds (2 ^ 24) ++ [Ex.place], s1,
    { t with submittedLimit := t.submittedLimit + 1 }, ?_, ?_, by simp [e1], by simp [e2], ?_, ?_⟩
  · rw [run_append h1]
    simp [run, a1, bind, Except.bind]
  · rw [a7]
    simp [FullTracker.replay, ht, FullTracker.handle, bind, Except.bind]
  · rw [a5]; rfl
  · rw [FullTracker.cancelRatioF32]
    simp only [e1, e2]
    rw [F32.of_finite (by positivity) (by norm_num), F32.of_finite (by positivity) (by norm_num)]
    have a : roundF32 ((2 ^ 24 + 1 : ℕ) : ℚ) = 2 ^ 24 := by decide +kernel
    have b : roundF32 ((2 ^ 24 : ℕ) : ℚ) = 2 ^ 24 := by decide +kernel
    rw [a, b]
    simp only [F32.div]
    rw [if_neg (by norm_num), div_self (by norm_num), F32.of_finite (by norm_num) (by norm_num),
      roundF32_of_isSingle isSingle_one]

/-- What C91 asks of the external conversion of an amount between zero and one to `f64`: it stays
there and is at most `2^-50` off. -/
def ConvertsUnit (e : Env) (toF64 : Int → ℚ) : Prop :=
  ∀ r : Int, 0 ≤ r → r ≤ e.scale →
    0 ≤ toF64 r ∧ toF64 r ≤ 1 ∧ |toF64 r - r / e.scale| ≤ 1 / 2 ^ 50

/-- One rounding of the exact quotient is such a conversion. -/
theorem convertsUnit_nearest (e : Env) : ConvertsUnit e (fun r => roundF64 (r / e.scale)) := by
  intro r h0 h1
  have hS : (0 : ℚ) < e.scale := by exact_mod_cast scale_pos e
  have q0 : (0 : ℚ) ≤ r / e.scale := div_nonneg (by exact_mod_cast h0) hS.le
  have q1 : (r : ℚ) / e.scale ≤ 1 := (div_le_one hS).2 (by exact_mod_cast h1)
  have m0 := roundF64_mono q0
  have m1 := roundF64_mono q1
  rw [roundF64_zero] at m0
  rw [roundF64_of_isDouble (x := 1) (by simpa using isDouble_two_pow 0)] at m1
  refine ⟨m0, m1, (roundF64_error _).trans ?_⟩
  have : f64Step (r / e.scale) ≤ 2 ^ (-52 : ℤ) := by
    unfold f64Step
    refine zpow_le_zpow_right₀ (by norm_num) ?_
    rw [abs_of_nonneg q0]
    have : Int.log 2 ((r : ℚ) / e.scale) ≤ 0 := by
      rcases eq_or_lt_of_le q0 with h | h
      · rw [← h, Int.log_zero_right]
      · have := Int.log_mono_right (b := 2) h q1
        simpa using this
    omega
  norm_num at this ⊢
  linarith

/-- C91: `buy_volume_ratio()` does not panic; it is absent exactly if the value of all fills is
zero. Otherwise it is a single between zero and one, below the share of the buys in the value of all
fills by at most one unit of the amounts, apart from `2^-24`. -/
theorem C91_buy_volume_ratio (c : Cfg) (s : State) (start : Int) (t : FullTracker)
    (toF64 : Int → ℚ) (hconv : ConvertsUnit c.env toF64) (hr : Reachable c s) (h0 : 0 < start)
    (ht : FullTracker.replay c.env start s.log = .ok t) :
    let b := volume c .buy (fills s.log)
    let n := ((fills s.log).map (fun f => value c.env f.qty f.price)).sum
    (n = 0 ∧ t.buyVolumeRatioF32 c.env toF64 = .ok none) ∨
    (0 < n ∧ ∃ v, t.buyVolumeRatioF32 c.env toF64 = .ok (some (.finite v)) ∧
      IsSingle v ∧ 0 ≤ v ∧ v ≤ 1 ∧
      v ≤ (b : ℚ) / n + 1 / 2 ^ 24 ∧ (b : ℚ) / n - 1 / c.env.scale - 1 / 2 ^ 24 ≤ v) := by
  intro b n
  have hS := scale_pos c.env
  have hSq : (0 : ℚ) < c.env.scale := by exact_mod_cast hS
  rcases C72_buy_volume_ratio c s start t hr h0 ht with ⟨hn, e⟩ | ⟨hn, r, e, r0, r1, r2, r3⟩
  · left
    refine ⟨hn, ?_⟩
    rw [FullTracker.buyVolumeRatioF32, e]; rfl
  · right
    obtain ⟨x0, x1, x2⟩ := hconv r r0 r1
    refine ⟨hn, roundF32 (toF64 r), ?_, roundF32_isSingle _, roundF32_nonneg x0,
      roundF32_le_one x1, ?_⟩
    · rw [FullTracker.buyVolumeRatioF32, e, ← F32.of_finite x0 (x1.trans (by norm_num))]; rfl
    · have hnq : (0 : ℚ) < n := by exact_mod_cast hn
      have y2 : (r : ℚ) / c.env.scale ≤ b / n := by
        rw [div_le_div_iff₀ hSq hnq]; exact_mod_cast r2
      have y3 : (b : ℚ) / n ≤ r / c.env.scale + 1 / c.env.scale := by
        rw [← add_div, div_le_div_iff₀ hnq hSq]; exact_mod_cast r3.le
      rw [abs_le] at x2
      have hround : |roundF32 (toF64 r) - toF64 r| ≤ 1 / 2 ^ 25 := by
        rcases eq_or_lt_of_le x0 with h | hpos
        · rw [← h, roundF32_zero]; norm_num
        rcases eq_or_lt_of_le x1 with h | hlt
        · rw [h, roundF32_of_isSingle isSingle_one]; norm_num
        have h1 := roundF32_error (toF64 r)
        have hlog : max (Int.log 2 |toF64 r|) (-126) - 23 ≤ -24 := by
          rw [abs_of_nonneg x0]
          have := (Int.lt_zpow_iff_log_lt (b := 2) (by norm_num) (x := 0) hpos).1 (by simpa using hlt)
          omega
        have h2 : f32Step (toF64 r) ≤ 1 / 2 ^ 24 := by
          unfold f32Step
          calc (2 : ℚ) ^ (max (Int.log 2 |toF64 r|) (-126) - 23) ≤ 2 ^ (-24 : ℤ) :=
                zpow_le_zpow_right₀ (by norm_num) hlog
            _ = 1 / 2 ^ 24 := by norm_num
        have : (1 : ℚ) / 2 ^ 24 / 2 = 1 / 2 ^ 25 := by norm_num
        linarith
      rw [abs_le] at hround
      rw [one_div (c.env.scale : ℚ)] at y3 ⊢
      norm_num at hround x2 ⊢
      constructor <;> linarith

/-- 0.43793 of the traded value was bought. -/
example : Ex.tracked Ex.lin Ex.ops3 (fun s _ t => decide (0 < Ex.lin.start ∧
    ((fills s.log).map (fun f => value Ex.lin.env f.qty f.price)).sum = Ex.d 1587 ∧
    t.buyVolumeRatio Ex.lin.env = .ok (some 43793))) = true := by decide +kernel

end Lfest
