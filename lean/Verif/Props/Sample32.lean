import Verif.Lemmas.Sample32
import Verif.Lemmas.MomentsF64
import Verif.Lemmas.Trace
import Verif.Examples

/-!
# C106: sampled returns in single precision
-/

namespace Lfest
open Spec

theorem changes_snoc (p b : Int) : ∀ l : List Int,
    changes (l ++ [p, b]) = changes (l ++ [p]) ++ [(p, b)]
  | [] => rfl
  | [x] => rfl
  | x :: y :: l => by
    have := changes_snoc p b (y :: l)
    simp only [List.cons_append, changes] at this ⊢
    rw [this]

theorem sampledSums_cons (ev : Event) (log : List Event) :
    sampledSums (ev :: log) = sampledSums log ++ match ev with
      | .sample b _ => [b.wallet + b.positionMargin + b.orderMargin]
      | _ => [] := by
  unfold sampledSums
  cases ev <;> simp

/-- The state of the returns in terms of the sampled balances. -/
theorem replay32 {ln : F32 → F32} {toF64 : Int → ℚ} : ∀ log : List Event,
    (Returns32.replay ln toF64 log).prev
        = (sampledSums log).getLast?.map (fun b => F32.of (toF64 b)) ∧
    (Returns32.replay ln toF64 log).all.reverse
        = (changes (sampledSums log)).map
          (fun x => ln ((F32.of (toF64 x.2)).div (F32.of (toF64 x.1)))) ∧
    (Returns32.replay ln toF64 log).neg
        = (Returns32.replay ln toF64 log).all.filter F32.below0
  | [] => by simp [Returns32.replay, Returns32.empty, sampledSums, changes]
  | ev :: log => by
    have ih := replay32 (ln := ln) (toF64 := toF64) log
    rw [sampledSums_cons]
    cases ev with
    | sample b m =>
      simp only [Returns32.replay]
      have hb : b.sum = b.wallet + b.positionMargin + b.orderMargin := rfl
      obtain ⟨h1, h2, h3⟩ := ih
      rcases List.eq_nil_or_concat (sampledSums log) with h | ⟨xs, x, h⟩
      · rw [h] at h1 h2
        simp only [List.getLast?_nil, Option.map_none] at h1
        simp only [Returns32.sample, h1, h, hb]
        simp only [h2, h3, changes, List.nil_append, List.getLast?_singleton, Option.map_some,
          List.map_nil, and_true]
      · rw [List.concat_eq_append] at h
        rw [h] at h1 h2
        simp only [List.getLast?_append, List.getLast?_singleton, Option.some_or,
          Option.map_some] at h1
        simp only [Returns32.sample, h1, h, hb]
        rw [List.append_assoc, List.singleton_append, changes_snoc, List.map_append, ← h2]
        refine ⟨by simp, by simp, ?_⟩
        rw [List.filter_cons, h3]
    | _ => simpa [Returns32.replay] using ih

/-- C106: one return for every pair of consecutive samples, none of them with the wrong sign, and
the losses are those below zero. -/
theorem C106_returns (e : Env) (log : List Event) (ln : F32 → F32) (toF64 : Int → ℚ)
    (hc : Converts e toF64) (hl : LogSign ln) (hs : ∀ b ∈ sampledSums log, Sane e b) :
    List.Forall₂ (SeenAs toF64) (changes (sampledSums log)) (Returns32.replay ln toF64 log).all.reverse ∧
    (Returns32.replay ln toF64 log).neg
      = (Returns32.replay ln toF64 log).all.filter F32.below0 := by
  obtain ⟨_, h2, h3⟩ := replay32 (ln := ln) (toF64 := toF64) log
  refine ⟨?_, h3⟩
  rw [h2, List.forall₂_map_right_iff, List.forall₂_same]
  have mem : ∀ (l : List Int) (x : Int × Int), x ∈ changes l → x.1 ∈ l ∧ x.2 ∈ l := by
    intro l
    induction l with
    | nil => intro x hx; cases hx
    | cons a l ih =>
      intro x hx
      cases l with
      | nil => cases hx
      | cons b l =>
        simp only [changes, List.mem_cons] at hx
        rcases hx with rfl | hx
        · simp
        · have := ih x hx
          exact ⟨List.mem_cons_of_mem _ this.1, List.mem_cons_of_mem _ this.2⟩
  intro x hx
  obtain ⟨m1, m2⟩ := mem _ x hx
  exact seen hc hl (hs _ m1) (hs _ m2)

/-- C106: the statistics behind `sortino` count at most the samples at which the balance fell, and at
least those at which it fell by more than `2^-22`. -/
theorem C106_losses (e : Env) (log : List Event) (ln : F32 → F32) (toF64 : Int → ℚ)
    (hc : Converts e toF64) (hl : LogSign ln) (hs : ∀ b ∈ sampledSums log, Sane e b) :
    (Returns32.replay ln toF64 log).neg.length
      ≤ (changes (sampledSums log)).countP (fun x => decide (x.2 < x.1)) ∧
    (changes (sampledSums log)).countP
        (fun x => decide ((x.2 : ℚ) < x.1 * (1 - 1 / 2 ^ 22)))
      ≤ (Returns32.replay ln toF64 log).neg.length := by
  obtain ⟨h1, h2⟩ := C106_returns e log ln toF64 hc hl hs
  rw [h2, ← List.countP_eq_length_filter, ← List.countP_reverse]
  generalize (Returns32.replay ln toF64 log).all.reverse = ys at h1
  generalize changes (sampledSums log) = xs at h1
  induction h1 with
  | nil => simp
  | cons h _ ih =>
    obtain ⟨v, rfl, a, _, b, _, _⟩ := h
    simp only [List.countP_cons, F32.below0, decide_eq_true_eq]
    constructor
    · refine Nat.add_le_add ih.1 ?_
      split
      · rw [if_pos (a ‹_›)]
      · exact Nat.zero_le _
    · refine Nat.add_le_add ih.2 ?_
      split
      · rw [if_pos (b ‹_›)]
      · exact Nat.zero_le _

/-- One rounding of the exact quotient is a conversion as C106 asks for, if no amount is below
`2^-1000`. -/
theorem converts_nearest (e : Env) (h : (e.scale : ℚ) ≤ 2 ^ 1000) :
    Converts e (fun a => roundF64 ((a : ℚ) / e.scale)) := by
  have hS : (0 : ℚ) < e.scale := by exact_mod_cast scale_pos e
  refine ⟨fun a b hab => ?_, fun a => ?_⟩
  · apply roundF64_mono
    exact div_le_div_of_nonneg_right (by exact_mod_cast hab) hS.le
  · by_cases ha : a = 0
    · subst ha; simp [roundF64_zero]
    · have h1 : (1 : ℚ) ≤ |(a : ℚ)| := by
        rw [← Int.cast_abs]
        exact_mod_cast Int.one_le_abs ha
      have hx : (2 : ℚ) ^ (-1022 : ℤ) ≤ |(a : ℚ) / e.scale| := by
        rw [abs_div, _root_.abs_of_pos hS, le_div_iff₀ hS]
        refine le_trans ?_ h1
        refine (mul_le_mul_of_nonneg_left h (by positivity)).trans ?_
        rw [← zpow_natCast, ← zpow_add₀ (by norm_num)]
        exact zpow_le_one_of_nonpos₀ (by norm_num) (by norm_num)
      refine (roundF64_rel hx).trans ?_
      exact div_le_div_of_nonneg_left (abs_nonneg _) (by norm_num) (by norm_num)

/-- A logarithm with the right sign. -/
def Ex.ln32 : F32 → F32
  | .finite x => .finite (x - 1)
  | x => x

theorem Ex.ln32_sign : LogSign Ex.ln32 := fun x _ =>
  ⟨x - 1, rfl, by rw [sub_neg], by rw [sub_pos]⟩

/-- A thousand million to start with. -/
def Ex.rich : Cfg := { Ex.lin with start := 100000000000000 }

/-- Buying and selling, and losing the spread and the fees, between all samples. -/
def Ex.spend : List Op :=
  [Ex.quoteAt 1, Ex.quoteAt 3601, .market .buy (Ex.d 1) 1, .market .sell (Ex.d 1) 2,
   Ex.quoteAt 7201, .market .buy (Ex.d 1) 3, .market .sell (Ex.d 1) 4, Ex.quoteAt 10801]

/-- C106, what does not hold: an account can lose money in every sampling interval, and all returns
the statistics see are zero, whatever the logarithm. -/
theorem C106_blind : ∃ s t, Reachable Ex.rich s ∧
    FullTracker.replay Ex.rich.env Ex.rich.start s.log = .ok t ∧ t.rpnl < 0 ∧
    (∀ b ∈ sampledSums s.log, Sane Ex.rich.env b) ∧
    (∀ x ∈ (changes (sampledSums s.log)).drop 1, x.2 < x.1) ∧
    ∀ ln, LogSign ln →
      (Returns32.replay ln (fun a => roundF64 ((a : ℚ) / Ex.rich.env.scale)) s.log).all
        = [.finite 0, .finite 0, .finite 0] := by
  have h : Ex.tracked Ex.rich Ex.spend (fun s _ t => decide (t.rpnl < 0) &&
      decide (sampledSums s.log
        = [100000000000000, 100000000000000, 99999999887940, 99999999775880])) = true := by
    decide +kernel
  unfold Ex.tracked at h
  split at h
  · rename_i s tr hs
    split at h
    · rename_i t ht
      simp only [Bool.and_eq_true, decide_eq_true_eq] at h
      refine ⟨s, t, ⟨_, history_run hs⟩, ht, h.1, ?_, ?_, fun ln hl => ?_⟩
      · rw [h.2]
        intro b hb
        simp only [List.mem_cons, List.not_mem_nil, or_false] at hb
        have e : (Ex.rich.env.scale : ℚ) = 100000 := by
          have : Ex.rich.env.scale = 100000 := by decide +kernel
          rw [this]; norm_num
        rcases hb with rfl | rfl | rfl | rfl <;> constructor <;> rw [e] <;> norm_num
      · rw [h.2]; decide
      · have hall := (replay32 (ln := ln)
          (toF64 := fun a => roundF64 ((a : ℚ) / Ex.rich.env.scale)) s.log).2.1
        rw [h.2] at hall
        have e1 : roundF32 (roundF64 (((100000000000000 : ℤ) : ℚ) / Ex.rich.env.scale)) = 10 ^ 9 := by
          decide +kernel
        have e2 : roundF32 (roundF64 (((99999999887940 : ℤ) : ℚ) / Ex.rich.env.scale)) = 10 ^ 9 := by
          decide +kernel
        have e3 : roundF32 (roundF64 (((99999999775880 : ℤ) : ℚ) / Ex.rich.env.scale)) = 10 ^ 9 := by
          decide +kernel
        have hlim : ¬ f32Limit ≤ |(10 ^ 9 : ℚ)| := by
          rw [_root_.abs_of_pos (by norm_num)]; unfold f32Limit; norm_num
        have hone : (F32.finite (10 ^ 9)).div (.finite (10 ^ 9)) = .finite 1 := by
          simp only [F32.div]
          rw [if_neg (by norm_num), div_self (by norm_num), F32.of_finite (by norm_num) (by norm_num),
            roundF32_of_isSingle isSingle_one]
        have hln : ln (.finite 1) = .finite 0 := by
          obtain ⟨y, hy, h1, h2⟩ := hl 1 (by norm_num)
          rw [hy]
          rcases lt_trichotomy y 0 with h3 | h3 | h3
          · exact absurd (h1.1 h3) (lt_irrefl _)
          · rw [h3]
          · exact absurd (h2.1 h3) (lt_irrefl _)
        have o1 : F32.of (roundF64 (((100000000000000 : ℤ) : ℚ) / Ex.rich.env.scale))
            = .finite (10 ^ 9) := by unfold F32.of; rw [e1, if_neg hlim]
        have o2 : F32.of (roundF64 (((99999999887940 : ℤ) : ℚ) / Ex.rich.env.scale))
            = .finite (10 ^ 9) := by unfold F32.of; rw [e2, if_neg hlim]
        have o3 : F32.of (roundF64 (((99999999775880 : ℤ) : ℚ) / Ex.rich.env.scale))
            = .finite (10 ^ 9) := by unfold F32.of; rw [e3, if_neg hlim]
        simp only [changes, List.map_cons, List.map_nil, o1, o2, o3, hone, hln] at hall
        rw [← List.reverse_reverse (Returns32.replay _ _ _).all, hall]
        rfl
    · cases h
  · cases h

/-- Non-vacuity of C106_returns and C106_losses: with a thousand to start with, the same calls give
two losses, and both are seen. -/
example : ∃ s, Reachable Ex.lin s ∧ sampledSums s.log = [100000000, 100000000, 99887940, 99775880] ∧
    (∀ b ∈ sampledSums s.log, Sane Ex.lin.env b) ∧
    Converts Ex.lin.env (fun a => roundF64 ((a : ℚ) / Ex.lin.env.scale)) ∧
    (Returns32.replay Ex.ln32 (fun a => roundF64 ((a : ℚ) / Ex.lin.env.scale)) s.log).neg.length
      = 2 := by
  have h : Ex.after Ex.lin Ex.spend (fun s => decide (sampledSums s.log
      = [100000000, 100000000, 99887940, 99775880])) = true := by decide +kernel
  have hsc : (Ex.lin.env.scale : ℚ) = 100000 := by
    have : Ex.lin.env.scale = 100000 := by decide +kernel
    rw [this]; norm_num
  have hcv : Converts Ex.lin.env (fun a => roundF64 ((a : ℚ) / Ex.lin.env.scale)) :=
    converts_nearest _ (by
      rw [hsc]
      exact le_trans (show (100000 : ℚ) ≤ 2 ^ 17 by norm_num)
        (pow_le_pow_right₀ (by norm_num) (by norm_num)))
  unfold Ex.after at h
  split at h
  · rename_i s hs
    simp only [decide_eq_true_eq] at h
    have hsane : ∀ b ∈ sampledSums s.log, Sane Ex.lin.env b := by
      rw [h]
      intro b hb
      simp only [List.mem_cons, List.not_mem_nil, or_false] at hb
      rcases hb with rfl | rfl | rfl | rfl <;> constructor <;> rw [hsc] <;> norm_num
    refine ⟨s, ⟨_, hs⟩, h, hsane, hcv, ?_⟩
    obtain ⟨h1, h2⟩ := C106_losses Ex.lin.env s.log Ex.ln32 _ hcv Ex.ln32_sign hsane
    rw [h] at h1 h2
    have e1 : (changes [100000000, 100000000, 99887940, 99775880]).countP
        (fun x => decide (x.2 < x.1)) = 2 := by decide +kernel
    have e2 : (changes [100000000, 100000000, 99887940, 99775880]).countP
        (fun x => decide ((x.2 : ℚ) < x.1 * (1 - 1 / 2 ^ 22))) = 2 := by decide +kernel
    omega
  · cases h

end Lfest
