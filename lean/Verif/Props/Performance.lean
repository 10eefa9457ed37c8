import Verif.Lemmas.Performance
import Verif.Lemmas.Calls
import Verif.Props.Start
import Mathlib.Analysis.SpecialFunctions.Log.Basic

/-!
# Sharpe, sortino and kelly (C77)

All figures are those of exact arithmetic, see `Model/Performance.lean`.
-/

namespace Lfest

open Spec

/-! ## What the figures are -/

/-- C77: the sharpe ratio is mean over standard deviation of the logarithmic returns between
sampled balances, and absent if there is no return or they do not vary. -/
theorem C77_sharpe (e : Env) (log : List Event) :
    let rs := lnReturns (sampled e log)
    (Returns.replay e log).sharpe =
      if rs = [] ∨ (statisticalMoments rs).stdDev = 0 then none
      else some ((statisticalMoments rs).mean / (statisticalMoments rs).stdDev) := by
  intro rs
  rw [replay_eq]
  show Returns.sharpe ⟨_, Welford.ofList rs, _⟩ = _
  by_cases h : rs = []
  · simp [h, Returns.sharpe, Welford.last, Welford.ofList, Welford.empty]
  · have hn : (Welford.ofList rs).n ≠ 0 := by rw [(welford rs).1]; simpa using h
    simp only [Returns.sharpe, Welford.last, if_neg hn, welford_std h, welford_mean h, h, false_or]

/-- C77: the sortino ratio is the mean of all returns over the standard deviation of the losses
around their own mean, and absent if there is no loss or all losses are the same. -/
theorem C77_sortino (e : Env) (log : List Event) :
    let rs := lnReturns (sampled e log)
    (Returns.replay e log).sortino =
      if losses rs = [] ∨ (statisticalMoments (losses rs)).stdDev = 0 then none
      else some ((statisticalMoments rs).mean / (statisticalMoments (losses rs)).stdDev) := by
  intro rs
  rw [replay_eq]
  show Returns.sortino ⟨_, Welford.ofList rs, Welford.ofList (losses rs)⟩ = _
  by_cases h : losses rs = []
  · simp [h, Returns.sortino, Welford.last, Welford.ofList, Welford.empty]
  · have hr : rs ≠ [] := by
      intro h0; rw [h0] at h; exact h rfl
    have hn : (Welford.ofList (losses rs)).n ≠ 0 := by rw [(welford _).1]; simpa using h
    simp only [Returns.sortino, Welford.last, if_neg hn, welford_std h, welford_mean hr, h,
      false_or]

/-- C77: the kelly leverage is mean over variance of the returns, and zero if there is no return or
they do not vary. The variance is never negative. -/
theorem C77_kelly (e : Env) (log : List Event) :
    let rs := lnReturns (sampled e log)
    0 ≤ (Returns.replay e log).all.variance ∧
    (Returns.replay e log).kelly =
      if rs = [] ∨ (statisticalMoments rs).stdDev = 0 then 0
      else (statisticalMoments rs).mean / (statisticalMoments rs).stdDev ^ 2 := by
  intro rs
  rw [replay_eq]
  show 0 ≤ (Welford.ofList rs).variance ∧ Returns.kelly ⟨_, Welford.ofList rs, _⟩ = _
  by_cases h : rs = []
  · simp [h, Returns.kelly, Welford.variance, Welford.ofList, Welford.empty]
  · have hv := welford_var_std h
    refine ⟨by rw [hv]; positivity, ?_⟩
    simp only [Returns.kelly, hv, welford_mean h, h, false_or, pow_eq_zero_iff (two_ne_zero)]

/-- C77: one loss is not enough for a sortino ratio. -/
theorem C77_single_loss (e : Env) (log : List Event) (r : ℝ)
    (h : losses (lnReturns (sampled e log)) = [r]) : (Returns.replay e log).sortino = none := by
  rw [C77_sortino]
  rw [h]
  simp [statisticalMoments]

/-! ## Their sign is that of the profit -/

/-- The sampled sum of a tracker call. -/
def sampleOf : Event → Option Int
  | .sample b _ => some (b.wallet + b.positionMargin + b.orderMargin)
  | _ => none

theorem sampledSums_eq (log : List Event) : sampledSums log = log.reverse.filterMap sampleOf := by
  unfold sampledSums
  congr 1

theorem sampledSums_append (l log : List Event) :
    sampledSums (l.reverse ++ log) = sampledSums log ++ l.filterMap sampleOf := by
  simp [sampledSums_eq]

theorem Untouched.calls {c : Cfg} {s : State} (hs : Untouched c s) (op : Op) (r : Resp)
    (hop : op.isUpdate = false) : (calls s s.trigger.due op r).filterMap sampleOf = [] := by
  unfold Spec.calls
  split <;> simp_all [Op.isUpdate, sampleOf, fillCalls, takerCalls, hs.active]
  split <;> simp

/-- The first sample is the starting balance. -/
theorem first_sample {c : Cfg} {s : State} (hu : c.spec.priceFilter.multiplierUp ≠ 0)
    (hr : Reachable c s) :
    (Untouched c s ∧ sampledSums s.log = []) ∨ (sampledSums s.log).head? = some c.start := by
  refine hr.induct (P := fun s => (Untouched c s ∧ sampledSums s.log = []) ∨
    (sampledSums s.log).head? = some c.start)
    (.inl ⟨⟨rfl, rfl, rfl, rfl, rfl, rfl⟩, rfl⟩) (fun s s' op r hr hp hst => ?_)
  have hl := step_calls hr.inv hr.linv.wf hst
  rw [hl, sampledSums_append]
  rcases hp with ⟨hs, h0⟩ | hp
  · rw [h0, List.nil_append]
    cases hop : op.isUpdate with
    | false =>
      left
      exact ⟨(hs.step hu hop hst).1, hs.calls op r hop⟩
    | true =>
      right
      cases op with
      | update a =>
        have hd : s.trigger.due = none := by rw [hs.trigger]; rfl
        have hsum : s.acct.balance .wallet + s.acct.balance .positionMargin +
            s.acct.balance .orderMargin = c.start := by
          rw [hs.acct]; simp [Accounts.new, Accounts.balance, Accounts.get, TAccount.net]
        have ho : ∀ ms l, ((observeCalls s s.trigger.due ms ++ l).filterMap sampleOf).head? =
            some c.start := by
          intro ms l
          rw [hd]
          have hn : samples none ms.ts := by simp [samples]
          simp only [observeCalls, if_pos hn, List.cons_append, List.nil_append,
            List.filterMap_cons, sampleOf, List.head?_cons, hsum]
        rcases step_cases hst with ⟨a', u, x, hx, hb, h, rfl⟩ | ⟨a', u, hx, _⟩ |
          ⟨err, _, rfl⟩ | ⟨_, _, _, x, hx, _⟩ | ⟨_, _, _, _, x, hx, _⟩ |
          ⟨_, _, _, _, _, x, hx, _⟩ | ⟨_, x, hx, _⟩ <;> try (simp at hx; done)
        · cases x <;> exact ho _ _
        · exfalso
          simp only [Lfest.step, bind_ok] at hst
          obtain ⟨_, _, _, _, h⟩ := hst
          simp at h
      | _ => simp [Op.isUpdate] at hop
  · right
    cases h : sampledSums s.log with
    | nil => rw [h] at hp; simp at hp
    | cons x xs => rw [h] at hp; simpa using hp

theorem replay_last {e : Env} {start : Int} : ∀ {log : List Event} {t : FullTracker},
    FullTracker.replay e start log = .ok t →
    t.walletStart = start ∧ t.lastBalanceSum = (sampledSums log).getLast?.getD 0
  | [], t, h => by
    simp only [FullTracker.replay, FullTracker.new, bind_ok, assertP_ok, ok_inj] at h
    obtain ⟨_, _, rfl⟩ := h
    exact ⟨rfl, rfl⟩
  | ev :: log, t, h => by
    simp only [FullTracker.replay, bind_ok] at h
    obtain ⟨t0, h0, h⟩ := h
    obtain ⟨h1, h2⟩ := replay_last h0
    have hs := sampledSums_append [ev] log
    simp only [List.reverse_singleton, List.singleton_append] at hs
    rw [hs]
    cases ev with
    | sample b m =>
      simp only [FullTracker.handle, ok_inj] at h
      subst h
      exact ⟨h1, by simp [sampleOf]; rfl⟩
    | trade side p q =>
      simp only [FullTracker.handle, bind_ok, assertP_ok] at h
      obtain ⟨_, _, v, _, h⟩ := h
      cases side <;> (simp only [ok_inj] at h; subst h; exact ⟨h1, by simp [sampleOf, h2]⟩)
    | _ =>
      simp only [FullTracker.handle, ok_inj] at h
      subst h
      exact ⟨h1, by simp [sampleOf, h2]⟩

/-- The mean return has the sign of the profit. -/
theorem mean_sign {c : Cfg} {s : State} {t : FullTracker}
    (hu : c.spec.priceFilter.multiplierUp ≠ 0) (hr : Reachable c s)
    (hpos : ∀ x ∈ sampledSums s.log, 0 < x)
    (ht : FullTracker.replay c.env c.start s.log = .ok t)
    (hne : lnReturns (sampled c.env s.log) ≠ []) :
    (0 < (statisticalMoments (lnReturns (sampled c.env s.log))).mean ↔ 0 < t.rpnl) ∧
    ((statisticalMoments (lnReturns (sampled c.env s.log))).mean < 0 ↔ t.rpnl < 0) := by
  have hsc : (0 : ℝ) < c.env.scale := by exact_mod_cast scale_pos c.env
  obtain ⟨hw, hl⟩ := replay_last ht
  have hrp : t.rpnl = (sampledSums s.log).getLast?.getD 0 - c.start := by
    rw [FullTracker.rpnl, hw, hl]
  rw [hrp]
  cases hss : sampledSums s.log with
  | nil => simp [sampled, hss, lnReturns] at hne
  | cons x xs =>
    have hx : x = c.start := by
      rcases first_sample hu hr with h | h
      · rw [hss] at h; simp at h
      · rw [hss] at h; simpa using h
    have hsum : (lnReturns (sampled c.env s.log)).sum =
        Real.log (((x :: xs).getLast (by simp) : ℤ) / (x : ℝ)) := by
      have h1 : sampled c.env s.log = ((x : ℝ) / c.env.scale) ::
          xs.map (fun y : Int => (y : ℝ) / c.env.scale) := by simp [sampled, hss]
      rw [h1, lnReturns_sum]
      · congr 1
        have h2 : ((((x : ℝ) / c.env.scale) ::
          xs.map (fun y : Int => (y : ℝ) / c.env.scale))).getLast (by simp) =
            (((x :: xs).getLast (by simp) : ℤ) : ℝ) / c.env.scale := by
          have := List.getLast_map (f := fun y : Int => (y : ℝ) / c.env.scale) (l := x :: xs)
            (by simp)
          simpa using this
        rw [h2, div_div_div_cancel_right₀ hsc.ne']
      · intro y hy
        have : y ∈ (sampledSums s.log).map (fun y : Int => (y : ℝ) / c.env.scale) := by
          rw [hss]; simpa using hy
        obtain ⟨z, hz, rfl⟩ := List.mem_map.1 this
        have : (0 : ℝ) < z := by exact_mod_cast hpos z hz
        exact div_pos this hsc
    have hn := length_pos hne
    have hm : (statisticalMoments (lnReturns (sampled c.env s.log))).mean =
        (lnReturns (sampled c.env s.log)).sum / (lnReturns (sampled c.env s.log)).length := rfl
    have hlast : (x :: xs).getLast?.getD 0 = (x :: xs).getLast (by simp) := by
      rw [List.getLast?_eq_some_getLast (by simp)]; rfl
    rw [hm, hsum, hlast]
    have hx0 : (0 : ℝ) < x := by exact_mod_cast hpos x (by rw [hss]; simp)
    have hz0 : 0 < (x :: xs).getLast (by simp) := hpos _ (by rw [hss]; exact List.getLast_mem _)
    generalize (x :: xs).getLast _ = z at *
    have hz1 : (0 : ℝ) < z := by exact_mod_cast hz0
    have hq : (0 : ℝ) < (z : ℝ) / x := div_pos hz1 hx0
    constructor
    · rw [div_pos_iff_of_pos_right hn, Real.log_pos_iff hq.le, lt_div_iff₀ hx0, one_mul,
        Int.cast_lt]
      omega
    · rw [div_lt_iff₀ hn, zero_mul, Real.log_neg_iff hq, div_lt_iff₀ hx0, one_mul, Int.cast_lt]
      omega

/-- C77: if every sampled balance is positive, the three figures are positive exactly after a
profit and negative exactly after a loss, profit being the tracker's realised profit. -/
theorem C77_sign (c : Cfg) (s : State) (t : FullTracker)
    (hu : c.spec.priceFilter.multiplierUp ≠ 0) (hr : Reachable c s)
    (hpos : ∀ x ∈ sampledSums s.log, 0 < x)
    (ht : FullTracker.replay c.env c.start s.log = .ok t) :
    (∀ x, (Returns.replay c.env s.log).sharpe = some x →
      (0 < x ↔ 0 < t.rpnl) ∧ (x < 0 ↔ t.rpnl < 0)) ∧
    (∀ x, (Returns.replay c.env s.log).sortino = some x →
      (0 < x ↔ 0 < t.rpnl) ∧ (x < 0 ↔ t.rpnl < 0)) ∧
    (((Returns.replay c.env s.log).kelly ≠ 0 → t.rpnl ≠ 0) ∧
      (0 < (Returns.replay c.env s.log).kelly → 0 < t.rpnl) ∧
      ((Returns.replay c.env s.log).kelly < 0 → t.rpnl < 0)) := by
  have key : ∀ {d : ℝ}, 0 ≤ d → d ≠ 0 → lnReturns (sampled c.env s.log) ≠ [] →
      (0 < (statisticalMoments (lnReturns (sampled c.env s.log))).mean / d ↔ 0 < t.rpnl) ∧
      ((statisticalMoments (lnReturns (sampled c.env s.log))).mean / d < 0 ↔ t.rpnl < 0) := by
    intro d hd0 hd hne
    have hd' : 0 < d := lt_of_le_of_ne hd0 (Ne.symm hd)
    obtain ⟨h1, h2⟩ := mean_sign hu hr hpos ht hne
    exact ⟨by rw [div_pos_iff_of_pos_right hd']; exact h1,
      by rw [div_lt_iff₀ hd', zero_mul]; exact h2⟩
  refine ⟨fun x hx => ?_, fun x hx => ?_, ?_⟩
  · rw [C77_sharpe] at hx
    split at hx
    · simp at hx
    · rename_i h
      push Not at h
      obtain rfl := Option.some.inj hx
      exact key (Real.sqrt_nonneg _) h.2 h.1
  · rw [C77_sortino] at hx
    split at hx
    · simp at hx
    · rename_i h
      push Not at h
      obtain rfl := Option.some.inj hx
      refine key (Real.sqrt_nonneg _) h.2 (fun h0 => h.1 ?_)
      rw [h0]; rfl
  · rw [(C77_kelly _ _).2]
    split
    · simp
    · rename_i h
      push Not at h
      obtain ⟨h1, h2⟩ := key (d := (statisticalMoments (lnReturns (sampled c.env s.log))).stdDev ^ 2)
        (sq_nonneg _) (pow_ne_zero 2 h.2) h.1
      refine ⟨fun hk => ?_, h1.1, h2.1⟩
      rcases lt_or_gt_of_ne hk with h | h
      · exact (h2.1 h).ne
      · exact (h1.1 h).ne'

/-- C77: what counts is the proportion of the balances: two logs whose sampled balances are
proportional have the same three figures. -/
theorem C77_scale (e e' : Env) (log log' : List Event) (k : ℝ) (hk : k ≠ 0)
    (h : sampled e' log' = (sampled e log).map (k * ·)) :
    (Returns.replay e' log').sharpe = (Returns.replay e log).sharpe ∧
    (Returns.replay e' log').sortino = (Returns.replay e log).sortino ∧
    (Returns.replay e' log').kelly = (Returns.replay e log).kelly := by
  rw [C77_sharpe, C77_sharpe, C77_sortino, C77_sortino, (C77_kelly _ _).2, (C77_kelly _ _).2, h,
    lnReturns_scale hk]
  exact ⟨rfl, rfl, rfl⟩

/-- Two round trips at a loss, with a sample before and after each. -/
def Ex.opsLoss : List Op :=
  [quoteAt 1, .market .buy (d 2) 0, .market .sell (d 2) 0, quoteAt 7200,
   .market .buy (d 5) 0, .market .sell (d 5) 0, quoteAt 14400]

/-- The hypotheses of `C77_sign` are met by a run with three sampled balances, each lower than the
one before. -/
theorem Ex.lossRun : ∃ s t, Reachable lin s ∧
    FullTracker.replay lin.env lin.start s.log = .ok t ∧
    sampledSums s.log = [100000000, 99775880, 99215580] := by
  have h : tracked lin opsLoss (fun s _ _ =>
      decide (sampledSums s.log = [100000000, 99775880, 99215580])) = true := by decide +kernel
  unfold tracked at h
  split at h
  · rename_i s tr hs
    split at h
    · rename_i t ht
      refine ⟨s, t, ⟨opsLoss, ?_⟩, ht, of_decide_eq_true h⟩
      exact history_run hs
    · simp at h
  · simp at h

/-- On that run all three figures exist and are negative, and the profit is negative. -/
example : ∃ s t x y, Reachable Ex.lin s ∧
    FullTracker.replay Ex.lin.env Ex.lin.start s.log = .ok t ∧ t.rpnl < 0 ∧
    (Returns.replay Ex.lin.env s.log).sharpe = some x ∧ x < 0 ∧
    (Returns.replay Ex.lin.env s.log).sortino = some y ∧ y < 0 ∧
    (Returns.replay Ex.lin.env s.log).kelly < 0 := by
  obtain ⟨s, t, hr, ht, hs⟩ := Ex.lossRun
  have hsc : (Ex.lin.env.scale : ℝ) = 100000 := by norm_num [Ex.lin, Env.scale]
  have hsam : sampled Ex.lin.env s.log = [1000, 997.7588, 992.1558] := by
    rw [sampled, hs, hsc]; norm_num
  have hpos : ∀ x ∈ sampledSums s.log, 0 < x := by rw [hs]; decide
  obtain ⟨h1, h2, h3⟩ := C77_sign Ex.lin s t (by decide) hr hpos ht
  have hrp : t.rpnl < 0 := by
    obtain ⟨hw, hl⟩ := replay_last ht
    rw [FullTracker.rpnl, hw, hl, hs]; decide
  have n1 : Real.log (997.7588 / 1000) < 0 := Real.log_neg (by norm_num) (by norm_num)
  have n2 : Real.log (992.1558 / 997.7588) < Real.log (997.7588 / 1000) :=
    Real.log_lt_log (by norm_num) (by norm_num)
  have hret : lnReturns (sampled Ex.lin.env s.log) =
      [Real.log (997.7588 / 1000), Real.log (992.1558 / 997.7588)] := by rw [hsam]; rfl
  generalize Real.log (997.7588 / 1000) = a at *
  generalize Real.log (992.1558 / 997.7588) = b at *
  have hloss : losses [a, b] = [a, b] := by
    simp [losses, n1, n2.trans n1]
  have hsd : (statisticalMoments [a, b]).stdDev ≠ 0 := by
    have hv : 0 < ((a - (a + b) / 2) ^ 2 + (b - (a + b) / 2) ^ 2) / 2 := by
      have : a - b ≠ 0 := sub_ne_zero.2 n2.ne'
      have : 0 < (a - b) ^ 2 := by positivity
      nlinarith
    have := Real.sqrt_pos.2 hv
    simpa [statisticalMoments] using this.ne'
  have e1 := C77_sharpe Ex.lin.env s.log
  have e2 := C77_sortino Ex.lin.env s.log
  have e3 := (C77_kelly Ex.lin.env s.log).2
  simp only [hret, hloss, hsd, List.cons_ne_nil, or_self, if_false] at e1 e2 e3
  refine ⟨s, t, _, _, hr, ht, hrp, e1, (h1 _ e1).2.2 hrp, e2, (h2 _ e2).2.2 hrp, ?_⟩
  have hx := (h1 _ e1).2.2 hrp
  rw [e3]
  have h0 : 0 ≤ (statisticalMoments [a, b]).stdDev := Real.sqrt_nonneg _
  have h0' : 0 < (statisticalMoments [a, b]).stdDev := lt_of_le_of_ne h0 (Ne.symm hsd)
  rw [div_lt_iff₀ h0', zero_mul] at hx
  exact div_neg_of_neg_of_pos hx (by positivity)

/-- The hypothesis of `C77_single_loss` is met by a run with one round trip at a loss. -/
example : ∃ s r, Reachable Ex.lin s ∧ losses (lnReturns (sampled Ex.lin.env s.log)) = [r] ∧
    (Returns.replay Ex.lin.env s.log).sortino = none := by
  have h : Ex.tracked Ex.lin (Ex.opsLoss.take 4) (fun s _ _ =>
      decide (sampledSums s.log = [100000000, 99775880])) = true := by decide +kernel
  unfold Ex.tracked at h
  split at h
  · rename_i s tr hs
    split at h
    · have h1 := of_decide_eq_true h
      have hl : losses (lnReturns (sampled Ex.lin.env s.log)) = [Real.log (997.7588 / 1000)] := by
        have hsc : (Ex.lin.env.scale : ℝ) = 100000 := by norm_num [Ex.lin, Env.scale]
        have hsam : sampled Ex.lin.env s.log = [1000, 997.7588] := by
          rw [sampled, h1, hsc]; norm_num
        rw [hsam]
        simp only [lnReturns, losses]
        rw [List.filter_cons_of_pos, List.filter_nil]
        exact decide_eq_true (Real.log_neg (by norm_num) (by norm_num))
      exact ⟨s, _, ⟨_, history_run hs⟩, hl, C77_single_loss _ _ _ hl⟩
    · simp at h
  · simp at h

end Lfest
