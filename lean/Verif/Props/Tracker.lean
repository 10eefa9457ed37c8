import Verif.Lemmas.Tracker
import Verif.Examples

/-!
# Market state, tracker and sampling: C43, C50, C51, C52, C53
-/

namespace Lfest

open Spec

/-! ## C43 -/

/-- C43: market time, number of updates and quotes are determined by the updates: the time and
number of the last update, the quotes of the last update that carried quotes. (An update of the
user's own type may put another market state in place.) -/
theorem C43_market_state (c : Cfg) (ops : List Op) (s : State)
    (h : run c (State.init c) ops = .ok s) : s.ms = seen ⟨0, 0, 0, 0⟩ ops :=
  (run_ms ops _ s (Inv.init c) h).1

/-- C43: one update. -/
theorem C43_update (c : Cfg) (s s' : State) (u : UpdateArg) (r : Resp) (hr : Reachable c s)
    (hst : step c s (.update u) = .ok (s', r)) :
    updateTime u = some s'.ms.ts ∧ s'.ms.step = stepAfter s.ms u ∧
      (s'.ms.bid, s'.ms.ask) = quotesAfter s.ms u := by
  have h1 := (step_ms hr.inv hst).1
  obtain ⟨t, ht⟩ := times_update hst
  have hu : updateTime u = some t := by
    cases hu : updateTime u with
    | none => simp [times, hu] at ht
    | some x => simp [times, hu] at ht; rw [ht]
  rw [h1]
  simp [seen, hu]

/-- C43: calls other than updates leave the market state alone. -/
theorem C43_other_calls (c : Cfg) (s s' : State) (op : Op) (r : Resp) (hr : Reachable c s)
    (hu : ∀ u, op ≠ .update u) (hst : step c s op = .ok (s', r)) : s'.ms = s.ms := by
  have h1 := (step_ms hr.inv hst).1
  cases op with
  | update u => exact absurd rfl (hu u)
  | _ => exact h1

/-- C43: the mid price lies between the quotes. -/
theorem C43_mid_between (c : Cfg) (ms : MarketState) (h : ms.bid ≤ ms.ask) :
    ms.bid ≤ ms.mid c.env.scale ∧ ms.mid c.env.scale ≤ ms.ask := by
  have e : ms.mid c.env.scale = (ms.bid + ms.ask).tdiv 2 := mid_eq c ms
  rw [e, Int.tdiv_eq_ediv]
  split
  · omega
  · simp only [show Int.sign 2 = 1 from rfl]; omega

/-- C43: in a debug build the quotes never cross, so the mid price always lies between them. -/
theorem C43_never_crossed (c : Cfg) (ops : List Op) (s : State) (hd : c.env.debug = true)
    (hk : ∀ u, .update u ∈ ops → uncrossed u) (h : run c (State.init c) ops = .ok s) :
    s.ms.bid ≤ s.ms.ask ∧ s.ms.bid ≤ s.ms.mid c.env.scale ∧ s.ms.mid c.env.scale ≤ s.ms.ask := by
  have : ∀ (ops : List Op) (s0 : State), Reachable c s0 → s0.ms.bid ≤ s0.ms.ask →
      (∀ u, .update u ∈ ops → uncrossed u) → run c s0 ops = .ok s → s.ms.bid ≤ s.ms.ask := by
    intro ops
    induction ops with
    | nil => intro s0 _ h0 _ h; simp only [run, ok_inj] at h; exact h ▸ h0
    | cons op ops ih =>
      intro s0 hr h0 hk h
      simp only [run, bind_ok] at h
      obtain ⟨⟨s1, r⟩, h1, h⟩ := h
      exact ih s1 (hr.step h1)
        (step_spread hd hr.inv h0 (fun a e => hk a (by simp [e])) h1)
        (fun u hu => hk u (by simp [hu])) h
  have := this ops _ ⟨[], rfl⟩ (by simp [State.init, MarketState.init]) hk h
  exact ⟨this, C43_mid_between c s.ms this⟩

/-- Three updates, the last one a candle at 96 / 97. -/
example : Ex.after Ex.lin (Ex.ops2 ++ [.update (.candle ⟨Ex.d 96, Ex.d 97, Ex.d 90, Ex.d 99, 3⟩)])
    (fun s => decide (s.ms = ⟨Ex.d 96, Ex.d 97, 3, 3⟩ ∧ s.ms.mid Ex.lin.env.scale = 9650000))
    = true := by decide +kernel

/-- A trade moves the time but not the quotes. -/
example : Ex.after Ex.lin Ex.ops2
    (fun s => decide (s.ms = ⟨Ex.d 100, Ex.d 101, 2, 2⟩)) = true := by decide +kernel

/-! ## C50 -/

/-- C50: the account tracker never panics on what the exchange reports to it. -/
theorem C50_tracker_total (c : Cfg) (s : State) (start : Int) (hr : Reachable c s)
    (h0 : 0 < start) : ∃ t, FullTracker.replay c.env start s.log = .ok t := by
  obtain ⟨t, h, _⟩ := hr.tracks h0
  exact ⟨t, h⟩

/-- C50: every submitted limit order was rejected, cancelled, fully filled, or is active. -/
theorem C50_limit_counters (c : Cfg) (ops : List Op) (s : State) (tr : List (Op × Resp))
    (start : Int) (t : FullTracker) (h : history c (State.init c) ops = .ok (s, tr))
    (ht : FullTracker.replay c.env start s.log = .ok t) :
    t.submittedLimit =
      (tr.map rejected).sum + t.cancelledLimit + t.fullyFilledLimit + s.active.length ∧
    t.fullyFilledLimit ≤ t.filledLimitEvents := by
  obtain ⟨h1, _⟩ := history_bal h
  obtain ⟨h2, _, h3, _⟩ := replay_counts ht
  exact ⟨by omega, h3⟩

/-- C50: every submitted market order, including those of liquidations, was rejected or
filled. -/
theorem C50_market_counters (c : Cfg) (ops : List Op) (s : State) (tr : List (Op × Resp))
    (start : Int) (t : FullTracker) (h : history c (State.init c) ops = .ok (s, tr))
    (ht : FullTracker.replay c.env start s.log = .ok t) :
    t.submittedMarket = (tr.map rejectedMarket).sum + t.filledMarket := by
  obtain ⟨_, h1⟩ := history_bal h
  obtain ⟨_, h2, _⟩ := replay_counts ht
  omega

/-- C50: the fill counters count the fills: taker fills of market orders, the others of limit
orders. -/
theorem C50_fill_counters (c : Cfg) (s : State) (start : Int) (t : FullTracker)
    (hr : Reachable c s) (ht : FullTracker.replay c.env start s.log = .ok t) :
    t.filledMarket = takerFills (fills s.log) ∧
    t.filledLimitEvents + t.filledMarket = (fills s.log).length := by
  have h0 : 0 < start := by
    have : ∀ (l : List Event) (t : FullTracker), FullTracker.replay c.env start l = .ok t → 0 < start := by
      intro l
      induction l with
      | nil => intro t h; exact (new_ok (replay_nil h)).1
      | cons ev l ih => intro t h; obtain ⟨t0, h0, _⟩ := replay_cons h; exact ih t0 h0
    exact this _ _ ht
  obtain ⟨t', h1, _, _, h4, h5⟩ := hr.tracks h0
  have : t' = t := by
    have := h1.symm.trans ht
    simpa using this
  subst this
  exact ⟨h4, by rw [h4]; exact h5⟩

/-- Four submissions: one too large, one cancelled, one filled in two steps, one active; two
market orders, one of them too large. -/
example : Ex.tracked Ex.lin (Ex.ops2 ++ [.update (.trade ⟨3, Ex.d 112, Ex.d 4, .buy⟩),
      .limit .buy (Ex.d 90) (Ex.d 1000) 4, .limit .buy (Ex.d 91) (Ex.d 1) 5,
      .cancel (.orderId 2), .market .buy (Ex.d 1000) 0])
    (fun s tr t => decide (t.submittedLimit = 4 ∧ (tr.map rejected).sum = 1 ∧
      t.cancelledLimit = 1 ∧ t.fullyFilledLimit = 1 ∧ t.filledLimitEvents = 2 ∧
      s.active.length = 1 ∧ t.submittedMarket = 2 ∧ (tr.map rejectedMarket).sum = 1 ∧
      t.filledMarket = 1)) = true := by decide +kernel

/-! ## C51 -/

/-- C51: the volumes are the values of the buy and sell fills. -/
theorem C51_volumes (c : Cfg) (s : State) (start : Int) (t : FullTracker)
    (hr : Reachable c s) (h0 : 0 < start)
    (ht : FullTracker.replay c.env start s.log = .ok t) :
    t.buyVolume = volume c .buy (fills s.log) ∧ t.sellVolume = volume c .sell (fills s.log) ∧
    t.turnover = ((fills s.log).map (fun f => value c.env f.qty f.price)).sum := by
  obtain ⟨t', h1, h2, h3, _⟩ := hr.tracks h0
  have : t' = t := by
    have := h1.symm.trans ht
    simpa using this
  subst this
  refine ⟨h2, h3, ?_⟩
  rw [FullTracker.turnover, h2, h3]
  simp only [State.core]
  generalize fills s.log = fs
  induction fs with
  | nil => simp [volume]
  | cons f fs ih =>
    simp only [volume, List.map_cons, List.sum_cons, ← ih]
    cases f.side <;> simp <;> omega

/-- C51: turnover never decreases. -/
theorem C51_turnover_mono (c : Cfg) (s s' : State) (op : Op) (r : Resp) (start : Int)
    (t t' : FullTracker) (hr : Reachable c s) (h0 : 0 < start)
    (hst : step c s op = .ok (s', r))
    (ht : FullTracker.replay c.env start s.log = .ok t)
    (ht' : FullTracker.replay c.env start s'.log = .ok t') : t.turnover ≤ t'.turnover := by
  have hr' := hr.step hst
  rw [(C51_volumes c s start t hr h0 ht).2.2, (C51_volumes c s' start t' hr' h0 ht').2.2]
  obtain ⟨new, e, hx⟩ := (hr.core hst).suffix
  clear hx
  have hp := hr'.fill_price
  simp only [State.core] at e
  rw [e] at hp ⊢
  rw [List.map_append, List.sum_append]
  have : 0 ≤ (new.map (fun f => value c.env f.qty f.price)).sum := by
    have hn : ∀ f ∈ new, 0 < f.price ∧ 0 < f.qty := fun f hf => hp f (by simp [hf])
    clear hp e
    induction new with
    | nil => simp
    | cons f fs ih =>
      have h1 := hn f (by simp)
      have := value_nonneg c.env (q := f.qty) (p := f.price) (by omega) (by omega)
      have := ih (fun g hg => hn g (by simp [hg]))
      simp only [List.map_cons, List.sum_cons]
      omega
  omega

/-- Bought 5 at 101, sold 2 at 110. -/
example : Ex.tracked Ex.lin Ex.ops2 (fun _ _ t => decide
    (t.buyVolume = Ex.d 505 ∧ t.sellVolume = Ex.d 220 ∧ t.turnover = Ex.d 725)) = true := by
  decide +kernel

/-! ## C52 -/

/-- C52: `rpnl()` after one call. An update at which a sample is due sets it to the sum of the
user balances before the update less the starting balance. All other calls leave it alone. -/
theorem C52_rpnl_step (c : Cfg) (ops : List Op) (s s' : State) (op : Op) (r : Resp)
    (start : Int) (t t' : FullTracker) (h : run c (State.init c) ops = .ok s)
    (hst : step c s op = .ok (s', r))
    (ht : FullTracker.replay c.env start s.log = .ok t)
    (ht' : FullTracker.replay c.env start s'.log = .ok t') :
    (∀ u τ, op = .update u → updateTime u = some τ →
      samples (dueAfter (interval c) none (times ops)) τ → t'.rpnl = equity s - start) ∧
    ((∀ τ ∈ times [op], ¬ samples (dueAfter (interval c) none (times ops)) τ) →
      t'.rpnl = t.rpnl) := by
  have hi := run_inv h
  have e := (run_ms ops _ s (Inv.init c) h).2
  simp only [Prod.mk.injEq] at e
  have hd : s.trigger.due = dueAfter (interval c) none (times ops) := e.1
  rw [← hd]
  have h1 := (replay_counts ht).2.2.2
  have h1' := (replay_counts ht').2.2.2
  have h2 := replay_lastSum ht
  have h2' := replay_lastSum ht'
  simp only [FullTracker.rpnl, h1, h1', h2, h2']
  rcases step_sample hi hst with ⟨a, τ, rfl, k1, k2, k3, _⟩ | ⟨k1, k2⟩
  · refine ⟨fun u τ' _ _ _ => by rw [k3], fun hn => ?_⟩
    exact absurd k2 (hn τ (by simp [times, k1]))
  · refine ⟨fun u τ hu hτ hs => ?_, fun _ => by rw [k2.eq.1]⟩
    subst hu
    exact absurd hs (k1 τ (by simp [times, hτ]))

/-- C52: `rpnl()` is the sum of the user balances at the last sample less the starting
balance: if the update after `before` samples and none of the later calls do, it is the
equity after `before`. -/
theorem C52_rpnl (c : Cfg) (before later : List Op) (u : UpdateArg) (τ : Int) (s s' : State)
    (start : Int) (t : FullTracker) (h : run c (State.init c) before = .ok s)
    (h' : run c (State.init c) (before ++ .update u :: later) = .ok s')
    (hu : updateTime u = some τ)
    (hs : samples (dueAfter (interval c) none (times before)) τ)
    (hl : sampleCount (interval c) (dueAfter (interval c) none (times before ++ [τ]))
      (times later) = 0)
    (ht : FullTracker.replay c.env start s'.log = .ok t) :
    t.rpnl = equity s - start := by
  have hi := run_inv h
  have e := (run_ms before _ s (Inv.init c) h).2
  simp only [Prod.mk.injEq] at e
  have hd : s.trigger.due = dueAfter (interval c) none (times before) := e.1
  have hint : s.trigger.interval = interval c := e.2
  rw [run_append h] at h'
  simp only [run, bind_ok] at h'
  obtain ⟨⟨s1, r⟩, h1, h2⟩ := h'
  have hk := (step_ms hi h1).2
  simp only [Prod.mk.injEq, times, hu, Option.toList_some, List.append_nil] at hk
  rw [hint, hd, ← dueAfter_append] at hk
  have hi1 := step_inv hi h1
  have := (run_sampleNum later s1 s' hi1 h2).2 (by rw [hk.2, hk.1]; exact hl)
  rw [FullTracker.rpnl, (replay_counts ht).2.2.2, replay_lastSum ht, this]
  rcases step_sample hi h1 with ⟨a, τ', ha, k1, k2, k3, _⟩ | ⟨k1, k2⟩
  · rw [k3]
  · exact absurd (by rw [hd]; exact hs) (k1 τ (by simp [times, hu]))

/-- One hour later the balances are sampled again: the fee of the market order is visible. -/
example : Ex.tracked Ex.lin (Ex.ops1 ++ [.update (.bba ⟨Ex.d 102, Ex.d 103, 3600000000001⟩)])
    (fun s _ t => decide (t.rpnl = equity s - Ex.lin.start ∧
      samples (dueAfter (interval Ex.lin) none (times Ex.ops1)) 3600000000001)) = true := by
  decide +kernel

/-- The first update samples. -/
example : Ex.tracked Ex.lin Ex.ops1 (fun _ _ t => decide (t.rpnl = 0)) = true := by
  decide +kernel

/-! ## C53 -/

/-- C53: with non-decreasing update times, the number of samples taken is at most
`1 + (last - first) / interval`, and at least one. -/
theorem C53_at_most (c : Cfg) (ops : List Op) (s : State) (first last : Int)
    (h : run c (State.init c) ops = .ok s) (hsort : (times ops).Pairwise (· ≤ ·))
    (hf : (times ops).head? = some first) (hl : (times ops).getLast? = some last) :
    1 ≤ samplesIn s.log ∧
    ((samplesIn s.log : Int) - 1) * interval c ≤ last - first := by
  have hn := (run_sampleNum ops _ s (Inv.init c) h).1
  have e1 : (State.init c).trigger.interval = interval c := rfl
  have e2 : (State.init c).trigger.due = none := rfl
  have e3 : sampleNum (State.init c).log = 0 := rfl
  rw [e1, e2, e3] at hn
  rw [samplesIn_eq, hn]
  generalize times ops = ts at *
  cases ts with
  | nil => simp at hf
  | cons t ts =>
    simp only [List.head?_cons, Option.some.injEq] at hf
    subst hf
    simp only [sampleCount]
    refine ⟨by omega, ?_⟩
    have hle : ∀ x ∈ t :: ts, x ≤ last := by
      intro x hx
      have hl' := List.getLast?_eq_some_iff.mp hl
      obtain ⟨ys, hy⟩ := hl'
      rw [hy] at hx hsort
      rcases List.mem_append.mp hx with hx | hx
      · exact (List.pairwise_append.mp hsort).2.2 x hx last (by simp)
      · simp at hx; omega
    by_cases h0 : sampleCount (interval c) (some (t + interval c)) ts = 0
    · rw [h0]
      have := hle t (by simp)
      simp; omega
    · have := sampleCount_le (interval c) ts (t + interval c) last
        (fun x hx => hle x (by simp [hx])) (by omega)
      simp only [Int.sub_mul, Int.one_mul] at this
      simp only [Nat.zero_add, Int.natCast_add, Int.natCast_one, Int.sub_mul, Int.add_mul, Int.one_mul]
      omega

/-- C53: the sampling keeps up: if consecutive updates are at most one interval apart, the
samples taken cover the whole time, `last - first < n * interval`. -/
theorem C53_keeps_up (c : Cfg) (ops : List Op) (s : State) (first last : Int)
    (hpos : 0 < c.sampleSecs) (h : run c (State.init c) ops = .ok s)
    (hgap : gapsAtMost (interval c) (times ops))
    (hf : (times ops).head? = some first) (hl : (times ops).getLast? = some last) :
    last - first < (samplesIn s.log : Int) * interval c := by
  have hn := (run_sampleNum ops _ s (Inv.init c) h).1
  have e1 : (State.init c).trigger.interval = interval c := rfl
  have e2 : (State.init c).trigger.due = none := rfl
  have e3 : sampleNum (State.init c).log = 0 := rfl
  rw [e1, e2, e3] at hn
  rw [samplesIn_eq, hn]
  have hi : 0 < interval c := by unfold interval; omega
  generalize times ops = ts at *
  cases ts with
  | nil => simp at hf
  | cons t ts =>
    simp only [List.head?_cons, Option.some.injEq] at hf
    subst hf
    simp only [sampleCount]
    have := sampleCount_ge (interval c) ts (t + interval c) t (by omega) hgap last hl
    simp only [Nat.zero_add, Int.natCast_add, Int.natCast_one, Int.add_mul, Int.one_mul]
    omega

/-- C53, exactly: with non-decreasing update times, the number of samples taken is the least, over
all updates, of the number of sampling intervals begun by that update (counted from the first
update) plus the number of updates after it. -/
theorem C53_exact (c : Cfg) (ops : List Op) (s : State) (first : Int) (hpos : 0 < c.sampleSecs)
    (h : run c (State.init c) ops = .ok s) (hsort : (times ops).Pairwise (· ≤ ·))
    (hf : (times ops).head? = some first) :
    (∀ before t after, times ops = before ++ t :: after →
      (samplesIn s.log : Int) ≤ (t - first) / interval c + 1 + after.length) ∧
    ∃ before t after, times ops = before ++ t :: after ∧
      (samplesIn s.log : Int) = (t - first) / interval c + 1 + after.length := by
  have hn := (run_sampleNum ops _ s (Inv.init c) h).1
  have e1 : (State.init c).trigger.interval = interval c := rfl
  have e2 : (State.init c).trigger.due = none := rfl
  have e3 : sampleNum (State.init c).log = 0 := rfl
  rw [e1, e2, e3] at hn
  rw [samplesIn_eq, hn]
  have hi : 0 < interval c := by unfold interval; omega
  generalize times ops = ts at *
  generalize interval c = I at *
  clear hn
  cases ts with
  | nil => simp at hf
  | cons t ts =>
    simp only [List.head?_cons, Option.some.injEq] at hf
    subst hf
    obtain ⟨hs1, hs2⟩ := List.pairwise_cons.mp hsort
    obtain ⟨h1, h2⟩ := sampleCount_exact I t hi ts 1 hs2 (fun x hx => by
      have := Int.ediv_nonneg (by have := hs1 x hx; omega : 0 ≤ x - t) (Int.le_of_lt hi); omega)
    have hlen := sampleCount_le_length I ts (some (t + 1 * I))
    have hz : (t - t) / I = 0 := by simp
    simp only [sampleCount]
    rw [Int.one_mul] at h1 h2 hlen
    refine ⟨fun pre x post hsp => ?_, ?_⟩
    · cases pre with
      | nil =>
        simp only [List.nil_append, List.cons.injEq] at hsp
        obtain ⟨rfl, rfl⟩ := hsp
        rw [hz]; omega
      | cons y ys =>
        simp only [List.cons_append, List.cons.injEq] at hsp
        have := h1 ys x post hsp.2; omega
    · rcases h2 with h2 | ⟨pre, x, post, hsp, h2⟩
      · exact ⟨[], t, ts, rfl, by rw [hz]; omega⟩
      · exact ⟨t :: pre, x, post, by rw [hsp]; rfl, by omega⟩

/-- Six updates; by the last one, at 3:59:59, four intervals have begun. -/
example : Ex.after Ex.lin [Ex.quoteAt 0, Ex.quoteAt 1, Ex.quoteAt 10800, Ex.quoteAt 10801,
      Ex.quoteAt 14399, Ex.quoteAt 14399]
      (fun s => decide (samplesIn s.log = 4)) = true ∧
    (times [Ex.quoteAt 0, Ex.quoteAt 1, Ex.quoteAt 10800, Ex.quoteAt 10801,
      Ex.quoteAt 14399, Ex.quoteAt 14399]).Pairwise (· ≤ ·) := by decide +kernel

/-- Samples are not always an interval apart: after a gap in the data the exchange samples at every
update until it has caught up, here four samples one second apart (interval one hour). -/
theorem C53_catch_up :
    Ex.lin.sampleSecs = 3600 ∧
    Ex.after Ex.lin [Ex.quoteAt 0, Ex.quoteAt 14400, Ex.quoteAt 14401, Ex.quoteAt 14402, Ex.quoteAt 14403]
      (fun s => decide (samplesIn s.log = 5)) = true := by decide +kernel

/-- Two hours in steps of half an hour: three samples. -/
example : Ex.after Ex.lin [Ex.quoteAt 0, Ex.quoteAt 1800, Ex.quoteAt 3600, Ex.quoteAt 5400, Ex.quoteAt 7200]
      (fun s => decide (samplesIn s.log = 3)) = true ∧
    (times [Ex.quoteAt 0, Ex.quoteAt 1800, Ex.quoteAt 3600, Ex.quoteAt 5400, Ex.quoteAt 7200]).Pairwise (· ≤ ·) ∧
    gapsAtMost (interval Ex.lin)
      (times [Ex.quoteAt 0, Ex.quoteAt 1800, Ex.quoteAt 3600, Ex.quoteAt 5400, Ex.quoteAt 7200]) := by
  refine ⟨by decide +kernel, by decide +kernel, ?_⟩
  simp [gapsAtMost, times, Ex.quoteAt, updateTime, interval, Ex.lin]

end Lfest
