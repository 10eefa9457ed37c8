import Verif.Lemmas.Calls
import Verif.Examples

/-!
# What the account tracker is told and what it makes of it: C63, C64
-/

namespace Lfest

open Spec

/-! ## C64 -/

/-- C64: each API call makes exactly the tracker calls listed in `Spec.calls`, in that order.
(The record is newest first.) -/
theorem C64_tracker_calls (c : Cfg) (ops : List Op) (s s' : State) (op : Op) (r : Resp)
    (h : run c (State.init c) ops = .ok s) (hst : step c s op = .ok (s', r)) :
    s'.log = (calls s (dueAfter (interval c) none (times ops)) op r).reverse ++ s.log := by
  have hr : Reachable c s := ⟨ops, h⟩
  have e := (run_ms ops _ s (Inv.init c) h).2
  simp only [Prod.mk.injEq] at e
  have hd : s.trigger.due = dueAfter (interval c) none (times ops) := e.1
  rw [← hd]
  exact step_calls hr.inv hr.linv.wf hst

/-- C64: the market states reported to the tracker are those observed, one per update. -/
theorem C64_updates_reported (c : Cfg) (ops : List Op) (s : State)
    (h : run c (State.init c) ops = .ok s) :
    s.log.reverse.filterMap (fun ev => match ev with | .update ms => some ms | _ => none) =
      observed ⟨0, 0, 0, 0⟩ ops := by
  have := run_updates ops _ s ⟨[], rfl⟩ h
  rw [List.filterMap_reverse]
  change (updatesIn s.log).reverse = _
  rw [this]
  simp [State.init, updatesIn, MarketState.init]

/-- A candle an hour later fills the resting buy and samples the balances. -/
example : Ex.last Ex.lin Ex.ops1
    (.update (.candle ⟨Ex.d 96, Ex.d 97, Ex.d 90, Ex.d 99, 3600000000001⟩))
    (fun s s' r => decide (calls s (dueAfter (interval Ex.lin) none (times Ex.ops1))
        (.update (.candle ⟨Ex.d 96, Ex.d 97, Ex.d 90, Ex.d 99, 3600000000001⟩)) r =
      [.update ⟨Ex.d 96, Ex.d 97, 3600000000001, 2⟩, .sample (userBalances s.acct) 9650000,
        .limitFill true (Ex.d 2), .trade .buy (Ex.d 95) (Ex.d 2)]) &&
      decide (s'.log.length = s.log.length + 4)) = true := by decide +kernel

/-- Amending a partially filled order to a total of 4 submits what is left. -/
example : Ex.last Ex.lin Ex.ops2 (.amend 1 .sell (Ex.d 111) (Ex.d 4) 7)
    (fun s s' r => decide (calls s none (.amend 1 .sell (Ex.d 111) (Ex.d 4) 7) r =
      [.limitCancel, .limitSubmit ⟨7, .sell, Ex.d 111, Ex.d 2⟩] ∧
      s'.log.length = s.log.length + 2)) = true := by decide +kernel

/-! ## C63 -/

/-- C63: `num_trading_days()` is the number of whole days between the first and the last market
update, and panics exactly when the last one is earlier than the first. An update at time 0 does
not count as the first, see `C63_zero_sentinel`. -/
theorem C63_trading_days (c : Cfg) (ops : List Op) (s : State) (start : Int) (t : FullTracker)
    (first last : MarketState) (h : run c (State.init c) ops = .ok s)
    (hf : (observed ⟨0, 0, 0, 0⟩ ops).head? = some first)
    (hl : (observed ⟨0, 0, 0, 0⟩ ops).getLast? = some last) (h0 : first.ts ≠ 0)
    (ht : FullTracker.replay c.env start s.log = .ok t) :
    (first.ts ≤ last.ts →
      t.numTradingDays = .ok ((last.ts - first.ts).tdiv (24 * 60 * 60 * 1000000000))) ∧
    (last.ts < first.ts → t.numTradingDays = .error .trackerDays) := by
  have hu := run_updates ops _ s ⟨[], rfl⟩ h
  obtain ⟨_, _, m1, m2⟩ := replay_updates ht
  simp only [State.init, updatesIn, MarketState.init, List.filterMap_nil, List.append_nil] at hu
  obtain ⟨xs, hx⟩ := List.getLast?_eq_some_iff.mp hl
  obtain ⟨ys, hy⟩ : ∃ ys, observed ⟨0, 0, 0, 0⟩ ops = first :: ys := by
    cases ho : observed ⟨0, 0, 0, 0⟩ ops with
    | nil => simp [ho] at hf
    | cons a l => simp [ho] at hf; exact ⟨l, by rw [hf]⟩
  have e1 : t.tsLast = last.ts := (m1 last xs.reverse (by rw [← updatesIn] at hu; rw [hu, hx]; simp)).1
  have e2 : t.tsFirst = first.ts :=
    (m2 first ys.reverse (by rw [← updatesIn] at hu; rw [hu, hy]; simp)).1 h0
  simp only [FullTracker.numTradingDays, e1, e2]
  refine ⟨fun hle => ?_, fun hlt => ?_⟩
  · simp [assertP, hle, bind, Except.bind]
  · simp [assertP, show ¬ first.ts ≤ last.ts by omega, bind, Except.bind]

/-- C63: `buy_and_hold_return()` is the profit of buying with the whole starting balance at the
first mid price and holding until the last; `sell_and_hold_return()` is its negative. -/
theorem C63_buy_and_hold (c : Cfg) (ops : List Op) (s : State) (start : Int) (t : FullTracker)
    (first last : MarketState) (h : run c (State.init c) ops = .ok s)
    (hf : (observed ⟨0, 0, 0, 0⟩ ops).head? = some first)
    (hl : (observed ⟨0, 0, 0, 0⟩ ops).getLast? = some last)
    (h1 : mid first ≠ 0) (h2 : mid last ≠ 0)
    (ht : FullTracker.replay c.env start s.log = .ok t) :
    t.buyAndHold c.env =
      .ok (Spec.pnl c.env (mid first) (mid last) (contracts c.env start (mid first))) ∧
    t.sellAndHold c.env =
      .ok (-Spec.pnl c.env (mid first) (mid last) (contracts c.env start (mid first))) := by
  have hu := run_updates ops _ s ⟨[], rfl⟩ h
  obtain ⟨m0, _, m1, m2⟩ := replay_updates ht
  simp only [State.init, updatesIn, MarketState.init, List.filterMap_nil, List.append_nil] at hu
  rw [← updatesIn] at hu
  obtain ⟨xs, hx⟩ := List.getLast?_eq_some_iff.mp hl
  obtain ⟨ys, hy⟩ : ∃ ys, observed ⟨0, 0, 0, 0⟩ ops = first :: ys := by
    cases ho : observed ⟨0, 0, 0, 0⟩ ops with
    | nil => simp [ho] at hf
    | cons a l => simp [ho] at hf; exact ⟨l, by rw [hf]⟩
  have hmid : ∀ ms : MarketState, ms.mid c.env.scale = mid ms := fun ms => mid_eq c ms
  have e1 : t.priceLast = mid last := by
    rw [← hmid]; exact (m1 last xs.reverse (by rw [hu, hx]; simp)).2
  have e2 : t.priceFirst = mid first := by
    rw [← hmid]; rw [← hmid] at h1
    exact (m2 first ys.reverse (by rw [hu, hy]; simp)).2 h1
  have hb : t.buyAndHold c.env =
      .ok (Spec.pnl c.env (mid first) (mid last) (contracts c.env start (mid first))) := by
    have hq : convertBack c.env start (mid first) = .ok (contracts c.env start (mid first)) := by
      cases hk : c.env.kind <;> simp [convertBack, contracts, dmul, ddiv, h1, hk]
    simp only [FullTracker.buyAndHold, m0, e1, e2, hq, bind, Except.bind, pnl_total h1 h2]
  refine ⟨hb, ?_⟩
  simp only [FullTracker.sellAndHold, hb, bind, Except.bind]

/-- C63: with positive quotes, buying and holding does not lose in a rising market and does not
gain in a falling one. -/
theorem C63_direction (c : Cfg) (ops : List Op) (s : State) (start : Int) (t : FullTracker)
    (first last : MarketState) (h : run c (State.init c) ops = .ok s)
    (hf : (observed ⟨0, 0, 0, 0⟩ ops).head? = some first)
    (hl : (observed ⟨0, 0, 0, 0⟩ ops).getLast? = some last)
    (h1 : 0 < mid first) (h2 : 0 < mid last)
    (ht : FullTracker.replay c.env start s.log = .ok t) (v : Int)
    (hv : t.buyAndHold c.env = .ok v) :
    (mid first ≤ mid last → 0 ≤ v) ∧ (mid last ≤ mid first → v ≤ 0) := by
  have h0 : 0 < start := replay_start ht
  rw [(C63_buy_and_hold c ops s start t first last h hf hl (by omega) (by omega) ht).1] at hv
  simp only [ok_inj] at hv
  subst hv
  have hc : 0 ≤ contracts c.env start (mid first) := by
    unfold contracts
    have hs := scale_pos c.env
    split <;> apply Int.tdiv_nonneg <;>
      first | exact Int.mul_nonneg (Int.le_of_lt h0) (Int.le_of_lt (by assumption)) | omega
  have hz : Spec.pnl c.env (mid first) (mid first) (contracts c.env start (mid first)) = 0 := by
    unfold Spec.pnl; split <;> omega
  refine ⟨fun h => ?_, fun h => ?_⟩
  · have := pnl_mono (e := c.env) (entry := mid first) hc h1 h; omega
  · have := pnl_mono (e := c.env) (entry := mid first) hc h2 h; omega

/-- Two and a half days, from 100.5 to 201. -/
example : Ex.tracked Ex.lin [Ex.quoteAt 1, .update (.bba ⟨Ex.d 200, Ex.d 202, 216001000000000⟩)]
    (fun _ _ t => decide (t.numTradingDays = .ok 2 ∧
      t.buyAndHold Ex.lin.env = .ok 99999912 ∧ t.sellAndHold Ex.lin.env = .ok (-99999912))) = true := by
  decide +kernel

/-- C63: time 0 is taken for "no update yet". Here the first update is two days before the
last, but only one day is counted. -/
theorem C63_zero_sentinel :
    Ex.tracked Ex.lin [Ex.quoteAt 0, Ex.quoteAt 86400, Ex.quoteAt 172800]
      (fun _ _ t => decide (t.numTradingDays = .ok 1)) = true := by decide +kernel

/-- C63: going back in time is possible, and makes `num_trading_days()` panic. -/
theorem C63_backwards_panics :
    Ex.tracked Ex.lin [Ex.quoteAt 2, Ex.quoteAt 1]
      (fun _ _ t => decide (t.numTradingDays = .error .trackerDays)) = true := by decide +kernel

/-- C63: before the first update `buy_and_hold_return()` divides by zero on a linear contract. -/
theorem C63_before_first_update :
    Ex.tracked Ex.lin [] (fun _ _ t => decide (t.buyAndHold Ex.lin.env = .error .divByZero)) =
      true := by decide +kernel

end Lfest
