import Verif.Lemmas.Tracker

/-! The record of tracker calls, call by call. -/

namespace Lfest

open Spec

theorem outEvents_calls {c : Cfg} {a : UpdateArg} {u : Update} {os : List Limit}
    {xs : List Out} (hb : a.build c.env.debug = .ok u) (h : Outcomes c u os xs) :
    outEvents xs = (fillCalls a os).reverse := by
  induction h with
  | nil => simp [outEvents, fillCalls]
  | @cons o os x xs h _ ih =>
    rcases h.spec hb with ⟨hr, rfl⟩ | ⟨q, hr, hq, hle, rfl⟩
    · simp only [fillCalls] at ih
      simp [outEvents, Out.events, fillCalls, hr, ih]
    · simp only [fillCalls] at ih
      by_cases he : q = o.remaining <;>
        simp [outEvents, Out.events, fillCalls, hr, ih, report, he, LimitUpdate.isFull, filledBy]

theorem checkActive_calls {c : Cfg} {s s' : State} {a : UpdateArg} {u : Update}
    (hb : a.build c.env.debug = .ok u) (hi : Inv c s) (h : checkActive c s u = .ok s') :
    s'.log = (fillCalls a s.active).reverse ++ s.log := by
  cases hf : u.canFill with
  | false =>
    have hn := canFill_none hb hf
    rw [checkActive_bba h hf]
    simp [fillCalls, hn]
  | true =>
    obtain ⟨xs, hxs, _, _, hl, _⟩ := checkActive_out hi h hf
    rw [hl, outEvents_calls hb hxs]

theorem liquidate_calls {c : Cfg} {s s' : State} (hw : PosWF s.pos)
    (h : liquidate c s = .ok s') :
    s'.log = (takerCalls 0 (closingFill s.pos (s.ms.bid, s.ms.ask))).reverse ++ s.log := by
  simp only [liquidate, bind_ok] at h
  obtain ⟨o, ho, r, hr, h⟩ := h
  split at h
  · simp at h
  · next s1 f =>
    simp only [ok_inj] at h; subst h
    have key : o.uid = 0 ∧ (⟨false, o.side, touchPrice s.ms o.side, o.qty⟩ : Fill) =
          closingFill s.pos (s.ms.bid, s.ms.ask) := by
      unfold liquidationOrder at ho
      cases hp : s.pos with
      | neutral => rw [hp] at ho; simp at ho
      | long p =>
        rw [hp] at ho hw
        have h0 : 0 < p.qty := hw
        simp only at ho
        split at ho
        · next hn =>
          obtain ⟨_, rfl⟩ := newMarket_ok hn
          simp only [ok_inj] at ho; subst ho
          simp [Position.quantity, closingFill, h0, touchPrice]
        · simp at ho
      | short p =>
        rw [hp] at ho hw
        have h0 : 0 < p.qty := hw
        simp only at ho
        split at ho
        · next hn =>
          obtain ⟨_, rfl⟩ := newMarket_ok hn
          simp only [ok_inj] at ho; subst ho
          have : ¬ p.qty < 0 := by omega
          simp [Position.quantity, closingFill, touchPrice, this]
        · simp at ho
    obtain ⟨k1, k2⟩ := key
    obtain ⟨uid, side, qty⟩ := o
    simp only at k1 k2; subst k1
    rcases submitMarket_cases hr with ⟨_, _, _, he⟩ | ⟨hv, ⟨_, _, _, he⟩ | ⟨_, _, _, pos', a', h, he, _⟩⟩
    · simp at he
    · simp at he
    · subst he
      simp [takerCalls, ← k2]

theorem observe_calls {c : Cfg} {s s1 : State} {a : UpdateArg} {u : Update}
    (hb : a.build c.env.debug = .ok u) (h : observe c s u = .ok s1) :
    s1.log = (observeCalls s s.trigger.due (seen s.ms [.update a])).reverse ++ s.log := by
  obtain ⟨h1, h2, h3⟩ := observe_quotes hb h
  have ht := build_ts hb
  simp only [observe, bind_ok, ok_inj] at h
  obtain ⟨ms', hm, rfl⟩ := h
  simp only at h1 h2 h3 ⊢
  have hms : seen s.ms [.update a] = ms' := by
    have e1 : ms'.bid = (quotesAfter s.ms a).1 := by rw [← h1]
    have e2 : ms'.ask = (quotesAfter s.ms a).2 := by rw [← h1]
    simp only [seen, ← h2, ← e1, ← e2, ← h3, Option.getD_some]
  have hts : ms'.ts = u.ts := by rw [ht] at h2; simpa using h2
  rw [hms]
  have hmid : ms'.mid c.scale = mid ms' := mid_eq c ms'
  simp only [observeCalls, hts, hmid, userBalances]
  rcases fire_cases s.trigger u.ts with ⟨h1, h2⟩ | ⟨h1, h2, h3⟩ | ⟨h1, h2, h3⟩
  · rw [if_pos (by rw [h2]), if_pos (by simp [Trigger.due, h1, samples])]; simp
  · rw [if_pos (by rw [h3]), if_pos (by simp only [Trigger.due, h1, samples]; simp; omega)]; simp
  · rw [if_neg (by rw [h3]; simp), if_neg (by simp only [Trigger.due, h1, samples]; simp; omega)]
    simp

theorem cancelLimit_calls {c : Cfg} {s s' : State} {b : CancelBy} {r}
    (h : cancelLimit c s b = .ok (s', r)) :
    (∃ x, r = .ok x ∧ s'.log = .limitCancel :: s.log) ∨ (∃ e, r = .error e ∧ s' = s) := by
  obtain ⟨_, ⟨_, rfl, rfl⟩ | ⟨removed, active', a, m', h1, _, _, _, _, _, rfl, rfl⟩⟩ := cancelLimit_ok h
  · exact .inr ⟨_, rfl, rfl⟩
  · exact .inl ⟨_, rfl, rfl⟩

/-- The tracker calls of an API call. -/
theorem step_calls {c : Cfg} {s s' : State} {op : Op} {r} (hi : Inv c s) (hw : PosWF s.pos)
    (hst : step c s op = .ok (s', r)) :
    s'.log = (calls s s.trigger.due op r).reverse ++ s.log := by
  rcases step_cases hst with ⟨a, u, x, rfl, hb, h, rfl⟩ | ⟨a, u, rfl, hb, h, rfl⟩ | ⟨err, rfl, rfl⟩ |
    ⟨_, _, _, x, rfl, _, h, rfl⟩ | ⟨_, _, _, _, x, rfl, hp, hq, h, rfl⟩ |
    ⟨id, _, _, qty, _, y, rfl, _, _, h, rfl⟩ | ⟨_, x, rfl, h, rfl⟩
  · simp only [updateState, bind_ok] at h
    obtain ⟨s1, h1, h⟩ := h
    have hk := observe_calls hb h1
    have hqt := (observe_quotes hb h1).1
    obtain ⟨e1, e2, f3, f4, f5, _⟩ := observe_fields h1
    split at h
    · simp only [bind_ok, ok_inj, Prod.mk.injEq] at h
      obtain ⟨s2, h2, rfl, rfl⟩ := h
      have := liquidate_calls (by rw [e2]; exact hw) h2
      rw [this, hk, e2, hqt]
      simp [calls]
    · simp only [bind_ok, ok_inj, Prod.mk.injEq] at h
      obtain ⟨s2, h2, rfl, rfl⟩ := h
      have := checkActive_calls hb (hi.congr f3 f4 (by omega)) h2
      rw [this, hk, f3]
      simp [calls]
  · simp [calls, checkActive_calls hb hi h]
  · cases op <;> simp [calls]
  · rcases submitMarket_cases h with ⟨err, _, rfl, rfl⟩ | ⟨_, ⟨err, _, rfl, rfl⟩ |
      ⟨_, _, _, pos', a', _, rfl, rfl⟩⟩ <;> simp [calls, takerCalls]
  · obtain ⟨_, _, _, _, _, hl, _⟩ := submitLimit_arenas (fun x hx => (hi.orders x hx).fresh) h
    simp [calls, hl]
  · rcases amendLimit_cases h with ⟨_, rfl, rfl⟩ | ⟨old, total, hg, ht, ⟨_, rfl, x, hc⟩ | ⟨hq, h⟩⟩
    · simp only [missingOrder]; split <;> simp [calls]
    · rcases cancelLimit_calls hc with ⟨_, _, hl⟩ | ⟨_, he, _⟩
      · simp [calls, hl]
      · simp at he
    · rcases h with ⟨err, hc, rfl⟩ | ⟨s1, x, hc, hs⟩
      · obtain ⟨_, ⟨_, rfl, he⟩ | ⟨_, _, _, _, _, _, _, _, _, _, _, he⟩⟩ := cancelLimit_ok hc
        · simp only [Except.error.injEq] at he
          subst he
          simp only [cancelError, missingOrder]; split <;> simp [calls]
        · simp at he
      · have hf : ∀ x ∈ s1.active, x.id < s1.nextId :=
          fun x hx => ((cancelLimit_inv hi hc).orders x hx).fresh
        obtain ⟨_, _, _, _, _, hl, _⟩ := submitLimit_arenas hf hs
        have hlc : s1.log = .limitCancel :: s.log := by
          rcases cancelLimit_calls hc with ⟨_, _, hl⟩ | ⟨_, he, _⟩
          · exact hl
          · simp at he
        have hqty : old.remaining + (qty - total) = amendedQty s id qty := by
          have hg' : s.active.find? (fun o => o.id == id) = some old := by
            simpa [Book.getById] using hg
          have : total = old.filledQuantity + old.remaining := by
            simp only [Limit.totalQuantity, bind_ok, assertP_ok, ok_inj] at ht
            obtain ⟨_, _, rfl⟩ := ht
            simp only [Limit.filledQuantity]; split <;> omega
          simp only [amendedQty, hg']; omega
        rw [hl, hlc]
        simp only [hqty]
        cases y with
        | ok y => simp [calls]
        | error e =>
          rcases submitLimit_err hf hs with ⟨e, rfl⟩ | ⟨e, rfl⟩ | rfl <;> simp [calls]
  · rcases cancelLimit_calls h with ⟨_, rfl, hl⟩ | ⟨_, rfl, rfl⟩ <;> simp [calls, *]

/-! ### The updates in the record -/

/-- The market states reported to the tracker, newest first. -/
def updatesIn (log : List Event) : List MarketState :=
  log.filterMap (fun ev => match ev with | .update ms => some ms | _ => none)

theorem updatesIn_append (xs ys : List Event) : updatesIn (xs ++ ys) = updatesIn xs ++ updatesIn ys := by
  simp [updatesIn]

theorem fillCalls_updates (a : UpdateArg) (os : List Limit) : updatesIn (fillCalls a os).reverse = [] := by
  induction os with
  | nil => rfl
  | cons o os ih =>
    simp only [fillCalls, List.flatMap_cons, List.reverse_append, updatesIn_append] at ih ⊢
    rw [ih]
    split <;> simp [updatesIn]

theorem calls_updates (s : State) (due : Option Int) (op : Op) (r : Resp)
    (hr : ∀ a, op = .update a → ∃ x, r = .update x) :
    updatesIn (calls s due op r).reverse = (observed s.ms [op]).reverse := by
  have ho : ∀ ms, updatesIn (observeCalls s due ms).reverse = [ms] := by
    intro ms; unfold observeCalls; split <;> simp [updatesIn]
  have ht : ∀ uid f, updatesIn (takerCalls uid f).reverse = [] := by
    intro uid f; simp [takerCalls, updatesIn]
  cases op with
  | update a =>
    obtain ⟨x, rfl⟩ := hr a rfl
    cases x <;> simp only [calls, List.reverse_append, updatesIn_append, ho, ht, fillCalls_updates] <;>
      simp [observed]
  | checkActive a =>
    cases r <;> simp only [calls, fillCalls_updates] <;> simp [observed, updatesIn]
  | market side q uid =>
    cases r with
    | market x => cases x <;> simp [calls, takerCalls, updatesIn, observed]
    | _ => simp [calls, updatesIn, observed]
  | limit side p q uid => cases r <;> simp [calls, updatesIn, observed]
  | cancel b =>
    cases r with
    | limit x => cases x <;> simp [calls, updatesIn, observed]
    | _ => simp [calls, updatesIn, observed]
  | amend id side p q uid =>
    cases r with
    | limit x =>
      simp only [calls]
      split <;> simp [updatesIn, observed]
    | _ => simp [calls, updatesIn, observed]

theorem observed_cons (m : MarketState) (op : Op) (ops : List Op) :
    observed m (op :: ops) = observed m [op] ++ observed (seen m [op]) ops := by
  cases op <;> simp [observed, seen]

theorem step_update_resp {c : Cfg} {s s' : State} {op : Op} {r}
    (hst : step c s op = .ok (s', r)) : ∀ a, op = .update a → ∃ x, r = .update x := by
  rintro a rfl
  simp only [step, bind_ok, ok_inj, Prod.mk.injEq] at hst
  obtain ⟨_, _, _, _, _, h⟩ := hst
  exact ⟨_, h.symm⟩

theorem run_updates {c : Cfg} : ∀ (ops : List Op) (s s' : State), Reachable c s →
    run c s ops = .ok s' → updatesIn s'.log = (observed s.ms ops).reverse ++ updatesIn s.log := by
  intro ops
  induction ops with
  | nil => intro s s' _ h; simp only [run, ok_inj] at h; subst h; simp [observed]
  | cons op ops ih =>
    intro s s' hr h
    simp only [run, bind_ok] at h
    obtain ⟨⟨s1, r⟩, h1, h2⟩ := h
    have e := step_calls hr.inv hr.linv.wf h1
    rw [ih s1 s' (hr.step h1) h2, e, updatesIn_append, calls_updates _ _ _ _ (step_update_resp h1),
      (step_ms hr.inv h1).1, observed_cons s.ms op ops]
    simp

/-- First and last update as the tracker keeps them. -/
def Marks (e : Env) (start : Int) (us : List MarketState) (t : FullTracker) : Prop :=
  t.walletStart = start ∧
  (us = [] → t.tsFirst = 0 ∧ t.priceFirst = 0 ∧ t.tsLast = 0 ∧ t.priceLast = 0) ∧
  (∀ ms rest, us = ms :: rest → t.tsLast = ms.ts ∧ t.priceLast = ms.mid e.scale) ∧
  (∀ ms rest, us = rest ++ [ms] → (ms.ts ≠ 0 → t.tsFirst = ms.ts) ∧
    (ms.mid e.scale ≠ 0 → t.priceFirst = ms.mid e.scale))

theorem replay_updates {e : Env} {start : Int} : ∀ {l : List Event} {t : FullTracker},
    FullTracker.replay e start l = .ok t → Marks e start (updatesIn l) t := by
  intro l
  induction l with
  | nil =>
    intro t h; obtain ⟨_, rfl⟩ := new_ok (replay_nil h); simp [updatesIn, Marks]
  | cons ev l ih =>
    intro t h
    obtain ⟨t0, h0, h1⟩ := replay_cons h
    obtain ⟨i0, i1, i2, i3⟩ := ih h0
    have other : updatesIn (ev :: l) = updatesIn l → t.walletStart = t0.walletStart →
        t.tsFirst = t0.tsFirst → t.priceFirst = t0.priceFirst → t.tsLast = t0.tsLast →
        t.priceLast = t0.priceLast → Marks e start (updatesIn (ev :: l)) t := by
      intro a b c d f g
      unfold Marks
      rw [a, b, c, d, f, g]
      exact ⟨i0, i1, i2, i3⟩
    cases ev with
    | trade side p q => obtain ⟨_, rfl⟩ := handle_trade h1; exact other rfl rfl rfl rfl rfl rfl
    | limitFill b q => have := handle_limitFill h1; subst this; exact other rfl rfl rfl rfl rfl rfl
    | update ms =>
      simp only [FullTracker.handle, ok_inj] at h1
      subst h1
      have e : updatesIn (.update ms :: l) = ms :: updatesIn l := rfl
      rw [e]
      refine ⟨i0, by simp, ?_, ?_⟩
      · intro ms' rest h; simp only [List.cons.injEq] at h; rw [h.1]; simp
      · intro ms' rest h
        cases rest with
        | nil =>
          simp only [List.nil_append, List.cons.injEq] at h
          obtain ⟨rfl, h⟩ := h
          obtain ⟨j1, j2, _⟩ := i1 h
          simp [j1, j2]
        | cons x rest =>
          simp only [List.cons_append, List.cons.injEq] at h
          obtain ⟨j1, j2⟩ := i3 ms' rest h.2
          refine ⟨fun k => ?_, fun k => ?_⟩
          · simp only [j1 k, k, if_false]
          · simp only [j2 k, k, if_false]
    | _ => simp only [FullTracker.handle, ok_inj] at h1; subst h1; exact other rfl rfl rfl rfl rfl rfl

theorem replay_start {e : Env} {start : Int} : ∀ {l : List Event} {t : FullTracker},
    FullTracker.replay e start l = .ok t → 0 < start := by
  intro l
  induction l with
  | nil => intro t h; exact (new_ok (replay_nil h)).1
  | cons ev l ih => intro t h; obtain ⟨t0, h0, _⟩ := replay_cons h; exact ih h0

end Lfest
