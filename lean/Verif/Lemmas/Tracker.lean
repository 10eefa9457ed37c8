import Verif.Lemmas.Prices

/-! Market state, sampling trigger and tracker calls along histories. -/

namespace Lfest

open Spec

/-! ### Market state and trigger -/

theorem checkActive_fields {c : Cfg} {s s' : State} {u : Update}
    (h : checkActive c s u = .ok s') :
    s'.ms = s.ms ∧ s'.nextId = s.nextId ∧ s'.trigger = s.trigger := by
  cases hf : u.canFill with
  | false => rw [checkActive_bba h hf]; simp
  | true =>
    obtain ⟨l, orders, active', h1, h2, _, hw, rfl⟩ := checkActive_ok h hf
    simp

theorem amendLimit_fields {c : Cfg} {s s' : State} {id : Nat} {o : NewLimit} {r} (hi : Inv c s)
    (h : amendLimit c s id o = .ok (s', r)) :
    s'.ms = s.ms ∧ s'.trigger = s.trigger := by
  rcases amendLimit_cases h with ⟨_, rfl, _⟩ | ⟨old, total, _, _, ⟨_, _, x, hc⟩ | ⟨hq, h⟩⟩
  · simp
  · have := cancelLimit_fields hc; simp [this]
  · rcases h with ⟨err, hc, _⟩ | ⟨s1, x, hc, hs⟩
    · have := cancelLimit_fields hc; simp [this]
    · have e1 := cancelLimit_fields hc
      obtain ⟨_, e2, _, e3, _⟩ :=
        submitLimit_arenas (fun x hx => ((cancelLimit_inv hi hc).orders x hx).fresh) hs
      simp [e1, e2, e3]

theorem fire_cases (t : Trigger) (ts : Int) :
    (t.init = true ∧ t.fire ts = (⟨t.interval, ts, false⟩, true)) ∨
    (t.init = false ∧ t.last + t.interval ≤ ts ∧
      t.fire ts = (⟨t.interval, t.last + t.interval, false⟩, true)) ∨
    (t.init = false ∧ ts < t.last + t.interval ∧ t.fire ts = (t, false)) := by
  unfold Trigger.fire
  cases h : t.init with
  | true => simp
  | false =>
    by_cases hle : ts ≥ t.last + t.interval
    · simp [hle]
    · simp only [hle, if_false]; simp; omega

/-- The trigger, seen as the time at which the next sample is due. -/
def Trigger.due (t : Trigger) : Option Int := if t.init = true then none else some (t.last + t.interval)

/-- What an API call does to market state and trigger. -/
theorem step_ms {c : Cfg} {s s' : State} {op : Op} {r} (hi : Inv c s)
    (hst : step c s op = .ok (s', r)) :
    s'.ms = seen s.ms [op] ∧
    (s'.trigger.due, s'.trigger.interval) =
      (dueAfter s.trigger.interval s.trigger.due (times [op]), s.trigger.interval) := by
  have hobs : ∀ {s s1 : State} {a u}, UpdateArg.build c.env.debug a = .ok u →
      observe c s u = .ok s1 → s1.ms = seen s.ms [.update a] ∧
      (s1.trigger.due, s1.trigger.interval) =
        (dueAfter s.trigger.interval s.trigger.due (times [.update a]), s.trigger.interval) := by
    intro s s1 a u hb h
    obtain ⟨h1, h2, h3⟩ := observe_quotes hb h
    constructor
    · have e1 : s1.ms.bid = (quotesAfter s.ms a).1 := by rw [← h1]
      have e2 : s1.ms.ask = (quotesAfter s.ms a).2 := by rw [← h1]
      simp only [seen, ← h2, ← e1, ← e2, ← h3, Option.getD_some]
    · have ht : s1.trigger = (s.trigger.fire u.ts).1 ∧ u.ts = s1.ms.ts := by
        simp only [observe, bind_ok, ok_inj] at h
        obtain ⟨ms', hm, rfl⟩ := h
        refine ⟨rfl, ?_⟩
        simp only [MarketState.update, bind_ok] at hm
        obtain ⟨r, _, hm⟩ := hm
        split at hm
        · simp at hm
        · simp only [ok_inj] at hm; subst hm; rfl
      simp only [times, ← h2, ← ht.2, Option.toList_some, List.append_nil, ht.1]
      rcases fire_cases s.trigger u.ts with ⟨h1, h2⟩ | ⟨h1, h2, h3⟩ | ⟨h1, h2, h3⟩
      · simp [h2, Trigger.due, h1, dueAfter]
      · simp only [h3, Trigger.due, h1, dueAfter, Bool.false_eq_true, if_false, h2, if_true]
      · have : ¬ s.trigger.last + s.trigger.interval ≤ u.ts := by omega
        simp only [h3, Trigger.due, h1, dueAfter, Bool.false_eq_true, if_false, this]
  rcases step_cases hst with ⟨a, u, x, rfl, hb, h, rfl⟩ | ⟨a, u, rfl, hb, h, rfl⟩ | ⟨err, rfl, rfl⟩ |
    ⟨_, _, _, _, rfl, _, h, rfl⟩ | ⟨_, _, _, _, x, rfl, hp, hq, h, rfl⟩ |
    ⟨_, _, _, _, _, _, rfl, _, _, h, rfl⟩ | ⟨_, _, rfl, h, rfl⟩
  · simp only [updateState, bind_ok] at h
    obtain ⟨s1, h1, h⟩ := h
    have hk := hobs hb h1
    split at h
    · simp only [bind_ok, ok_inj, Prod.mk.injEq] at h
      obtain ⟨s2, h2, rfl, _⟩ := h
      obtain ⟨e1, _, _, _, e2, _⟩ := liquidate_fields h2
      rw [e1, e2]; exact hk
    · simp only [bind_ok, ok_inj, Prod.mk.injEq] at h
      obtain ⟨s2, h2, rfl, _⟩ := h
      obtain ⟨e1, _, e2⟩ := checkActive_fields h2
      rw [e1, e2]; exact hk
  · obtain ⟨e1, _, e2⟩ := checkActive_fields h
    simp [e1, e2, seen, times, dueAfter]
  · cases op with
    | update a =>
      simp only [step, bind_ok, ok_inj, Prod.mk.injEq] at hst
      obtain ⟨_, _, _, _, _, h⟩ := hst
      simp at h
    | _ => simp [seen, times, dueAfter]
  · obtain ⟨e1, _, _, _, e2, _⟩ := submitMarket_fields h
    simp [e1, e2, seen, times, dueAfter]
  · obtain ⟨_, e1, _, e2, _⟩ := submitLimit_arenas (fun x hx => (hi.orders x hx).fresh) h
    simp [e1, e2, seen, times, dueAfter]
  · obtain ⟨e1, e2⟩ := amendLimit_fields hi h
    simp [e1, e2, seen, times, dueAfter]
  · obtain ⟨e1, _, _, e2, _⟩ := cancelLimit_fields h
    simp [e1, e2, seen, times, dueAfter]

theorem seen_cons (m : MarketState) (op : Op) (ops : List Op) :
    seen m (op :: ops) = seen (seen m [op]) ops := by
  cases op <;> simp [seen]

theorem times_cons (op : Op) (ops : List Op) : times (op :: ops) = times [op] ++ times ops := by
  cases op <;> simp [times]

theorem dueAfter_append (i : Int) (xs ys : List Int) : ∀ d,
    dueAfter i d (xs ++ ys) = dueAfter i (dueAfter i d xs) ys := by
  induction xs with
  | nil => intro d; simp [dueAfter]
  | cons x xs ih => intro d; cases d <;> simp [dueAfter, ih]

theorem run_ms {c : Cfg} : ∀ (ops : List Op) (s s' : State), Inv c s → run c s ops = .ok s' →
    s'.ms = seen s.ms ops ∧
    (s'.trigger.due, s'.trigger.interval) =
      (dueAfter s.trigger.interval s.trigger.due (times ops), s.trigger.interval) := by
  intro ops
  induction ops with
  | nil => intro s s' _ h; simp only [run, ok_inj] at h; subst h; simp [seen, times, dueAfter]
  | cons op ops ih =>
    intro s s' hi h
    simp only [run, bind_ok] at h
    obtain ⟨⟨s1, r⟩, h1, h2⟩ := h
    obtain ⟨a1, a2⟩ := step_ms hi h1
    obtain ⟨b1, b2⟩ := ih s1 s' (step_inv hi h1) h2
    simp only [Prod.mk.injEq] at a2 b2 ⊢
    refine ⟨by rw [b1, a1, ← seen_cons], ?_, by rw [b2.2, a2.2]⟩
    rw [times_cons, dueAfter_append, ← a2.1, b2.1, a2.2]

/-! ### Counting tracker calls -/

/-- Limit orders submitted less those cancelled and fully filled. -/
def limitBal : List Event → Int
  | [] => 0
  | .limitSubmit _ :: l => limitBal l + 1
  | .limitCancel :: l => limitBal l - 1
  | .limitFill true _ :: l => limitBal l - 1
  | _ :: l => limitBal l

/-- Market orders submitted less those filled. -/
def marketBal : List Event → Int
  | [] => 0
  | .marketSubmit _ :: l => marketBal l + 1
  | .marketFill :: l => marketBal l - 1
  | _ :: l => marketBal l

theorem replay_cons {e : Env} {start : Int} {ev : Event} {l : List Event} {t : FullTracker}
    (h : FullTracker.replay e start (ev :: l) = .ok t) :
    ∃ t0, FullTracker.replay e start l = .ok t0 ∧ t0.handle e ev = .ok t := by
  simpa only [FullTracker.replay, bind_ok] using h

theorem replay_nil {e : Env} {start : Int} {t : FullTracker}
    (h : FullTracker.replay e start [] = .ok t) : FullTracker.new start = .ok t := h

theorem new_ok {start : Int} {t : FullTracker} (h : FullTracker.new start = .ok t) :
    0 < start ∧ t = ⟨start, 0, 0, 0, 0, 0, 0, 0, 0, 0, 0, 0, 0, 0⟩ := by
  simp only [FullTracker.new, bind_ok, assertP_ok, ok_inj] at h
  obtain ⟨_, h1, rfl⟩ := h
  exact ⟨by omega, rfl⟩

theorem handle_trade {e : Env} {t t' : FullTracker} {side : Side} {p q : Int}
    (h : t.handle e (.trade side p q) = .ok t') : 0 < q ∧
    t' = { t with
      buyVolume := t.buyVolume + (if side = .buy then value e q p else 0),
      sellVolume := t.sellVolume + (if side = .sell then value e q p else 0) } := by
  simp only [FullTracker.handle, bind_ok, assertP_ok] at h
  obtain ⟨_, h1, v, hv, h⟩ := h
  have := convert_ok hv; subst this
  cases side <;> simp only [ok_inj] at h <;> subst h <;> simp <;> omega

theorem handle_limitFill {e : Env} {t t' : FullTracker} {b : Bool} {q : Int}
    (h : t.handle e (.limitFill b q) = .ok t') :
    t' = { t with filledLimitEvents := t.filledLimitEvents + 1,
                  fullyFilledLimit := t.fullyFilledLimit + (if b = true then 1 else 0) } := by
  simp only [FullTracker.handle, ok_inj] at h
  subst h
  cases b <;> simp

theorem replay_counts {e : Env} {start : Int} : ∀ {l : List Event} {t : FullTracker},
    FullTracker.replay e start l = .ok t →
    (t.submittedLimit : Int) - t.cancelledLimit - t.fullyFilledLimit = limitBal l ∧
    (t.submittedMarket : Int) - t.filledMarket = marketBal l ∧
    t.fullyFilledLimit ≤ t.filledLimitEvents ∧ t.walletStart = start := by
  intro l
  induction l with
  | nil => intro t h; obtain ⟨_, rfl⟩ := new_ok (replay_nil h); simp [limitBal, marketBal]
  | cons ev l ih =>
    intro t h
    obtain ⟨t0, h0, h1⟩ := replay_cons h
    obtain ⟨i1, i2, i3, i4⟩ := ih h0
    cases ev with
    | trade side p q =>
      obtain ⟨_, rfl⟩ := handle_trade h1
      simp [limitBal, marketBal]; omega
    | limitFill b q =>
      have := handle_limitFill h1
      subst this
      cases b <;> simp [limitBal, marketBal] <;> omega
    | _ =>
      simp only [FullTracker.handle, ok_inj] at h1
      subst h1
      simp [limitBal, marketBal]
      omega

theorem limitBal_append (xs ys : List Event) : limitBal (xs ++ ys) = limitBal xs + limitBal ys := by
  induction xs with
  | nil => simp [limitBal]
  | cons x xs ih =>
    cases x with
    | limitFill b q => cases b <;> simp [limitBal, ih] <;> omega
    | _ => simp [limitBal, ih] <;> omega

theorem marketBal_append (xs ys : List Event) :
    marketBal (xs ++ ys) = marketBal xs + marketBal ys := by
  induction xs with
  | nil => simp [marketBal]
  | cons x xs ih => cases x <;> simp [marketBal, ih] <;> omega

theorem outEvents_bal (xs : List Out) :
    limitBal (outEvents xs) = (xs.filter (fun x => !x.full)).length - (xs.length : Int) ∧
    marketBal (outEvents xs) = 0 := by
  induction xs with
  | nil => simp [outEvents, limitBal, marketBal]
  | cons x xs ih =>
    rw [outEvents, limitBal_append, marketBal_append, ih.1, ih.2]
    have : ∀ x : Out, (x.full = true ∧ limitBal x.events = -1 ∨
        x.full = false ∧ limitBal x.events = 0) ∧ marketBal x.events = 0 := by
      intro x
      obtain ⟨after, f⟩ := x
      cases f with
      | none => simp [Out.full, Out.events, limitBal, marketBal]
      | some f =>
        obtain ⟨q, u⟩ := f
        cases u <;> simp [Out.full, Out.events, limitBal, marketBal, LimitUpdate.isFull]
    obtain ⟨⟨h1, h2⟩ | ⟨h1, h2⟩, h3⟩ := this x <;> simp [h1, h2, h3] <;> omega

theorem checkActive_bal {c : Cfg} {s s' : State} {u : Update} (hi : Inv c s)
    (h : checkActive c s u = .ok s') :
    limitBal s'.log - s'.active.length = limitBal s.log - s.active.length ∧
    marketBal s'.log = marketBal s.log := by
  cases hf : u.canFill with
  | false => rw [checkActive_bba h hf]; simp
  | true =>
    obtain ⟨xs, ho, hp, _, hl, _⟩ := checkActive_out hi h hf
    have e1 := hp.length_eq
    have e2 := ho.length
    obtain ⟨e3, e4⟩ := outEvents_bal xs
    simp only [List.length_map] at e1
    rw [hl, limitBal_append, marketBal_append, e3, e4, e1, e2]
    omega

theorem observe_bal {c : Cfg} {s s' : State} {u : Update} (h : observe c s u = .ok s') :
    limitBal s'.log = limitBal s.log ∧ marketBal s'.log = marketBal s.log ∧
    s'.active = s.active := by
  simp only [observe, bind_ok, ok_inj] at h
  obtain ⟨ms', _, rfl⟩ := h
  simp only
  split <;> simp [limitBal, marketBal]

theorem submitMarket_bal {c : Cfg} {s s' : State} {o : NewMarket} {r}
    (h : submitMarket c s o = .ok (s', r)) :
    limitBal s'.log = limitBal s.log ∧
    ((∃ x, r = .ok x ∧ marketBal s'.log = marketBal s.log) ∨
     (∃ e, r = .error e ∧ marketBal s'.log = marketBal s.log + 1)) := by
  rcases submitMarket_cases h with ⟨err, _, rfl, rfl⟩ | ⟨_, ⟨err, _, rfl, rfl⟩ |
    ⟨_, _, _, pos', a', _, rfl, rfl⟩⟩ <;> simp [limitBal, marketBal]

theorem liquidate_bal {c : Cfg} {s s' : State} (h : liquidate c s = .ok s') :
    limitBal s'.log = limitBal s.log ∧ marketBal s'.log = marketBal s.log := by
  simp only [liquidate, bind_ok] at h
  obtain ⟨o, ho, r, hr, h⟩ := h
  split at h
  · simp at h
  · simp only [ok_inj] at h; subst h
    have := submitMarket_bal hr
    simpa using this

theorem cancelLimit_bal {c : Cfg} {s s' : State} {b : CancelBy} {r}
    (h : cancelLimit c s b = .ok (s', r)) :
    limitBal s'.log - s'.active.length = limitBal s.log - s.active.length ∧
    marketBal s'.log = marketBal s.log := by
  obtain ⟨_, ⟨_, rfl, _⟩ | ⟨removed, active', a, m', h1, _, _, _, _, _, rfl, _⟩⟩ := cancelLimit_ok h
  · simp
  · obtain ⟨xs, ys, he, hp⟩ := removeCancel_some h1
    have e1 := hp.length_eq
    simp only [List.length_append] at e1
    have e2 : s.active.length = xs.length + ys.length + 1 := by rw [he]; simp; omega
    refine ⟨?_, rfl⟩
    simp only [limitBal]
    omega

/-- The errors of a limit order submission. -/
theorem submitLimit_err {c : Cfg} {s s' : State} {o : NewLimit} {err}
    (hf : ∀ x ∈ s.active, x.id < s.nextId)
    (h : submitLimit c s o = .ok (s', .error err)) :
    (∃ e, err = .order e) ∨ (∃ e, err = .risk e) ∨ err = .maxNumberOfActiveOrders := by
  have hs := submitLimit_cases h
  simp only at hs
  rcases hs with ⟨e, _, _, he⟩ | ⟨_, ⟨e, _, _, he⟩ | ⟨_, ⟨e, _, _, he⟩ | ⟨_, ⟨_, _, he⟩ |
    ⟨_, ra, ha, hr⟩⟩⟩⟩
  · exact .inl ⟨e, by simpa using he⟩
  · exact .inl ⟨e, by simpa using he⟩
  · exact .inr (.inl ⟨e, by simpa using he⟩)
  · exact .inl ⟨_, by simpa using he⟩
  · rcases hr with ⟨e, rfl, he⟩ | ⟨_, he⟩
    · have hf' : ∀ x ∈ s.active, x.id ≠ s.nextId := fun x hx => by have := hf x hx; omega
      obtain ⟨_, ⟨e1, _⟩ | ⟨_, _, _, ⟨e1, _⟩ | ⟨e1, _⟩⟩⟩ := appendLimit_arenas (by exact hf') ha
      · simp_all
      · simp_all
      · simp at e1
    · simp at he

theorem submitLimit_bal {c : Cfg} {s s' : State} {o : NewLimit} {r}
    (hf : ∀ x ∈ s.active, x.id < s.nextId)
    (h : submitLimit c s o = .ok (s', r)) :
    marketBal s'.log = marketBal s.log ∧
    ((∃ x, r = .ok x ∧
        limitBal s'.log - s'.active.length = limitBal s.log - s.active.length) ∨
     (∃ e, r = .error e ∧
        limitBal s'.log - s'.active.length = limitBal s.log - s.active.length + 1)) := by
  obtain ⟨_, _, _, _, _, hl, ⟨e, rfl, h1, _⟩ | ⟨rfl, _, _, h1, _⟩⟩ := submitLimit_arenas hf h
  · refine ⟨by simp [hl, marketBal], .inr ⟨_, rfl, ?_⟩⟩
    rw [hl, h1]; simp only [limitBal]; omega
  · refine ⟨by simp [hl, marketBal], .inl ⟨_, rfl, ?_⟩⟩
    rw [hl, h1]; simp only [limitBal, List.length_append, List.length_cons, List.length_nil]; omega

theorem step_bal {c : Cfg} {s s' : State} {op : Op} {r} (hi : Inv c s)
    (hst : step c s op = .ok (s', r)) :
    limitBal s'.log - s'.active.length =
      limitBal s.log - s.active.length + rejected (op, r) ∧
    marketBal s'.log = marketBal s.log + rejectedMarket (op, r) := by
  rcases step_cases hst with ⟨a, u, x, rfl, hb, h, rfl⟩ | ⟨a, u, rfl, hb, h, rfl⟩ |
    ⟨err, rfl, rfl⟩ | ⟨_, _, _, x, rfl, _, h, rfl⟩ | ⟨_, _, _, _, x, rfl, hp, hq, h, rfl⟩ |
    ⟨_, _, _, _, _, x, rfl, _, _, h, rfl⟩ | ⟨_, x, rfl, h, rfl⟩
  · simp only [updateState, bind_ok] at h
    obtain ⟨s1, h1, h⟩ := h
    obtain ⟨e1, e2, e3⟩ := observe_bal h1
    have hi1 : Inv c s1 := by
      obtain ⟨_, _, f3, f4, f5, _⟩ := observe_fields h1
      exact hi.congr f3 f4 (by omega)
    split at h
    · simp only [bind_ok, ok_inj, Prod.mk.injEq] at h
      obtain ⟨s2, h2, rfl, _⟩ := h
      obtain ⟨_, _, f1, _⟩ := liquidate_fields h2
      obtain ⟨f2, f3⟩ := liquidate_bal h2
      simp [f1, f2, f3, e1, e2, e3, rejected, rejectedMarket]
    · simp only [bind_ok, ok_inj, Prod.mk.injEq] at h
      obtain ⟨s2, h2, rfl, _⟩ := h
      obtain ⟨f2, f3⟩ := checkActive_bal hi1 h2
      rw [f2, f3, e1, e2, e3]
      simp [rejected, rejectedMarket]
  · have := checkActive_bal hi h
    simpa [rejected, rejectedMarket] using this
  · cases op <;> simp [rejected, rejectedMarket]
  · obtain ⟨_, _, f1, _⟩ := submitMarket_fields h
    obtain ⟨f2, ⟨y, rfl, f3⟩ | ⟨y, rfl, f3⟩⟩ := submitMarket_bal h <;>
      simp [f1, f2, f3, rejected, rejectedMarket]
  · obtain ⟨f2, ⟨y, rfl, f3⟩ | ⟨y, rfl, f3⟩⟩ :=
      submitLimit_bal (fun x hx => (hi.orders x hx).fresh) h <;>
      simp [f2, f3, rejected, rejectedMarket]
  · rcases amendLimit_cases h with ⟨_, rfl, rfl⟩ | ⟨old, total, _, _, ⟨_, rfl, x, hc⟩ | ⟨hq, h⟩⟩
    · refine ⟨?_, by simp [rejectedMarket]⟩
      simp only [missingOrder]; split <;> simp [rejected]
    · have := cancelLimit_bal hc
      simpa [rejected, rejectedMarket] using this
    · rcases h with ⟨err, hc, rfl⟩ | ⟨s1, x, hc, hs⟩
      · have h1 := cancelLimit_bal hc
        obtain ⟨_, ⟨_, _, he⟩ | ⟨_, _, _, _, _, _, _, _, _, _, _, he⟩⟩ := cancelLimit_ok hc
        · simp only [Except.error.injEq] at he
          subst he
          refine ⟨?_, by simp [rejectedMarket, h1]⟩
          simp only [cancelError, missingOrder]; split <;> simp [rejected, h1]
        · simp at he
      · have h1 := cancelLimit_bal hc
        have hf : ∀ x ∈ s1.active, x.id < s1.nextId :=
          fun x hx => ((cancelLimit_inv hi hc).orders x hx).fresh
        obtain ⟨f2, ⟨y, rfl, f3⟩ | ⟨y, rfl, f3⟩⟩ := submitLimit_bal hf hs
        · simp [f2, f3, h1, rejected, rejectedMarket]
        · have he := submitLimit_err hf hs
          refine ⟨?_, by simp [f2, h1, rejectedMarket]⟩
          rw [f3, h1.1]
          rcases he with ⟨e, rfl⟩ | ⟨e, rfl⟩ | rfl <;> simp [rejected]
  · have := cancelLimit_bal h
    simpa [rejected, rejectedMarket] using this

theorem history_bal {c : Cfg} {ops : List Op} {s : State} {tr}
    (h : history c (State.init c) ops = .ok (s, tr)) :
    limitBal s.log - s.active.length = ((tr.map rejected).sum : Nat) ∧
    marketBal s.log = ((tr.map rejectedMarket).sum : Nat) := by
  have := history_induct (c := c)
    (P := fun s tr => Inv c s ∧ limitBal s.log - s.active.length = ((tr.map rejected).sum : Nat) ∧
      marketBal s.log = ((tr.map rejectedMarket).sum : Nat))
    (fun s s' op r tr ⟨hi, h1, h2⟩ hst => by
      obtain ⟨e1, e2⟩ := step_bal hi hst
      refine ⟨step_inv hi hst, ?_, ?_⟩
      · rw [e1, h1]; simp
      · rw [e2, h2]; simp) ops _ s [] tr
    ⟨Inv.init c, by simp [State.init, limitBal], by simp [State.init, marketBal]⟩ h
  simpa using this.2

/-! ### The tracker on reachable records -/

/-- The tracker follows the record. -/
def Tracks (c : Cfg) (start : Int) (x : Core) : Prop :=
  ∃ t, FullTracker.replay c.env start x.log = .ok t ∧
    t.buyVolume = volume c .buy (fills x.log) ∧ t.sellVolume = volume c .sell (fills x.log) ∧
    t.filledMarket = takerFills (fills x.log) ∧
    t.filledLimitEvents + takerFills (fills x.log) = (fills x.log).length

theorem Tracks.step {c : Cfg} {start : Int} {x y : Core} (h : Tracks c start x)
    (hw : LInv c x) (k : CoreStep c true x y) : Tracks c start y := by
  obtain ⟨t, h1, h2, h3, h4, h5⟩ := h
  cases k with
  | event ev hev =>
    simp only [Tracks, FullTracker.replay, fills_plain hev, bind_ok]
    simp only at h1
    cases ev <;> simp only [plainEvent] at hev <;>
      exact ⟨_, ⟨t, h1, rfl⟩, h2, h3, h4, h5⟩
  | sample mid =>
    simp only [Tracks, FullTracker.replay, fills_sample, bind_ok]
    exact ⟨_, ⟨t, h1, rfl⟩, h2, h3, h4, h5⟩
  | reserve v ht => exact ⟨t, h1, h2, h3, h4, h5⟩
  | release v ht => exact ⟨t, h1, h2, h3, h4, h5⟩
  | fill f full hp hc =>
    obtain ⟨maker, side, price, qty⟩ := f
    have hp := hp rfl
    have hq := (changePosition_ledger (k := -c.start) hw.wf hc).1
    simp only at hp hq h1 h2 h3 h4 h5
    simp only [Tracks, fills_report, volume, takerFills, List.filter_cons, List.length_cons]
    have key : ∀ t0 : FullTracker, t0.handle c.env (.trade side price qty) = .ok { t0 with
        buyVolume := t0.buyVolume + (if side = .buy then value c.env qty price else 0),
        sellVolume := t0.sellVolume + (if side = .sell then value c.env qty price else 0) } := by
      intro t0
      simp only [FullTracker.handle, bind_ok, assertP_ok]
      refine ⟨(), hq, _, convert_pos (by omega), ?_⟩
      cases side <;> simp
    simp only [takerFills] at h4 h5
    cases maker with
    | true =>
      simp only [fillReport, if_true, List.cons_append, List.nil_append, FullTracker.replay, bind_ok]
      refine ⟨_, ⟨_, ⟨t, h1, rfl⟩, key _⟩, ?_⟩
      simp [h2, h3, h4]
      omega
    | false =>
      simp only [fillReport, Bool.false_eq_true, if_false, List.cons_append, List.nil_append, FullTracker.replay, bind_ok]
      refine ⟨_, ⟨_, ⟨t, h1, rfl⟩, key _⟩, ?_⟩
      simp [h2, h3, h4]
      omega

theorem Spec.Reachable.tracks {c : Cfg} {s : State} {start : Int} (h : Reachable c s)
    (h0 : 0 < start) : Tracks c start s.core := by
  obtain ⟨ops, h⟩ := h
  refine ((run_core (st := true) h).inv (P := fun x => LInv c x ∧ Tracks c start x)
    (fun _ _ hx k => ⟨hx.1.step k, hx.2.step hx.1 k⟩) ⟨LInv.init c, ?_⟩).2
  refine ⟨⟨start, 0, 0, 0, 0, 0, 0, 0, 0, 0, 0, 0, 0, 0⟩, ?_, ?_⟩
  · simp only [State.core, State.init, FullTracker.replay, FullTracker.new, bind_ok, assertP_ok]
    simp [h0]
  · simp [State.core, State.init, fills, volume, takerFills]

/-! ### Quotes -/

theorem checks_ok {xs : List (Res (Except FilterError Unit))} :
    checks xs = .ok (.ok ()) ↔ ∀ x ∈ xs, x = .ok (.ok ()) := by
  induction xs with
  | nil => simp [checks]
  | cons x xs ih =>
    simp only [checks, bind_ok, List.mem_cons, forall_eq_or_imp]
    constructor
    · rintro ⟨r, rfl, h⟩
      split at h
      · simp at h
      · exact ⟨rfl, ih.mp h⟩
    · rintro ⟨rfl, h⟩
      exact ⟨_, rfl, ih.mpr h⟩

theorem spread_ok {bid ask : Int} : enforceBidAskSpread bid ask = .ok (.ok ()) ↔ bid < ask := by
  unfold enforceBidAskSpread; split <;> simp <;> omega

theorem bba_spread {pf : PriceFilter} {b : Bba} (h : b.validate pf = .ok (.ok ())) :
    b.bid < b.ask := by
  rw [Bba.validate, checks_ok] at h
  exact spread_ok.mp (h _ (by simp))

theorem candle_spread {pf : PriceFilter} {b : Candle} (h : b.validate pf = .ok (.ok ())) :
    b.bid < b.ask := by
  rw [Candle.validate, checks_ok] at h
  exact spread_ok.mp (h _ (by simp))

theorem smart_bba {debug : Bool} {ts : List Trade} {b : Bba} {pf : PriceFilter} {sc : SmartCandle}
    (h : SmartCandle.new debug ts b pf = .ok sc) : sc.bba = b ∧ b.validate pf = .ok (.ok ()) := by
  simp only [SmartCandle.new] at h
  split at h
  · simp at h
  · simp only [bind_ok] at h
    obtain ⟨_, _, _, _, r, hr, h⟩ := h
    split at h
    · simp at h
    · simp only [bind_ok, ok_inj] at h
      obtain ⟨_, _, rfl⟩ := h
      exact ⟨rfl, hr⟩

/-- In debug builds quotes never cross. -/
theorem observe_spread {c : Cfg} {s s' : State} {a : UpdateArg} {u : Update}
    (hd : c.env.debug = true) (hs : s.ms.bid ≤ s.ms.ask) (hk : uncrossed a)
    (hb : a.build c.env.debug = .ok u) (h : observe c s u = .ok s') : s'.ms.bid ≤ s'.ms.ask := by
  simp only [observe, bind_ok, ok_inj] at h
  obtain ⟨ms', h, rfl⟩ := h
  simp only [MarketState.update, bind_ok, debugValidate, hd, if_true] at h
  obtain ⟨r, hr, h⟩ := h
  split at h
  · simp at h
  · simp only [ok_inj] at h
    subst h
    cases u with
    | bba b => have := bba_spread hr; simp only [Update.applyQuotes]; omega
    | trade t => exact hs
    | candle k => have := candle_spread hr; simp only [Update.applyQuotes]; omega
    | smart k =>
      cases a with
      | smart ts b pf =>
        simp only [UpdateArg.build, bind_ok, ok_inj, Update.smart.injEq] at hb
        obtain ⟨sc, hsc, rfl⟩ := hb
        obtain ⟨e, hv⟩ := smart_bba hsc
        have := bba_spread hv
        simp only [Update.applyQuotes, e]; omega
      | _ => simp [UpdateArg.build] at hb
    | custom k =>
      cases a with
      | custom k' =>
        simp only [UpdateArg.build, ok_inj, Update.custom.injEq] at hb; subst hb
        cases hm : k'.market with
        | none => simp only [Update.applyQuotes, hm]; exact hs
        | some x => simp only [uncrossed, hm] at hk; simp only [Update.applyQuotes, hm]; exact hk
      | smart ts b pf =>
        simp only [UpdateArg.build, bind_ok, ok_inj] at hb
        obtain ⟨_, _, hb⟩ := hb; cases hb
      | _ => simp [UpdateArg.build] at hb

theorem step_spread {c : Cfg} {s s' : State} {op : Op} {r} (hd : c.env.debug = true)
    (hi : Inv c s) (hs : s.ms.bid ≤ s.ms.ask) (hk : ∀ a, op = .update a → uncrossed a)
    (hst : step c s op = .ok (s', r)) :
    s'.ms.bid ≤ s'.ms.ask := by
  by_cases hu : ∃ a, op = .update a
  · obtain ⟨a, rfl⟩ := hu
    simp only [step, updateState, bind_ok, ok_inj, Prod.mk.injEq] at hst
    obtain ⟨u, hb, ⟨s1, x⟩, ⟨s2, h2, h⟩, rfl, _⟩ := hst
    have h3 := observe_spread hd hs (hk a rfl) hb h2
    split at h
    · simp only [bind_ok, ok_inj, Prod.mk.injEq] at h
      obtain ⟨s3, h4, rfl, _⟩ := h
      simp only [(liquidate_fields h4).1]; exact h3
    · simp only [bind_ok, ok_inj, Prod.mk.injEq] at h
      obtain ⟨s3, h4, rfl, _⟩ := h
      simp only [(checkActive_fields h4).1]; exact h3
  · have := (step_ms hi hst).1
    cases op with
    | update a => exact absurd ⟨a, rfl⟩ hu
    | _ => rw [this]; exact hs

/-! ### Samples -/

/-- Balance sum of the newest sample in the record, 0 if there is none. -/
def lastSum : List Event → Int
  | [] => 0
  | .sample b _ :: _ => b.sum
  | _ :: l => lastSum l

/-- Number of samples in the record. -/
def sampleNum : List Event → Nat
  | [] => 0
  | .sample _ _ :: l => sampleNum l + 1
  | _ :: l => sampleNum l

theorem replay_lastSum {e : Env} {start : Int} : ∀ {l : List Event} {t : FullTracker},
    FullTracker.replay e start l = .ok t → t.lastBalanceSum = lastSum l := by
  intro l
  induction l with
  | nil => intro t h; obtain ⟨_, rfl⟩ := new_ok (replay_nil h); simp [lastSum]
  | cons ev l ih =>
    intro t h
    obtain ⟨t0, h0, h1⟩ := replay_cons h
    have i1 := ih h0
    cases ev with
    | trade side p q => obtain ⟨_, rfl⟩ := handle_trade h1; simp [lastSum, i1]
    | limitFill b q => have := handle_limitFill h1; subst this; simp [lastSum, i1]
    | _ => simp only [FullTracker.handle, ok_inj] at h1; subst h1; simp [lastSum, i1]

/-- A record extended without samples. -/
def NoSample (l l' : List Event) : Prop := ∃ new, l' = new ++ l ∧ sampleNum new = 0

theorem NoSample.refl (l : List Event) : NoSample l l := ⟨[], by simp [sampleNum]⟩

theorem sampleNum_append (xs ys : List Event) : sampleNum (xs ++ ys) = sampleNum xs + sampleNum ys := by
  induction xs with
  | nil => simp [sampleNum]
  | cons x xs ih => cases x <;> simp [sampleNum, ih] <;> omega

theorem NoSample.trans {a b c : List Event} (h : NoSample a b) (k : NoSample b c) :
    NoSample a c := by
  obtain ⟨x, rfl, hx⟩ := h
  obtain ⟨y, rfl, hy⟩ := k
  exact ⟨y ++ x, by simp, by rw [sampleNum_append]; omega⟩

theorem NoSample.eq {l l' : List Event} (h : NoSample l l') :
    lastSum l' = lastSum l ∧ sampleNum l' = sampleNum l := by
  obtain ⟨new, rfl, h⟩ := h
  refine ⟨?_, by rw [sampleNum_append]; omega⟩
  induction new with
  | nil => rfl
  | cons x xs ih => cases x <;> simp [sampleNum, lastSum] at h ⊢ <;> exact ih h

theorem outEvents_noSample (xs : List Out) : sampleNum (outEvents xs) = 0 := by
  induction xs with
  | nil => rfl
  | cons x xs ih =>
    rw [outEvents, sampleNum_append, ih]
    obtain ⟨after, f⟩ := x
    cases f <;> simp [Out.events, sampleNum]

theorem checkActive_noSample {c : Cfg} {s s' : State} {u : Update} (hi : Inv c s)
    (h : checkActive c s u = .ok s') : NoSample s.log s'.log := by
  cases hf : u.canFill with
  | false => rw [checkActive_bba h hf]; exact .refl _
  | true =>
    obtain ⟨xs, _, _, _, hl, _⟩ := checkActive_out hi h hf
    exact ⟨_, hl, outEvents_noSample xs⟩

theorem submitMarket_noSample {c : Cfg} {s s' : State} {o : NewMarket} {r}
    (h : submitMarket c s o = .ok (s', r)) : NoSample s.log s'.log := by
  rcases submitMarket_cases h with ⟨err, _, rfl, rfl⟩ | ⟨_, ⟨err, _, rfl, rfl⟩ |
    ⟨_, _, _, pos', a', _, rfl, rfl⟩⟩
  · exact ⟨[_], rfl, rfl⟩
  · exact ⟨[_], rfl, rfl⟩
  · exact ⟨[_, _, _], rfl, rfl⟩

theorem liquidate_noSample {c : Cfg} {s s' : State} (h : liquidate c s = .ok s') :
    NoSample s.log s'.log := by
  simp only [liquidate, bind_ok] at h
  obtain ⟨o, ho, r, hr, h⟩ := h
  split at h
  · simp at h
  · simp only [ok_inj] at h; subst h
    exact submitMarket_noSample hr

theorem cancelLimit_noSample {c : Cfg} {s s' : State} {b : CancelBy} {r}
    (h : cancelLimit c s b = .ok (s', r)) : NoSample s.log s'.log := by
  obtain ⟨_, ⟨_, rfl, _⟩ | ⟨removed, active', a, m', h1, _, _, _, _, _, rfl, _⟩⟩ := cancelLimit_ok h
  · exact .refl _
  · exact ⟨[_], rfl, rfl⟩

theorem submitLimit_noSample {c : Cfg} {s s' : State} {o : NewLimit} {r}
    (hf : ∀ x ∈ s.active, x.id < s.nextId)
    (h : submitLimit c s o = .ok (s', r)) : NoSample s.log s'.log := by
  obtain ⟨_, _, _, _, _, hl, _⟩ := submitLimit_arenas hf h
  exact ⟨[_], hl, rfl⟩

/-- When an API call samples the balances, and which. -/
theorem step_sample {c : Cfg} {s s' : State} {op : Op} {r} (hi : Inv c s)
    (hst : step c s op = .ok (s', r)) :
    (∃ a t, op = .update a ∧ updateTime a = some t ∧ samples s.trigger.due t ∧
      lastSum s'.log = equity s ∧ sampleNum s'.log = sampleNum s.log + 1) ∨
    ((∀ t ∈ times [op], ¬ samples s.trigger.due t) ∧ NoSample s.log s'.log) := by
  have hobs : ∀ {s1 : State} {a u}, UpdateArg.build c.env.debug a = .ok u →
      observe c s u = .ok s1 → Inv c s1 ∧
      ((∃ t, updateTime a = some t ∧ samples s.trigger.due t ∧
        lastSum s1.log = equity s ∧ sampleNum s1.log = sampleNum s.log + 1) ∨
      ((∀ t ∈ times [.update a], ¬ samples s.trigger.due t) ∧ NoSample s.log s1.log)) := by
    intro s1 a u hb h
    have ht := build_ts hb
    have hi1 : Inv c s1 := by
      obtain ⟨_, _, f3, f4, f5, _⟩ := observe_fields h
      exact hi.congr f3 f4 (by omega)
    refine ⟨hi1, ?_⟩
    simp only [observe, bind_ok, ok_inj] at h
    obtain ⟨ms', hm, rfl⟩ := h
    simp only
    have hsum : (userBalances s.acct).sum = equity s := by
      simp only [UserBalances.sum, userBalances, equity]; omega
    rcases fire_cases s.trigger u.ts with ⟨h1, h2⟩ | ⟨h1, h2, h3⟩ | ⟨h1, h2, h3⟩
    · refine .inl ⟨u.ts, ht, ?_, ?_, ?_⟩
      · simp [Trigger.due, h1, samples]
      · simp [h2, lastSum, hsum]
      · simp [h2, sampleNum]
    · refine .inl ⟨u.ts, ht, ?_, ?_, ?_⟩
      · simp only [Trigger.due, h1, samples]; simp; omega
      · simp [h3, lastSum, hsum]
      · simp [h3, sampleNum]
    · refine .inr ⟨?_, ?_⟩
      · simp only [times, ht, Trigger.due, h1, samples]; simp; omega
      · simp only [h3, Bool.false_eq_true, if_false]; exact ⟨[_], rfl, rfl⟩
  rcases step_cases hst with ⟨a, u, x, rfl, hb, h, rfl⟩ | ⟨a, u, rfl, hb, h, rfl⟩ | ⟨err, rfl, rfl⟩ |
    ⟨_, _, _, _, rfl, _, h, rfl⟩ | ⟨_, _, _, _, x, rfl, hp, hq, h, rfl⟩ |
    ⟨_, _, _, _, _, _, rfl, _, _, h, rfl⟩ | ⟨_, _, rfl, h, rfl⟩
  · simp only [updateState, bind_ok] at h
    obtain ⟨s1, h1, h⟩ := h
    obtain ⟨hi1, hk⟩ := hobs hb h1
    have hn : NoSample s1.log s'.log := by
      split at h
      · simp only [bind_ok, ok_inj, Prod.mk.injEq] at h
        obtain ⟨s2, h2, rfl, _⟩ := h
        exact liquidate_noSample h2
      · simp only [bind_ok, ok_inj, Prod.mk.injEq] at h
        obtain ⟨s2, h2, rfl, _⟩ := h
        exact checkActive_noSample hi1 h2
    rcases hk with ⟨t, k1, k2, k3, k4⟩ | ⟨k1, k2⟩
    · exact .inl ⟨a, t, rfl, k1, k2, by rw [hn.eq.1, k3], by rw [hn.eq.2, k4]⟩
    · exact .inr ⟨k1, k2.trans hn⟩
  · exact .inr ⟨by simp [times], checkActive_noSample hi h⟩
  · cases op with
    | update a =>
      simp only [step, bind_ok, ok_inj, Prod.mk.injEq] at hst
      obtain ⟨_, _, _, _, _, h⟩ := hst
      simp at h
    | _ => exact .inr ⟨by simp [times], .refl _⟩
  · exact .inr ⟨by simp [times], submitMarket_noSample h⟩
  · exact .inr ⟨by simp [times], submitLimit_noSample (fun x hx => (hi.orders x hx).fresh) h⟩
  · refine .inr ⟨by simp [times], ?_⟩
    rcases amendLimit_cases h with ⟨_, rfl, rfl⟩ | ⟨old, total, _, _, ⟨_, rfl, x, hc⟩ | ⟨hq, h⟩⟩
    · exact .refl _
    · exact cancelLimit_noSample hc
    · rcases h with ⟨err, hc, rfl⟩ | ⟨s1, x, hc, hs⟩
      · exact cancelLimit_noSample hc
      · exact (cancelLimit_noSample hc).trans (submitLimit_noSample
          (fun x hx => ((cancelLimit_inv hi hc).orders x hx).fresh) hs)
  · exact .inr ⟨by simp [times], cancelLimit_noSample h⟩

theorem sampleCount_append (i : Int) (xs ys : List Int) : ∀ d,
    sampleCount i d (xs ++ ys) = sampleCount i d xs + sampleCount i (dueAfter i d xs) ys := by
  induction xs with
  | nil => intro d; simp [sampleCount, dueAfter]
  | cons x xs ih =>
    intro d
    cases d with
    | none => simp [sampleCount, dueAfter, ih]; omega
    | some d =>
      simp only [List.cons_append, sampleCount, dueAfter, ih]
      split <;> omega

theorem times_update {c : Cfg} {s s' : State} {a : UpdateArg} {r}
    (hst : step c s (.update a) = .ok (s', r)) : ∃ t, times [.update a] = [t] := by
  simp only [step, bind_ok] at hst
  obtain ⟨u, hb, _⟩ := hst
  exact ⟨u.ts, by simp [times, build_ts hb]⟩

theorem times_other {op : Op} (h : ∀ a, op ≠ .update a) : times [op] = [] := by
  cases op with
  | update a => exact absurd rfl (h a)
  | _ => rfl

theorem sampleCount_one (i : Int) (d : Option Int) (t : Int) :
    (samples d t → sampleCount i d [t] = 1) ∧ (¬ samples d t → sampleCount i d [t] = 0) := by
  cases d <;> simp [samples, sampleCount]

theorem step_sampleNum {c : Cfg} {s s' : State} {op : Op} {r} (hi : Inv c s)
    (hst : step c s op = .ok (s', r)) :
    sampleNum s'.log = sampleNum s.log + sampleCount s.trigger.interval s.trigger.due (times [op]) := by
  rcases step_sample hi hst with ⟨a, t, rfl, h1, h2, _, h4⟩ | ⟨h1, h2⟩
  · have : times [.update a] = [t] := by simp [times, h1]
    rw [this, (sampleCount_one _ _ _).1 h2, h4]
  · rw [h2.eq.2]
    by_cases hu : ∃ a, op = .update a
    · obtain ⟨a, rfl⟩ := hu
      obtain ⟨t, ht⟩ := times_update hst
      rw [ht] at h1 ⊢
      rw [(sampleCount_one _ _ _).2 (h1 t (by simp))]; rfl
    · rw [times_other (fun a ha => hu ⟨a, ha⟩)]; rfl

theorem run_sampleNum {c : Cfg} : ∀ (ops : List Op) (s s' : State), Inv c s → run c s ops = .ok s' →
    sampleNum s'.log = sampleNum s.log + sampleCount s.trigger.interval s.trigger.due (times ops) ∧
    (sampleCount s.trigger.interval s.trigger.due (times ops) = 0 →
      lastSum s'.log = lastSum s.log) := by
  intro ops
  induction ops with
  | nil => intro s s' _ h; simp only [run, ok_inj] at h; subst h; simp [times, sampleCount]
  | cons op ops ih =>
    intro s s' hi h
    simp only [run, bind_ok] at h
    obtain ⟨⟨s1, r⟩, h1, h2⟩ := h
    obtain ⟨b1, b2⟩ := ih s1 s' (step_inv hi h1) h2
    have a1 := step_sampleNum hi h1
    have e := (step_ms hi h1).2
    simp only [Prod.mk.injEq] at e
    rw [times_cons, sampleCount_append, ← e.1, ← e.2]
    rw [← e.2] at a1
    refine ⟨by omega, fun h0 => ?_⟩
    rw [b2 (by omega)]
    rcases step_sample hi h1 with ⟨a, t, _, _, _, _, h4⟩ | ⟨_, h4⟩
    · omega
    · exact h4.eq.1

/-! ### Counting samples -/

theorem sampleCount_le (i : Int) (ts : List Int) : ∀ (d : Int) (last : Int),
    (∀ t ∈ ts, t ≤ last) → 0 < sampleCount i (some d) ts →
    d + ((sampleCount i (some d) ts : Int) - 1) * i ≤ last := by
  induction ts with
  | nil => intro d last _ h; simp [sampleCount] at h
  | cons t ts ih =>
    intro d last hl h
    have ht := hl t (by simp)
    have ih := fun d => ih d last (fun x hx => hl x (by simp [hx]))
    simp only [sampleCount] at h ⊢
    split
    · next hd =>
      by_cases h0 : sampleCount i (some (d + i)) ts = 0
      · rw [h0]; simp; omega
      · have := ih (d + i) (by omega)
        generalize (sampleCount i (some (d + i)) ts : Int) = n at this
        simp only [Int.natCast_add, Int.natCast_one]
        grind
    · next hd => rw [if_neg hd] at h; exact ih d h

/-- Consecutive times at most `i` apart, starting from `prev`. -/
theorem sampleCount_ge (i : Int) (ts : List Int) : ∀ (d prev : Int), prev < d →
    gapsAtMost i (prev :: ts) →
    ∀ last, (prev :: ts).getLast? = some last →
    last < d + (sampleCount i (some d) ts : Int) * i := by
  induction ts with
  | nil => intro d prev h _ last hl; simp [sampleCount] at *; omega
  | cons t ts ih =>
    intro d prev h hc last hl
    simp only [gapsAtMost] at hc
    rw [List.getLast?_cons_cons] at hl
    simp only [sampleCount]
    split
    · next hd =>
      have := ih (d + i) t (by omega) hc.2 last hl
      simp only [Int.natCast_add, Int.natCast_one, Int.add_mul, Int.one_mul]
      omega
    · next hd => exact ih d t (by omega) hc.2 last hl

theorem samplesIn_eq (l : List Event) : samplesIn l = sampleNum l := by
  induction l with
  | nil => rfl
  | cons x l ih =>
    unfold samplesIn at ih ⊢
    cases x <;> simp [sampleNum, ih]

theorem sampleCount_le_length (I : Int) : ∀ (ts : List Int) (d : Option Int),
    (sampleCount I d ts : Int) ≤ ts.length := by
  intro ts
  induction ts with
  | nil => intro d; simp [sampleCount]
  | cons t ts ih =>
    intro d
    simp only [List.length_cons]
    cases d with
    | none => have := ih (some (t + I)); simp only [sampleCount]; omega
    | some d =>
      simp only [sampleCount]
      split
      · have := ih (some (d + I)); omega
      · have := ih (some d); omega

/-- The samples counted so far and to come are the least, over all updates, of the intervals begun
by that update and the updates after it. -/
theorem sampleCount_exact (I t0 : Int) (hI : 0 < I) : ∀ (ts : List Int) (k : Int),
    ts.Pairwise (· ≤ ·) → (∀ t ∈ ts, k ≤ (t - t0) / I + 1) →
    (∀ pre t post, ts = pre ++ t :: post →
      k + (sampleCount I (some (t0 + k * I)) ts : Int) ≤ (t - t0) / I + 1 + post.length) ∧
    (k + (sampleCount I (some (t0 + k * I)) ts : Int) = k + ts.length ∨
      ∃ pre t post, ts = pre ++ t :: post ∧
        k + (sampleCount I (some (t0 + k * I)) ts : Int) = (t - t0) / I + 1 + post.length) := by
  intro ts
  induction ts with
  | nil => intro k _ _; simp [sampleCount]
  | cons t ts ih =>
    intro k hs hk
    obtain ⟨hs1, hs2⟩ := List.pairwise_cons.mp hs
    have ht := hk t (by simp)
    have hmono : ∀ x ∈ ts, (t - t0) / I + 1 ≤ (x - t0) / I + 1 := by
      intro x hx
      have := Int.ediv_le_ediv hI (by have := hs1 x hx; omega : t - t0 ≤ x - t0)
      omega
    have hiff : t0 + k * I ≤ t ↔ k ≤ (t - t0) / I := by
      rw [Int.le_ediv_iff_mul_le hI]; omega
    by_cases hd : t0 + k * I ≤ t
    · have e : (sampleCount I (some (t0 + k * I)) (t :: ts) : Int) =
          1 + (sampleCount I (some (t0 + (k + 1) * I)) ts : Int) := by
        simp only [sampleCount, hd, if_true]
        rw [show t0 + k * I + I = t0 + (k + 1) * I by rw [Int.add_mul]; omega]; omega
      have hk1 := hiff.1 hd
      obtain ⟨h1, h2⟩ := ih (k + 1) hs2 (fun x hx => by have := hmono x hx; omega)
      rw [e]
      have hlen : (sampleCount I (some (t0 + (k + 1) * I)) ts : Int) ≤ ts.length := sampleCount_le_length _ _ _
      refine ⟨fun pre x post hsp => ?_, ?_⟩
      · cases pre with
        | nil => simp only [List.nil_append, List.cons.injEq] at hsp; obtain ⟨rfl, rfl⟩ := hsp; omega
        | cons y ys =>
          simp only [List.cons_append, List.cons.injEq] at hsp
          have := h1 ys x post hsp.2; omega
      · rcases h2 with h2 | ⟨pre, x, post, hsp, h2⟩
        · left; simp only [List.length_cons]; omega
        · right; exact ⟨t :: pre, x, post, by rw [hsp]; rfl, by omega⟩
    · have e : (sampleCount I (some (t0 + k * I)) (t :: ts) : Int) =
          (sampleCount I (some (t0 + k * I)) ts : Int) := by
        simp only [sampleCount, hd, if_false]
      have hk1 : ¬ k ≤ (t - t0) / I := fun h => hd (hiff.2 h)
      obtain ⟨h1, h2⟩ := ih k hs2 (fun x hx => by have := hmono x hx; omega)
      rw [e]
      have hlen : (sampleCount I (some (t0 + k * I)) ts : Int) ≤ ts.length := sampleCount_le_length _ _ _
      refine ⟨fun pre x post hsp => ?_, ?_⟩
      · cases pre with
        | nil => simp only [List.nil_append, List.cons.injEq] at hsp; obtain ⟨rfl, rfl⟩ := hsp; omega
        | cons y ys =>
          simp only [List.cons_append, List.cons.injEq] at hsp
          have := h1 ys x post hsp.2; omega
      · right
        rcases h2 with h2 | ⟨pre, x, post, hsp, h2⟩
        · exact ⟨[], t, ts, rfl, by omega⟩
        · exact ⟨t :: pre, x, post, by rw [hsp]; rfl, by omega⟩

end Lfest
