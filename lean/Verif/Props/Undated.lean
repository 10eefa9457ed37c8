import Verif.Lemmas.Undated
import Verif.Props.Returns
import Verif.Props.WindDown
import Verif.Props.Calls
import Verif.Props.Lever

/-!
# C141: time plays no part in trading

Two sequences of calls with the same `Undated.op` differ in nothing but the times of their market
updates. These may differ from update to update and need not even be in order.
-/

namespace Lfest
open Spec

theorem undated_new : undated Ref.Exchange.new = Ref.Exchange.new := rfl

/-- C141: whether a sequence of calls returns or panics does not depend on time. -/
theorem C141_panics (c : Cfg) (ops ops' : List Op) (hc : soundConfig c)
    (he : ops'.map Undated.op = ops.map Undated.op) :
    (∃ s tr, history c (State.init c) ops = .ok (s, tr)) ↔
    (∃ s tr, history c (State.init c) ops' = .ok (s, tr)) := by
  have k : Ref.Exchange.new.allReturn c ops ↔ Ref.Exchange.new.allReturn c ops' := by
    have h := Undated.allReturn_undated c ops Ref.Exchange.new
    have h' := Undated.allReturn_undated c ops' Ref.Exchange.new
    rw [he] at h'
    exact h.symm.trans h'
  have all : ∀ ops, (∃ s tr, history c (State.init c) ops = .ok (s, tr)) ↔
      Ref.Exchange.new.allReturn c ops := by
    intro ops
    have h := C88_history c ops hc
    constructor
    · rintro ⟨s, tr, e⟩
      apply Classical.byContradiction
      intro hn
      obtain ⟨p, hp⟩ := h.2 hn
      rw [e] at hp; cases hp
    · intro hr
      obtain ⟨s, tr, e, _⟩ := h.1 hr
      exact ⟨s, tr, e⟩
  rw [all, all, k]

/-- C141: calls made at other times get the same answers but for the times in them. The quotes, the active
orders but for their times, the ids, the position with its entry price and fees, and the balances of all
accounts are the same. -/
theorem C141_answers (c : Cfg) (ops ops' : List Op) (s s' : State) (tr tr' : List (Op × Resp))
    (hcap : c.maxOpen ≤ 10000) (he : ops'.map Undated.op = ops.map Undated.op)
    (h : history c (State.init c) ops = .ok (s, tr))
    (h' : history c (State.init c) ops' = .ok (s', tr')) :
    tr'.map (fun t => Undated.resp t.2) = tr.map (fun t => Undated.resp t.2) ∧
    s'.ms.bid = s.ms.bid ∧ s'.ms.ask = s.ms.ask ∧ s'.ms.step = s.ms.step ∧
    s'.active.map Undated.limit = s.active.map Undated.limit ∧ s'.nextId = s.nextId ∧
    s'.pos.quantity = s.pos.quantity ∧ s'.pos.entryPrice = s.pos.entryPrice ∧
    s'.pos.outstandingFees = s.pos.outstandingFees ∧
    ∀ a, s'.acct.balance a = s.acct.balance a := by
  have e := C65_history c ops s tr hcap h
  have e' := C65_history c ops' s' tr' hcap h'
  have k := Undated.calls_undated c ops Ref.Exchange.new
  have k' := Undated.calls_undated c ops' Ref.Exchange.new
  rw [he, k, e, e'] at k'
  simp only [Prod.mk.injEq] at k'
  obtain ⟨k1, k2⟩ := k'
  have k3 := congrArg (List.map Prod.snd) k2
  simp only [List.map_map] at k3
  simp only [undated, Ref.view, Undated.market, Ref.Exchange.mk.injEq, MarketState.mk.injEq,
    Ledger.mk.injEq] at k1
  obtain ⟨⟨m1, m2, _, m4⟩, k4, k5, ⟨q1, q2, q3, q4, q5⟩, k6, k7⟩ := k1
  have a1 := (C01_double_entry c ops s (history_run h)).2
  have a2 := (C01_double_entry c ops' s' (history_run h')).2
  have p1 : s.acct.balance .broker = 0 := by
    simp [Accounts.balance, Accounts.get, a1.2, TAccount.net]
  have p2 : s'.acct.balance .broker = 0 := by
    simp [Accounts.balance, Accounts.get, a2.2, TAccount.net]
  have a1 := a1.1
  have a2 := a2.1
  simp only [State.feesPaid] at q4
  refine ⟨k3.symm, m1.symm, m2.symm, m4.symm, k4.symm, k5.symm, q1.symm, q2.symm, q3.symm, fun a => ?_⟩
  cases a <;> omega

/-! ## The account tracker -/

theorem fillCalls_undated (u : UpdateArg) (os : List Limit) :
    fillCalls (Undated.arg u) (os.map Undated.limit) = fillCalls u os := by
  induction os with
  | nil => rfl
  | cons o os ih =>
    simp only [fillCalls] at ih
    simp only [fillCalls, List.map_cons, List.flatMap_cons, Undated.fillRule_undated, ih]
    rfl

/-- The state without the times of the market and of the active orders. -/
def clockless (s : State) : State :=
  { s with ms := Undated.market s.ms, active := s.active.map Undated.limit }

theorem observeCalls_undated (s : State) (due : Option Int) (ms : MarketState) :
    (observeCalls s due ms).filterMap Undated.event = [.update (Undated.market ms)] := by
  unfold observeCalls; split <;> rfl

theorem calls_clockless (s : State) (due : Option Int) (op : Op) (r : Resp) :
    (calls (clockless s) none (Undated.op op) (Undated.resp r)).filterMap Undated.event =
      (calls s due op r).filterMap Undated.event := by
  have hseen : ∀ u, Undated.market (seen (clockless s).ms [.update (Undated.arg u)]) =
      Undated.market (seen s.ms [.update u]) := by
    intro u
    rw [show (clockless s).ms = Undated.market s.ms from rfl, Undated.seen_undated]; rfl
  have hq : ∀ u, quotesAfter (clockless s).ms (Undated.arg u) = quotesAfter s.ms u := by
    intro u; cases u <;> rfl
  have ha : ∀ id q, amendedQty (clockless s) id q = amendedQty s id q := by
    intro id q
    unfold amendedQty
    rw [show (clockless s).active = s.active.map Undated.limit from rfl,
      Undated.find_undated (p := fun o => o.id == id) (q := fun o => o.id == id) (fun _ => rfl)]
    cases s.active.find? (fun o => o.id == id) <;> rfl
  have hf : ∀ u, fillCalls (Undated.arg u) (clockless s).active = fillCalls u s.active :=
    fun u => fillCalls_undated u _
  have ht : ∀ side, touchPrice (clockless s).ms side = touchPrice s.ms side := fun _ => rfl
  have hp : (clockless s).pos = s.pos := rfl
  cases op with
  | update u =>
    rcases r with (_ | _) | _ | (_ | _) | (_ | _) | _ <;>
      simp only [Undated.op, Undated.resp, calls, List.filterMap_append, observeCalls_undated, hseen, hq, hp, hf]
  | checkActive u =>
    rcases r with (_ | _) | _ | (_ | _) | (_ | _) | _ <;>
      simp only [Undated.op, Undated.resp, calls, hf]
  | market side q uid =>
    rcases r with (_ | _) | _ | (_ | _) | (_ | _) | _ <;>
      simp only [Undated.op, Undated.resp, calls, ht]
  | limit side p q uid =>
    rcases r with (_ | _) | _ | (_ | _) | (_ | _) | _ <;> rfl
  | amend id side p q uid =>
    rcases r with (_ | _) | _ | (_ | _) | (err | _) | _ <;>
      simp only [Undated.op, Undated.resp, calls, ha]
  | cancel b =>
    rcases r with (_ | _) | _ | (_ | _) | (_ | _) | _ <;> rfl

theorem calls_same {s s' : State} (h1 : s'.ms = s.ms) (h2 : s'.active = s.active)
    (h3 : s'.pos.quantity = s.pos.quantity) (op : Op) (r : Resp) :
    (calls s' none op r).filterMap Undated.event = (calls s none op r).filterMap Undated.event := by
  have hc : ∀ q, closingFill s'.pos q = closingFill s.pos q := by
    intro q; unfold closingFill; rw [h3]
  have ha : ∀ id q, amendedQty s' id q = amendedQty s id q := by
    intro id q; unfold amendedQty; rw [h2]
  unfold calls
  split <;> simp only [List.filterMap_append, observeCalls_undated, h1, h2, hc, ha]

theorem undated_from {c : Cfg} (hcap : c.maxOpen ≤ 10000) :
    ∀ (later later' before before' : List Op) {s s' t t' : State} {tr tr' ur ur' : List (Op × Resp)},
    history c (State.init c) before = .ok (s, tr) → history c (State.init c) before' = .ok (s', tr') →
    before'.map Undated.op = before.map Undated.op → later'.map Undated.op = later.map Undated.op →
    s'.log.filterMap Undated.event = s.log.filterMap Undated.event →
    history c s later = .ok (t, ur) → history c s' later' = .ok (t', ur') →
    t'.log.filterMap Undated.event = t.log.filterMap Undated.event
  | [], [], before, before', s, s', t, t', tr, tr', ur, ur', _, _, _, _, hl, h, h' => by
    simp only [history, ok_inj, Prod.mk.injEq] at h h'
    rw [← h.1, ← h'.1, hl]
  | [], _ :: _, _, _, _, _, _, _, _, _, _, _, _, _, _, he, _, _, _ => by simp at he
  | _ :: _, [], _, _, _, _, _, _, _, _, _, _, _, _, _, he, _, _, _ => by simp at he
  | op :: later, op' :: later', before, before', s, s', t, t', tr, tr', ur, ur', hb, hb', heb, hel, hl, h, h' => by
    simp only [history, bind_ok, ok_inj, Prod.mk.injEq] at h h'
    obtain ⟨⟨s1, r⟩, h1, ⟨t2, vr⟩, h2, rfl, rfl⟩ := h
    obtain ⟨⟨s1', r'⟩, h1', ⟨t2', vr'⟩, h2', rfl, rfl⟩ := h'
    simp only [List.map_cons, List.cons.injEq] at hel
    obtain ⟨_, e1, e2, e3, e4, _, e5, _⟩ := C141_answers c before before' s s' tr tr' hcap heb hb hb'
    have hb1 : history c (State.init c) (before ++ [op]) = .ok (s1, tr ++ [(op, r)]) := by
      rw [history_append, hb]
      simp only [bind, Except.bind, history, h1]
    have hb1' : history c (State.init c) (before' ++ [op']) = .ok (s1', tr' ++ [(op', r')]) := by
      rw [history_append, hb']
      simp only [bind, Except.bind, history, h1']
    have heb1 : (before' ++ [op']).map Undated.op = (before ++ [op]).map Undated.op := by
      simp only [List.map_append, heb, List.map_cons, List.map_nil, hel.1]
    have er := (C141_answers c (before ++ [op]) (before' ++ [op']) s1 s1' _ _ hcap heb1 hb1 hb1').1
    have er' : Undated.resp r' = Undated.resp r := by
      have := congrArg List.getLast? er
      simpa using this
    refine undated_from hcap later later' (before ++ [op]) (before' ++ [op']) hb1 hb1' heb1 hel.2 ?_ h2 h2'
    rw [C64_tracker_calls c before s s1 op r (history_run hb) h1,
      C64_tracker_calls c before' s' s1' op' r' (history_run hb') h1', List.filterMap_append,
      List.filterMap_append, List.filterMap_reverse, List.filterMap_reverse, hl, ← calls_clockless s,
      ← calls_clockless s', hel.1, er']
    rw [calls_same (s := clockless s) (s' := clockless s') _ e4 e5]
    simp only [clockless, Undated.market, e1, e2, e3]

/-- C141: the account tracker gets the same calls in the same sequence, but for the times of the market
states and for the samples of the balances. -/
theorem C141_tracker_calls (c : Cfg) (ops ops' : List Op) (s s' : State) (tr tr' : List (Op × Resp))
    (hcap : c.maxOpen ≤ 10000) (he : ops'.map Undated.op = ops.map Undated.op)
    (h : history c (State.init c) ops = .ok (s, tr))
    (h' : history c (State.init c) ops' = .ok (s', tr')) :
    s'.log.filterMap Undated.event = s.log.filterMap Undated.event :=
  undated_from hcap ops ops' [] [] (s := State.init c) (s' := State.init c) (tr := []) (tr' := [])
    rfl rfl rfl he rfl h h'

/-! ## The hypotheses are met, and what does depend on time -/

/-- The calls of `Ex.ops3`, made hours apart and with the candle before the trade. -/
def Ex.ops3Slow : List Op :=
  [.update (.bba ⟨Ex.d 100, Ex.d 101, 3600000000000⟩), .market .buy (Ex.d 5) 0,
   .limit .sell (Ex.d 110) (Ex.d 3) 1, .limit .buy (Ex.d 95) (Ex.d 2) 2,
   .update (.trade ⟨18000000000000, Ex.d 111, Ex.d 2, .buy⟩),
   .update (.candle ⟨Ex.d 96, Ex.d 97, Ex.d 90, Ex.d 99, 9000000000000⟩), .cancel (.orderId 1),
   .market .sell (Ex.d 7) 0]

/-- Buys 5, rests two orders, one of which is filled by a candle and one in part by a trade, and turns
the position. -/
example : soundConfig Ex.linR ∧ Ex.ops3Slow.map Undated.op = Ex.ops3.map Undated.op ∧
    Ex.ops3Slow ≠ Ex.ops3 ∧ ∃ s s' tr tr',
    history Ex.linR (State.init Ex.linR) Ex.ops3 = .ok (s, tr) ∧
    history Ex.linR (State.init Ex.linR) Ex.ops3Slow = .ok (s', tr') ∧ s.pos.quantity < 0 := by
  refine ⟨by unfold soundConfig; decide +kernel, by decide +kernel, by decide +kernel, ?_⟩
  have h : (match history Ex.linR (State.init Ex.linR) Ex.ops3,
      history Ex.linR (State.init Ex.linR) Ex.ops3Slow with
    | .ok (s, _), .ok (_, _) => decide (s.pos.quantity < 0)
    | _, _ => false) = true := by
    decide +kernel
  split at h
  · rename_i s tr s' tr' e1 e2
    exact ⟨s, s', tr, tr', e1, e2, of_decide_eq_true h⟩
  · cases h

/-- C141: how many samples are taken does depend on time, and with them the statistics. -/
theorem C141_samples : ∃ c ops ops' s s' tr tr', ops'.map Undated.op = ops.map Undated.op ∧
    history c (State.init c) ops = .ok (s, tr) ∧ history c (State.init c) ops' = .ok (s', tr') ∧
    samplesIn s'.log ≠ samplesIn s.log := by
  refine ⟨Ex.linR, Ex.ops3, Ex.ops3Slow, ?_⟩
  have h : (match history Ex.linR (State.init Ex.linR) Ex.ops3,
      history Ex.linR (State.init Ex.linR) Ex.ops3Slow with
    | .ok (s, _), .ok (s', _) => decide (samplesIn s'.log ≠ samplesIn s.log)
    | _, _ => false) = true := by
    decide +kernel
  split at h
  · rename_i s tr s' tr' e1 e2
    exact ⟨s, s', tr, tr', by decide +kernel, e1, e2, of_decide_eq_true h⟩
  · cases h

end Lfest
