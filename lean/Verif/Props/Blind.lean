import Verif.SpecBlind
import Verif.Props.Lever
import Verif.Props.WindDown
import Verif.Props.Calls

/-!
# C140: the account tracker does not see leverage
-/

namespace Lfest
open Spec

theorem Spec.TermsNotHit.left {c c' : Cfg} {xs ys xs' ys' : List (Op × Resp)}
    (h : TermsNotHit c c' (xs ++ ys) (xs' ++ ys')) : TermsNotHit c c' xs xs' where
  funds := ⟨fun t ht => h.funds.1 t (List.mem_append_left _ ht), fun t ht => h.funds.2 t (List.mem_append_left _ ht)⟩
  limits := h.limits.imp id fun m =>
    ⟨fun t ht => m.1 t (List.mem_append_left _ ht), fun t ht => m.2 t (List.mem_append_left _ ht)⟩
  liquidations := h.liquidations.imp id fun m =>
    ⟨fun t ht => m.1 t (List.mem_append_left _ ht), fun t ht => m.2 t (List.mem_append_left _ ht)⟩

theorem calls_blind {s s' : State} (h1 : s'.ms = s.ms) (h2 : s'.active = s.active)
    (h3 : s'.pos.quantity = s.pos.quantity) (h4 : equity s' = equity s) (due : Option Int) (op : Op) (r : Resp) :
    (calls s' due op r).map blind = (calls s due op r).map blind := by
  have ho : ∀ ms, (observeCalls s' due ms).map blind = (observeCalls s due ms).map blind := by
    intro ms
    unfold observeCalls
    unfold equity at h4
    split
    · simp only [List.map_cons, List.map_nil, blind]
      rw [show s'.acct.balance .wallet + s'.acct.balance .positionMargin + s'.acct.balance .orderMargin =
        s.acct.balance .wallet + s.acct.balance .positionMargin + s.acct.balance .orderMargin by omega]
    · rfl
  have hc : ∀ q, closingFill s'.pos q = closingFill s.pos q := by
    intro q; unfold closingFill; rw [h3]
  have ha : ∀ id q, amendedQty s' id q = amendedQty s id q := by
    intro id q; unfold amendedQty; rw [h2]
  unfold calls
  split <;> simp only [List.map_append, ho, h1, h2, hc, ha]

/-- The simulation of C138, kept up along the calls. -/
theorem blind_from {c c' : Cfg} (hcap : c.maxOpen ≤ 10000) (hcap' : c'.maxOpen ≤ 10000) (he : c'.env = c.env)
    (hf : sameFees c c') (hst : c'.start = c.start) (hi : c'.sampleSecs = c.sampleSecs) :
    ∀ (later before : List Op) {s s' t t' : State} {tr tr' ur ur' : List (Op × Resp)},
    history c (State.init c) before = .ok (s, tr) → history c' (State.init c') before = .ok (s', tr') →
    s'.log.map blind = s.log.map blind →
    history c s later = .ok (t, ur) → history c' s' later = .ok (t', ur') →
    TermsNotHit c c' (tr ++ ur) (tr' ++ ur') →
    t'.log.map blind = t.log.map blind
  | [], before, s, s', t, t', tr, tr', ur, ur', _, _, hl, h, h', _ => by
    simp only [history, ok_inj, Prod.mk.injEq] at h h'
    rw [← h.1, ← h'.1, hl]
  | op :: later, before, s, s', t, t', tr, tr', ur, ur', hb, hb', hl, h, h', hn => by
    simp only [history, bind_ok, ok_inj, Prod.mk.injEq] at h h'
    obtain ⟨⟨s1, r⟩, h1, ⟨t2, vr⟩, h2, rfl, rfl⟩ := h
    obtain ⟨⟨s1', r'⟩, h1', ⟨t2', vr'⟩, h2', rfl, rfl⟩ := h'
    have n0 := hn.left
    obtain ⟨_, e1, e2, _, e3, _, _, e4⟩ := C138_terms c c' before s s' tr tr' hcap hcap' he hb hb' n0.funds.1
      n0.funds.2 n0.limits n0.liquidations
    obtain ⟨_, _, e4⟩ := e4 hf
    have hb1 : history c (State.init c) (before ++ [op]) = .ok (s1, tr ++ [(op, r)]) := by
      rw [history_append, hb]
      simp only [bind, Except.bind, history, h1]
    have hb1' : history c' (State.init c') (before ++ [op]) = .ok (s1', tr' ++ [(op, r')]) := by
      rw [history_append, hb']
      simp only [bind, Except.bind, history, h1']
    have hn1 : TermsNotHit c c' ((tr ++ [(op, r)]) ++ vr) ((tr' ++ [(op, r')]) ++ vr') := by
      simpa only [List.append_assoc, List.cons_append, List.nil_append] using hn
    have n1 := hn1.left
    have er := (C138_terms c c' (before ++ [op]) s1 s1' _ _ hcap hcap' he hb1 hb1' n1.funds.1
      n1.funds.2 n1.limits n1.liquidations).1
    have er' : r' = r := by
      have := congrArg List.getLast? er
      simpa using this
    refine blind_from hcap hcap' he hf hst hi later (before ++ [op]) hb1 hb1' ?_ h2 h2' hn1
    rw [C64_tracker_calls c before s s1 op r (history_run hb) h1,
      C64_tracker_calls c' before s' s1' op r' (history_run hb') h1', er', List.map_append, List.map_append,
      List.map_reverse, List.map_reverse, hl]
    have : interval c' = interval c := by unfold interval; rw [hi]
    rw [this, calls_blind e1 e2 e3 (by omega)]

/-- C140: under the conditions of C138, with the same starting balance, fees and sampling interval, the account
tracker gets the same calls in the same sequence, but for the division of the balance into wallet and margins. -/
theorem C140_tracker_calls (c c' : Cfg) (ops : List Op) (s s' : State) (tr tr' : List (Op × Resp))
    (hcap : c.maxOpen ≤ 10000) (hcap' : c'.maxOpen ≤ 10000) (he : c'.env = c.env)
    (hf : sameFees c c') (hst : c'.start = c.start) (hi : c'.sampleSecs = c.sampleSecs)
    (h : history c (State.init c) ops = .ok (s, tr))
    (h' : history c' (State.init c') ops = .ok (s', tr'))
    (hn : TermsNotHit c c' tr tr') :
    s'.log.map blind = s.log.map blind := by
  refine blind_from hcap hcap' he hf hst hi ops [] (s := State.init c) (s' := State.init c')
    (tr := []) (tr' := []) rfl rfl rfl h h' ?_
  simpa using hn

theorem replay_blind (e : Env) (start : Int) : ∀ l l' : List Event, l'.map blind = l.map blind →
    FullTracker.replay e start l' = FullTracker.replay e start l
  | [], [], _ => rfl
  | [], _ :: _, h => by simp at h
  | _ :: _, [], h => by simp at h
  | a :: l, b :: l', h => by
    simp only [List.map_cons, List.cons.injEq] at h
    simp only [FullTracker.replay, replay_blind e start l l' h.2]
    have hh : ∀ t : FullTracker, t.handle e b = t.handle e a := by
      intro t
      cases a <;> cases b <;> simp_all [blind, FullTracker.handle, UserBalances.sum]
    simp only [hh]

/-- C140: so all the numbers of the full tracker are the same: orders, fills, turnover, realised profit, first
and last price and time. -/
theorem C140_statistics (c c' : Cfg) (ops : List Op) (s s' : State) (tr tr' : List (Op × Resp)) (start : Int)
    (hcap : c.maxOpen ≤ 10000) (hcap' : c'.maxOpen ≤ 10000) (he : c'.env = c.env)
    (hf : sameFees c c') (hst : c'.start = c.start) (hi : c'.sampleSecs = c.sampleSecs)
    (h : history c (State.init c) ops = .ok (s, tr))
    (h' : history c' (State.init c') ops = .ok (s', tr'))
    (hn : TermsNotHit c c' tr tr') :
    FullTracker.replay c'.env start s'.log = FullTracker.replay c.env start s.log := by
  rw [he]
  exact replay_blind _ _ _ _ (C140_tracker_calls c c' ops s s' tr tr' hcap hcap' he hf hst hi h h' hn)

/-! ## The hypotheses are met -/

/-- Ten times the leverage of `Ex.linR`, and the same money. -/
def Ex.levered : Cfg := { Ex.linR with spec := { Ex.linR.spec with initMarginReq := Ex.linR.spec.initMarginReq / 10 } }

/-- Buys 5, rests two orders, one of which is filled, and turns the position; the balance that is sampled is
divided differently. -/
example : Ex.levered.env = Ex.linR.env ∧ sameFees Ex.linR Ex.levered ∧ ∃ s s' tr tr',
    history Ex.linR (State.init Ex.linR) Ex.ops3 = .ok (s, tr) ∧
    history Ex.levered (State.init Ex.levered) Ex.ops3 = .ok (s', tr') ∧
    TermsNotHit Ex.linR Ex.levered tr tr' ∧ s.pos.quantity < 0 ∧ samplesIn s.log ≠ 0 ∧
    s'.acct.balance .positionMargin ≠ s.acct.balance .positionMargin := by
  refine ⟨rfl, ⟨rfl, rfl⟩, ?_⟩
  have h : (match history Ex.linR (State.init Ex.linR) Ex.ops3,
      history Ex.levered (State.init Ex.levered) Ex.ops3 with
    | .ok (s, tr), .ok (s', tr') => decide (((∀ t ∈ tr, lacksFunds t.2 = false) ∧
        (∀ t ∈ tr', lacksFunds t.2 = false)) ∧ s.pos.quantity < 0 ∧ samplesIn s.log ≠ 0 ∧
        s'.acct.balance .positionMargin ≠ s.acct.balance .positionMargin)
    | _, _ => false) = true := by
    decide +kernel
  split at h
  · rename_i s tr s' tr' e1 e2
    obtain ⟨h1, h2⟩ := of_decide_eq_true h
    exact ⟨s, s', tr, tr', e1, e2, ⟨h1, .inl ⟨rfl, rfl, rfl⟩, .inl rfl⟩, h2⟩
  · cases h

end Lfest
