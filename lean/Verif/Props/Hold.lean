import Verif.SpecHold
import Verif.Props.Worth
import Verif.Props.Calls
import Verif.Examples

/-!
# C148: the benchmark is what buying and holding earns, at best
-/

namespace Lfest

open Spec Hold

/-- Updates do nothing to an account without orders. -/
theorem updates_quiet {c : Cfg} : ∀ (us : List UpdateArg) (s s' : State) (tr : List (Op × Resp)),
    Reachable c s → s.active = [] → history c s (us.map Op.update) = .ok (s', tr) →
    (∀ x ∈ tr, done x.2) → fills s'.log = fills s.log
  | [], s, s', tr, _, _, h, _ => by
    simp only [List.map_nil, history, ok_inj, Prod.mk.injEq] at h
    rw [h.1]
  | u :: us, s, s', tr, hr, ha, h, hd => by
    simp only [List.map_cons, history, bind_ok, ok_inj, Prod.mk.injEq] at h
    obtain ⟨⟨s1, r⟩, h1, ⟨s2, tr2⟩, h2, rfl, rfl⟩ := h
    have hr1 := hr.step h1
    have hd1 : done r := hd (.update u, r) List.mem_cons_self
    rcases step_cases h1 with ⟨v, u', x, hv, hb, hu, rfl⟩ | ⟨_, _, he, _⟩ | ⟨err, rfl, rfl⟩ |
      ⟨_, _, _, _, he, _⟩ | ⟨_, _, _, _, _, he, _⟩ | ⟨_, _, _, _, _, _, he, _⟩ | ⟨_, _, he, _⟩
    · cases hv
      cases x with
      | error err => exact absurd hd1 (fun h => h)
      | ok ups =>
        obtain ⟨p1, _, _, p4, _⟩ := update_spec hr.inv h1
        rw [ha] at p1 p4
        have := updates_quiet us s1 s2 tr2 hr1 (by simpa using p1) h2
          (fun x hx => hd x (List.mem_cons_of_mem _ hx))
        rw [this, p4]; rfl
    · cases he
    · exact absurd hd1 (fun h => h)
    all_goals cases he

/-- The only fill of an account that buys or sells once and holds. -/
theorem held_fill {c : Cfg} {u : UpdateArg} {side : Side} {q : Int} {uid : Nat} {us : List UpdateArg}
    {s : State} {tr : List (Op × Resp)}
    (h : history c (State.init c) (strategy u side q uid us) = .ok (s, tr))
    (hd : ∀ x ∈ tr, done x.2) :
    fills s.log = [⟨false, side, touchPrice (seen ⟨0, 0, 0, 0⟩ [.update u]) side, q⟩] := by
  have h0 : Reachable c (State.init c) := ⟨[], rfl⟩
  simp only [strategy, history, bind_ok, ok_inj, Prod.mk.injEq] at h
  obtain ⟨⟨s1, r1⟩, h1, ⟨s3, tr1⟩, ⟨⟨s2, r2⟩, h2, ⟨s4, tr2⟩, h3, h4⟩, rfl, rfl⟩ := h
  cases h4
  have hr1 := h0.step h1
  have hr2 := hr1.step h2
  have hd1 : done r1 := hd (_, r1) List.mem_cons_self
  have hd2 : done r2 := hd (_, r2) (List.mem_cons_of_mem _ List.mem_cons_self)
  have hd3 : ∀ x ∈ tr2, done x.2 :=
    fun x hx => hd x (List.mem_cons_of_mem _ (List.mem_cons_of_mem _ hx))
  have hms : s1.ms = seen (State.init c).ms [.update u] := (step_ms h0.inv h1).1
  have f1 : fills s1.log = [] ∧ s1.active = [] := by
    rcases step_cases h1 with ⟨v, u', x, hv, hb, hu, rfl⟩ | ⟨_, _, he, _⟩ | ⟨err, rfl, rfl⟩ |
      ⟨_, _, _, _, he, _⟩ | ⟨_, _, _, _, _, he, _⟩ | ⟨_, _, _, _, _, _, he, _⟩ | ⟨_, _, he, _⟩
    · cases hv
      cases x with
      | error err => exact absurd hd1 (fun h => h)
      | ok ups =>
        obtain ⟨p1, _, _, p4, _⟩ := update_spec h0.inv h1
        exact ⟨by rw [p4]; rfl, by simpa [State.init] using p1⟩
    · cases he
    · exact absurd hd1 (fun h => h)
    all_goals cases he
  have f2 : fills s2.log = [⟨false, side, touchPrice s1.ms side, q⟩] ∧ s2.active = [] := by
    rcases step_cases h2 with ⟨_, _, _, he, _⟩ | ⟨_, _, he, _⟩ | ⟨err, rfl, rfl⟩ |
      ⟨_, _, _, x, he, _, _, rfl⟩ | ⟨_, _, _, _, _, he, _⟩ | ⟨_, _, _, _, _, _, he, _⟩ | ⟨_, _, he, _⟩
    · cases he
    · cases he
    · exact absurd hd2 (fun h => h)
    · cases he
      cases x with
      | error err => exact absurd hd2 (fun h => h)
      | ok f =>
        obtain ⟨_, p2, _, p4, _⟩ := C21_market_order c s1 s2 hr1 side q uid f h2
        exact ⟨by rw [p2, f1.1], by rw [p4, f1.2]⟩
    all_goals cases he
  have f3 := updates_quiet us s2 s4 tr2 hr2 f2.2 h3 hd3
  show fills s4.log = _
  rw [f3, f2.1, hms]; rfl

theorem pnl_swap (e : Env) (a b q : Int) : Spec.pnl e a b q = -Spec.pnl e b a q := by
  unfold Spec.pnl; split <;> omega

theorem mid_between {m : MarketState} (h : quoted m) : 0 < mid m ∧ m.bid ≤ mid m ∧ mid m ≤ m.ask := by
  obtain ⟨h1, h2⟩ := h
  unfold mid
  rw [Int.tdiv_eq_ediv_of_nonneg (by omega)]
  omega

theorem pnl_range {e : Env} {a a' b b' q : Int} (hq : 0 ≤ q) (ha : 0 < a) (hb : 0 < b)
    (haa : a ≤ a') (hbb : b ≤ b') : Spec.pnl e a' b q ≤ Spec.pnl e a b' q := by
  have h1 := pnl_mono (e := e) (entry := a') hq hb hbb
  have h2 := pnl_mono (e := e) (entry := b') hq ha haa
  have h3 := pnl_swap e a' b' q
  have h4 := pnl_swap e a b' q
  omega

/-- What an account has that bought or sold once and holds. -/
theorem held {c : Cfg} {u : UpdateArg} {side : Side} {q : Int} {uid : Nat} {us : List UpdateArg}
    {s : State} {tr : List (Op × Resp)} {first : MarketState} {b a w : Int}
    (h : history c (State.init c) (strategy u side q uid us) = .ok (s, tr))
    (hd : ∀ x ∈ tr, done x.2)
    (hf : (observed ⟨0, 0, 0, 0⟩ (strategy u side q uid us)).head? = some first)
    (hw : s.pos.unrealizedPnl c.env b a = .ok w) :
    equity s = c.start ∧ s.feesPaid = 0 ∧
    s.pos.outstandingFees = share c.env (value c.env q (touchPrice first side)) c.spec.feeTaker ∧
    ∃ k, k = (match side with | .buy => q | .sell => -q) ∧
      w = Spec.pnl c.env (touchPrice first side) (exitPrice k (b, a)) k := by
  have hfill := held_fill h hd
  have e : seen ⟨0, 0, 0, 0⟩ [.update u] = first := by
    simpa [strategy, observed] using hf
  rw [e] at hfill
  have r := history_run h
  obtain ⟨q1, q2⟩ := C02_equity c _ s r
  obtain ⟨p1, p2, p3⟩ := C07_position_is_ledger c _ s r
  have hl : ledger c (fills s.log) =
      ⟨Fill.signed ⟨false, side, touchPrice first side, q⟩, touchPrice first side,
        share c.env (value c.env q (touchPrice first side)) c.spec.feeTaker, 0, 0⟩ := by
    rw [hfill]; rfl
  rw [hl] at q1 q2 p1 p2 p3
  have hwf : PosWF s.pos := (Reachable.linv ⟨_, r⟩).wf
  have hu := unrealized_ok hwf hw
  rw [p1, p2] at hu
  refine ⟨?_, q2, p3, _, rfl, ?_⟩
  · rw [q1, q2]; show c.start + 0 - 0 = _; omega
  · cases side <;> exact hu

/-- C148: an account that buys with the whole starting balance at the first quotes, as
`buy_and_hold_return()` assumes, and holds, has at the last quotes an unrealised profit of no more than
`buy_and_hold_return()`, and exactly this much if there is no spread at the first and at the last
update. Fees are not part of either figure: the fee of the purchase is still outstanding. -/
theorem C148_buy_and_hold (c : Cfg) (u : UpdateArg) (q : Int) (uid : Nat) (us : List UpdateArg)
    (s : State) (tr : List (Op × Resp)) (t : FullTracker) (first last : MarketState) (v w : Int)
    (h : history c (State.init c) (strategy u .buy q uid us) = .ok (s, tr))
    (hd : ∀ x ∈ tr, done x.2)
    (hf : (observed ⟨0, 0, 0, 0⟩ (strategy u .buy q uid us)).head? = some first)
    (hl : (observed ⟨0, 0, 0, 0⟩ (strategy u .buy q uid us)).getLast? = some last)
    (h1 : quoted first) (h2 : quoted last) (h0 : 0 < q)
    (hq : q = contracts c.env c.start (mid first))
    (ht : FullTracker.replay c.env c.start s.log = .ok t) (hv : t.buyAndHold c.env = .ok v)
    (hw : s.pos.unrealizedPnl c.env last.bid last.ask = .ok w) :
    equity s = c.start ∧ s.feesPaid = 0 ∧
    s.pos.outstandingFees = share c.env (value c.env q first.ask) c.spec.feeTaker ∧
    w = Spec.pnl c.env first.ask last.bid q ∧ w ≤ v ∧
    (first.bid = first.ask → last.bid = last.ask → w = v) := by
  obtain ⟨m1, m2, m3⟩ := mid_between h1
  obtain ⟨n1, n2, n3⟩ := mid_between h2
  have hb := (C63_buy_and_hold c _ s c.start t first last (history_run h) hf hl (by omega) (by omega) ht).1
  rw [← hq, hv, ok_inj] at hb
  obtain ⟨e1, e2, e3, k, hk, e4⟩ := held h hd hf hw
  have hk : k = q := hk
  rw [hk] at e4
  simp only [exitPrice, if_pos h0] at e4
  have e5 : w = Spec.pnl c.env first.ask last.bid q := e4
  refine ⟨e1, e2, e3, e5, ?_, fun g1 g2 => ?_⟩
  · rw [e5, hb]
    exact pnl_range (Int.le_of_lt h0) m1 h2.1 m3 n2
  · rw [e5, hb]
    congr 1 <;> omega

/-- C148: the same for selling and `sell_and_hold_return()`. -/
theorem C148_sell_and_hold (c : Cfg) (u : UpdateArg) (q : Int) (uid : Nat) (us : List UpdateArg)
    (s : State) (tr : List (Op × Resp)) (t : FullTracker) (first last : MarketState) (v w : Int)
    (h : history c (State.init c) (strategy u .sell q uid us) = .ok (s, tr))
    (hd : ∀ x ∈ tr, done x.2)
    (hf : (observed ⟨0, 0, 0, 0⟩ (strategy u .sell q uid us)).head? = some first)
    (hl : (observed ⟨0, 0, 0, 0⟩ (strategy u .sell q uid us)).getLast? = some last)
    (h1 : quoted first) (h2 : quoted last) (h0 : 0 < q)
    (hq : q = contracts c.env c.start (mid first))
    (ht : FullTracker.replay c.env c.start s.log = .ok t) (hv : t.sellAndHold c.env = .ok v)
    (hw : s.pos.unrealizedPnl c.env last.bid last.ask = .ok w) :
    equity s = c.start ∧ s.feesPaid = 0 ∧
    s.pos.outstandingFees = share c.env (value c.env q first.bid) c.spec.feeTaker ∧
    w = -Spec.pnl c.env first.bid last.ask q ∧ w ≤ v ∧
    (first.bid = first.ask → last.bid = last.ask → w = v) := by
  obtain ⟨m1, m2, m3⟩ := mid_between h1
  obtain ⟨n1, n2, n3⟩ := mid_between h2
  have hb := (C63_buy_and_hold c _ s c.start t first last (history_run h) hf hl (by omega) (by omega) ht).2
  rw [← hq, hv, ok_inj] at hb
  obtain ⟨e1, e2, e3, k, hk, e4⟩ := held h hd hf hw
  have hk : k = -q := hk
  rw [hk] at e4
  have hneg : ¬ 0 < -q := by omega
  simp only [exitPrice, if_neg hneg, pnl_neg] at e4
  have e5 : w = -Spec.pnl c.env first.bid last.ask q := e4
  refine ⟨e1, e2, e3, e5, ?_, fun g1 g2 => ?_⟩
  · rw [e5, hb]
    have := pnl_range (e := c.env) (Int.le_of_lt h0) h1.1 n1 m2 n3
    omega
  · rw [e5, hb]
    congr 2 <;> omega

namespace Ex

/-- Leverage 2, maintenance margin 0.25. -/
def lev2 : Cfg := { lin with spec := { lin.spec with initMarginReq := 50000, maintenanceMargin := 25000 } }

end Ex

/-- Quotes 99 / 101, buy 10 with 1000, and hold through a candle and quotes of 119 / 121: 180 instead of
the 200 of the benchmark. -/
example :
    (let ops := strategy (.bba ⟨Ex.d 99, Ex.d 101, 1⟩) .buy (Ex.d 10) 0
      [.candle ⟨Ex.d 109, Ex.d 111, Ex.d 100, Ex.d 115, 2⟩, .bba ⟨Ex.d 119, Ex.d 121, 3⟩]
    match history Ex.lev2 (State.init Ex.lev2) ops with
    | .ok (s, tr) =>
      match FullTracker.replay Ex.lev2.env Ex.lev2.start s.log with
      | .ok t => decide (tr.all (fun x => Ex.isOk x.2) = true ∧
          contracts Ex.lev2.env Ex.lev2.start (Ex.d 100) = Ex.d 10 ∧
          t.buyAndHold Ex.lev2.env = .ok (Ex.d 200) ∧
          s.pos.unrealizedPnl Ex.lev2.env (Ex.d 119) (Ex.d 121) = .ok (Ex.d 180))
      | .error _ => false
    | .error _ => false) = true := by decide +kernel

/-- Without a spread, in a release build: 200, as the benchmark says. -/
example :
    (let c := { Ex.lev2 with env := Ex.linR.env }
    let ops := strategy (.bba ⟨Ex.d 100, Ex.d 100, 1⟩) .buy (Ex.d 10) 0 [.bba ⟨Ex.d 120, Ex.d 120, 3⟩]
    match history c (State.init c) ops with
    | .ok (s, tr) =>
      match FullTracker.replay c.env c.start s.log with
      | .ok t => decide (tr.all (fun x => Ex.isOk x.2) = true ∧
          t.buyAndHold c.env = .ok (Ex.d 200) ∧
          s.pos.unrealizedPnl c.env (Ex.d 120) (Ex.d 120) = .ok (Ex.d 200))
      | .error _ => false
    | .error _ => false) = true := by decide +kernel

/-- C148 needs leverage: without it, fees put the benchmark out of reach, since there is no money left
to pay them. -/
theorem C148_out_of_reach : ∃ (c : Cfg) (u : UpdateArg) (q : Int) (s s' : State),
    c.spec.initMarginReq = c.scale ∧ step c (State.init c) (.update u) = .ok (s, .update (.ok [])) ∧
    quoted s.ms ∧ s.ms.bid = s.ms.ask ∧ q = contracts c.env c.start (mid s.ms) ∧
    step c s (.market .buy q 0) = .ok (s', .market (.error (.risk .notEnoughAvailableBalance))) := by
  have h : (match step Ex.linR (State.init Ex.linR) (.update (.bba ⟨Ex.d 100, Ex.d 100, 1⟩)) with
      | .ok (s, r) => decide (r = .update (.ok []) ∧ s.ms.bid = Ex.d 100 ∧ s.ms.ask = Ex.d 100) &&
        (match step Ex.linR s (.market .buy (Ex.d 10) 0) with
        | .ok (_, r') => decide (r' = .market (.error (.risk .notEnoughAvailableBalance)))
        | .error _ => false)
      | .error _ => false) = true := by decide +kernel
  split at h
  · next s r h1 =>
    rw [Bool.and_eq_true] at h
    obtain ⟨h2, h3⟩ := h
    obtain ⟨rfl, h4, h5⟩ := of_decide_eq_true h2
    split at h3
    · next s' r' h6 =>
      rw [of_decide_eq_true h3] at h6
      refine ⟨Ex.linR, _, Ex.d 10, s, s', rfl, h1, ?_, by rw [h4, h5], ?_, h6⟩
      · unfold quoted; rw [h4, h5]; decide
      · unfold mid; rw [h4, h5]; decide
    · cases h3
  · cases h

end Lfest
