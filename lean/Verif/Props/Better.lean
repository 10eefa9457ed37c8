import Verif.SpecBetter
import Verif.Props.Opposed
import Verif.Props.Wait
import Verif.Props.Risk
import Verif.Props.Ledger

/-!
# C137: better fills never hurt
-/

namespace Lfest
open Spec

/-- The fill of somebody on the other side. -/
def otherSide (f : Fill) : Fill := { f with side := opposite f.side }

theorem SameContract.self (c : Cfg) : SameContract c c := ⟨rfl, rfl, rfl, rfl⟩

theorem other_opposed : ∀ gs : List Fill, allOpposed gs (gs.map otherSide) ∧ samePrices gs (gs.map otherSide)
  | [] => ⟨trivial, trivial⟩
  | g :: gs => by
    obtain ⟨h1, h2⟩ := other_opposed gs
    exact ⟨⟨⟨rfl, rfl, fun _ => Int.le_refl _, fun _ => Int.le_refl _⟩, h1⟩, rfl, h2⟩

theorem good_opposed : ∀ {fs gs : List Fill}, allAsGood fs gs → allOpposed fs (gs.map otherSide)
  | [], [], _ => trivial
  | f :: fs, g :: gs, h => by
    obtain ⟨h1, h2, h3, h4⟩ := h.1
    exact ⟨⟨by simp only [otherSide, h1], h2, h3, h4⟩, good_opposed h.2⟩
  | [], _ :: _, h => h.elim
  | _ :: _, [], h => h.elim

theorem other_reduced (c : Cfg) : ∀ {gs : List Fill}, ReducedFrom c gs → ReducedFrom c (gs.map otherSide)
  | [], _ => trivial
  | g :: gs, h => by
    refine ⟨other_reduced c h.1, fun ho => ?_⟩
    obtain ⟨o, p⟩ := other_opposed gs
    obtain ⟨m1, m2, _⟩ := mirrored_ledger (SameContract.self c) o p
    rw [m2]
    apply h.2
    simp only [otherSide] at ho
    rw [m1] at ho
    revert ho
    cases g.side <;> simp only [opposite, opposing, Int.neg_neg] <;> exact id

/-- C137: two accounts in the same contract with the same fills, fill by fill, except that the prices of
the second are never worse, end with the same position, the second at no worse an entry price, having
gained no less before fees, at whatever quotes the position is valued. This is exact: no rounding can turn a
better price into a worse result, neither in linear nor in inverse contracts. -/
theorem C137_better_fills (c c' : Cfg) (a b : State) (hc : SameContract c c') (ha : Reachable c a)
    (hb : Reachable c' b) (h : allAsGood (fills a.log) (fills b.log)) : noWorseOff c c' a b := by
  obtain ⟨o, p⟩ := other_opposed (fills b.log)
  obtain ⟨m1, m2, m3⟩ := mirrored_ledger (SameContract.self c') o p
  have hpos : ∀ g ∈ (fills b.log).map otherSide, 0 < g.price ∧ 0 < g.qty := by
    intro g hg
    obtain ⟨x, hx, rfl⟩ := List.mem_map.1 hg
    exact hb.fill_price x hx
  obtain ⟨k1, k2, k3, k4⟩ := against_ledger hc (good_opposed h) ha.fill_price hpos ha.sane
    (other_reduced c' hb.sane)
  rw [m2] at k2 k3
  rw [m1] at k1
  have g1 := gain_ledger ha
  have g2 := gain_ledger hb
  have na := ha.entry_nonneg
  have nb := hb.entry_nonneg
  have wa := ha.linv.wf
  have wb := hb.linv.wf
  have ha' := ha
  have hb' := hb
  obtain ⟨opsa, hra⟩ := ha
  obtain ⟨opsb, hrb⟩ := hb
  obtain ⟨q1, e1, _⟩ := C07_position_is_ledger c opsa a hra
  obtain ⟨q2, e2, _⟩ := C07_position_is_ledger c' opsb b hrb
  rw [← q1, ← q2] at k1
  rw [← q1, ← e1, ← e2] at k2 k3
  refine ⟨by omega, by omega, k2, k3, fun bid ask u v hbid hask hu hv => ?_⟩
  have f1 := (C48_unrealized c a bid ask bid ask u u ha' hbid hu hu).1
  have f2 := (C48_unrealized c' b bid ask bid ask v v hb' hbid hv hv).1
  have hpnl : ∀ x y q, Spec.pnl c'.env x y q = Spec.pnl c.env x y q := by
    intro x y q
    have hs : c'.env.scale = c.env.scale := hc.scale
    unfold Spec.pnl value
    rw [hc.kind, hs]
  rw [hpnl, hpnl] at f2
  have hqq : b.pos.quantity = a.pos.quantity := by omega
  rw [hqq] at f2
  suffices hs : u ≤ v by omega
  rcases Int.lt_trichotomy a.pos.quantity 0 with hneg | h0 | hpos
  · rw [if_neg (by omega)] at f1 f2
    have := pnl_pair (e := c.env) (E1 := b.pos.entryPrice) (E2 := a.pos.entryPrice) (X1 := ask) (X2 := ask)
      (q := -a.pos.quantity) (by omega) na (fun hk => by
        have := unrealized_entry hk wa (by show a.pos.quantity ≠ 0; omega) hu
        have : a.pos.entryPrice ≠ 0 := this
        omega) (k3 hneg) hask (Int.le_refl _)
    rw [spec_pnl_neg, Int.neg_neg] at this
    omega
  · rw [h0] at f1 f2
    simp [Spec.pnl, value] at f1 f2
    cases hk : c.env.kind <;> simp [hk] at f1 f2 <;> omega
  · rw [if_pos hpos] at f1 f2
    have := pnl_pair (e := c.env) (E1 := a.pos.entryPrice) (E2 := b.pos.entryPrice) (X1 := bid) (X2 := bid)
      (q := a.pos.quantity) (by omega) nb (fun hk => by
        have := unrealized_entry (hc.kind.trans hk) wb (by show b.pos.quantity ≠ 0; omega) hv
        have : b.pos.entryPrice ≠ 0 := this
        omega) (k2 hpos) hbid (Int.le_refl _)
    rw [spec_pnl_neg] at this
    omega

/-- C137: the account with the better fills is not liquidated by an update, unless the other one is by an
update with no better quotes. -/
theorem C137_liquidated_no_earlier (c c' : Cfg) (a b a' b' : State) (u v : UpdateArg)
    (r t : Except Error (List LimitUpdate)) (hc : SameContract c c')
    (hm : c'.spec.maintenanceMargin = c.spec.maintenanceMargin)
    (hm0 : 0 ≤ c.spec.maintenanceMargin) (hm1 : c.spec.maintenanceMargin ≤ c.scale)
    (ha : Reachable c a) (hb : Reachable c' b) (h : allAsGood (fills a.log) (fills b.log))
    (hx : step c a (.update u) = .ok (a', .update r)) (hy : step c' b (.update v) = .ok (b', .update t))
    (hbid : (quotesAfter a.ms u).1 ≤ (quotesAfter b.ms v).1)
    (hask : (quotesAfter b.ms v).2 ≤ (quotesAfter a.ms u).2)
    (hl : t = .error (.risk .liquidate)) : r = .error (.risk .liquidate) := by
  obtain ⟨k1, _, k2, k3, _⟩ := C137_better_fills c c' a b hc ha hb h
  have na := ha.entry_nonneg
  have nb := hb.entry_nonneg
  have hs := scale_pos c.env
  have hsc : c'.env.scale = c.env.scale := hc.scale
  have hm1 : c.spec.maintenanceMargin ≤ c.env.scale := hm1
  refine (C29_liquidation_iff_breach c a a' u r ha hx).1.2 ?_
  rcases (C29_liquidation_iff_breach c' b b' v t hb hy).1.1 hl with ⟨b1, b2⟩ | ⟨b1, b2⟩
  · refine .inl ⟨by omega, ?_⟩
    have e := tdiv_mono hs (Int.mul_nonneg nb (show 0 ≤ c.env.scale - c.spec.maintenanceMargin by omega))
      (Int.mul_le_mul_of_nonneg_right (k2 (by omega))
        (show 0 ≤ c.env.scale - c.spec.maintenanceMargin by omega))
    unfold longLimit at b2 ⊢
    rw [hm, hsc] at b2
    omega
  · refine .inr ⟨by omega, ?_⟩
    have e := tdiv_mono hs (Int.mul_nonneg na (show 0 ≤ c.env.scale + c.spec.maintenanceMargin by omega))
      (Int.mul_le_mul_of_nonneg_right (k3 (by omega))
        (show 0 ≤ c.env.scale + c.spec.maintenanceMargin by omega))
    unfold shortLimit at b2 ⊢
    rw [hm, hsc] at b2
    omega

/-- Two accounts without orders at rest, the second with the tighter quotes and the better fills. -/
structure Tighter (a b : State) : Prop where
  bid : a.ms.bid ≤ b.ms.bid
  ask : b.ms.ask ≤ a.ms.ask
  aRest : a.active = []
  bRest : b.active = []
  fills : allAsGood (fills a.log) (fills b.log)

theorem Tighter.step {c c' : Cfg} {a b a' b' : State} {x y : Op} {r t : Resp} (h : Tighter a b)
    (hc : SameContract c c') (hm : c'.spec.maintenanceMargin = c.spec.maintenanceMargin)
    (hm0 : 0 ≤ c.spec.maintenanceMargin) (hm1 : c.spec.maintenanceMargin ≤ c.scale) (ha : Reachable c a) (hb : Reachable c' b) (hx : step c a x = .ok (a', r))
    (hy : step c' b y = .ok (b', t)) (ho : tighterCalls (x, r) (y, t)) : Tighter a' b' := by
  unfold tighterCalls at ho
  split at ho
  · rename_i u ups v t' e1 e2
    simp only [Prod.mk.injEq] at e1 e2
    obtain ⟨rfl, rfl⟩ := e1
    obtain ⟨rfl, rfl⟩ := e2
    have ko := ho a.ms b.ms h.bid h.ask
    cases t' with
    | error err =>
      have := (C29_liquidation_iff_breach c' b b' v _ hb hy).2 err rfl
      have := C137_liquidated_no_earlier c c' a b a' b' u v _ _ hc hm hm0 hm1 ha hb h.fills hx hy ko.1 ko.2
        (by rw [this])
      cases this
    | ok ups' =>
    obtain ⟨f1, _, _, f2, _⟩ := update_spec ha.inv hx
    obtain ⟨g1, _, _, g2, _⟩ := update_spec hb.inv hy
    rw [h.aRest] at f1 f2
    rw [h.bRest] at g1 g2
    obtain ⟨_, _, m3⟩ := C43_update c a a' u _ ha hx
    obtain ⟨_, _, n3⟩ := C43_update c' b b' v _ hb hy
    rw [← m3, ← n3] at ko
    exact ⟨ko.1, ko.2, by simpa using f1, by simpa using g1, by
      rw [f2, g2]; simpa [makerFills] using h.fills⟩
  · rename_i side q i f side' q' j g e1 e2
    simp only [Prod.mk.injEq] at e1 e2
    obtain ⟨rfl, rfl⟩ := e1
    obtain ⟨rfl, rfl⟩ := e2
    obtain ⟨rfl, rfl⟩ := ho
    obtain ⟨_, f1, _, f2, _, f3, _⟩ := C21_market_order c a a' ha _ _ _ _ hx
    obtain ⟨_, g1, _, g2, _, g3, _⟩ := C21_market_order c' b b' hb _ _ _ _ hy
    refine ⟨by rw [g3, f3]; exact h.bid, by rw [g3, f3]; exact h.ask, f2.trans h.aRest,
      g2.trans h.bRest, ?_⟩
    rw [f1, g1]
    refine ⟨⟨rfl, rfl, ?_, ?_⟩, h.fills⟩
    · rintro rfl; exact h.ask
    · rintro rfl; exact h.bid
  · exact ho.elim

theorem tighter_run {c c' : Cfg} (hc : SameContract c c')
    (hm : c'.spec.maintenanceMargin = c.spec.maintenanceMargin)
    (hm0 : 0 ≤ c.spec.maintenanceMargin) (hm1 : c.spec.maintenanceMargin ≤ c.scale) : ∀ {ops ops' : List Op} {a b a' b' : State} {xs ys : List (Op × Resp)},
    Tighter a b → Reachable c a → Reachable c' b → history c a ops = .ok (a', xs) →
    history c' b ops' = .ok (b', ys) → sameStrategyTighter xs ys → Tighter a' b'
  | [], [], a, b, a', b', xs, ys, hf, _, _, h1, h2, _ => by
    simp only [history, ok_inj, Prod.mk.injEq] at h1 h2
    rw [← h1.1, ← h2.1]; exact hf
  | x :: ops, y :: ops', a, b, a', b', xs, ys, hf, ha, hb, h1, h2, ho => by
    simp only [history, bind_ok, ok_inj, Prod.mk.injEq] at h1 h2
    obtain ⟨⟨a1, r⟩, e1, ⟨a2, xs'⟩, e2, rfl, rfl⟩ := h1
    obtain ⟨⟨b1, t⟩, f1, ⟨b2, ys'⟩, f2, rfl, rfl⟩ := h2
    exact tighter_run hc hm hm0 hm1 (hf.step hc hm hm0 hm1 ha hb e1 f1 ho.1) (ha.step e1) (hb.step f1) e2 f2 ho.2
  | [], y :: ops', _, _, _, _, xs, ys, _, _, _, h1, h2, ho => by
    simp only [history, bind_ok, ok_inj, Prod.mk.injEq] at h1 h2
    obtain ⟨⟨b1, t⟩, f1, ⟨b2, ys'⟩, f2, rfl, rfl⟩ := h2
    rw [← h1.2] at ho
    exact ho.elim
  | x :: ops, [], _, _, _, _, xs, ys, _, _, _, h1, h2, ho => by
    simp only [history, bind_ok, ok_inj, Prod.mk.injEq] at h1 h2
    obtain ⟨⟨a1, r⟩, e1, ⟨a2, xs'⟩, e2, rfl, rfl⟩ := h1
    rw [← h2.2] at ho
    exact ho.elim

/-- C137 in terms of calls: a strategy of market orders on market data with wider quotes gains no more
before fees than the same orders with tighter quotes, as long as the former is not liquidated; then neither is
the latter. So widening the quotes of a simulation gives a lower
bound. -/
theorem C137_wider_quotes (c c' : Cfg) (ops ops' : List Op) (a b : State)
    (xs ys : List (Op × Resp)) (hc : SameContract c c')
    (hm : c'.spec.maintenanceMargin = c.spec.maintenanceMargin)
    (hm0 : 0 ≤ c.spec.maintenanceMargin) (hm1 : c.spec.maintenanceMargin ≤ c.scale)
    (h1 : history c (State.init c) ops = .ok (a, xs))
    (h2 : history c' (State.init c') ops' = .ok (b, ys)) (ho : sameStrategyTighter xs ys) :
    noWorseOff c c' a b := by
  have h0 : Tighter (State.init c) (State.init c') :=
    ⟨Int.le_refl _, Int.le_refl _, rfl, rfl, trivial⟩
  exact C137_better_fills c c' a b hc ⟨ops, history_run h1⟩ ⟨ops', history_run h2⟩
    (tighter_run hc hm hm0 hm1 h0 ⟨[], rfl⟩ ⟨[], rfl⟩ h1 h2 ho).fills

theorem quiet_nothing {c : Cfg} : ∀ {ops : List Op} {s s' : State} {tr : List (Op × Resp)},
    Reachable c s → s.active = [] → history c s ops = .ok (s', tr) → (∀ x ∈ tr, quietUpdate x = true) →
    fills s'.log = fills s.log ∧ tr.flatMap answeredFills = []
  | [], s, s', tr, _, _, h, _ => by
    simp only [history, ok_inj, Prod.mk.injEq] at h
    rw [← h.1, ← h.2]; exact ⟨rfl, rfl⟩
  | x :: ops, s, s', tr, hr, ha, h, hq => by
    simp only [history, bind_ok, ok_inj, Prod.mk.injEq] at h
    obtain ⟨⟨s1, r⟩, e1, ⟨s2, tr'⟩, e2, rfl, rfl⟩ := h
    have hx := hq (x, r) (by simp)
    unfold quietUpdate at hx
    split at hx
    · rename_i u ups e
      simp only [Prod.mk.injEq] at e
      obtain ⟨rfl, rfl⟩ := e
      obtain ⟨f1, f2, _, f3, _⟩ := update_spec hr.inv e1
      rw [ha] at f1 f2 f3
      obtain ⟨g1, g2⟩ := quiet_nothing (hr.step e1) (by simpa using f1) e2 fun y hy => hq y (by simp [hy])
      refine ⟨by rw [g1, f3]; simp [makerFills], ?_⟩
      simp only [List.flatMap_cons, g2, answeredFills, f2]
      simp [reports]
    · simp at hx

/-- Updates with one order at rest, which is reported once, as filled. -/
theorem quiet_one {c : Cfg} {g : FilledLimit} {o : Limit} : ∀ {ops : List Op} {s s' : State}
    {tr : List (Op × Resp)},
    Reachable c s → s.active = [o] → history c s ops = .ok (s', tr) → (∀ x ∈ tr, quietUpdate x = true) →
    tr.flatMap answeredFills = [.fullyFilled g] →
    fills s'.log = ⟨true, o.side, o.price, o.remaining⟩ :: fills s.log
  | [], s, s', tr, _, _, h, _, hg => by
    simp only [history, ok_inj, Prod.mk.injEq] at h
    rw [← h.2] at hg; simp at hg
  | x :: ops, s, s', tr, hr, ha, h, hq, hg => by
    simp only [history, bind_ok, ok_inj, Prod.mk.injEq] at h
    obtain ⟨⟨s1, r⟩, e1, ⟨s2, tr'⟩, e2, rfl, rfl⟩ := h
    have hx := hq (x, r) (by simp)
    have hq' : ∀ y ∈ tr', quietUpdate y = true := fun y hy => hq y (by simp [hy])
    unfold quietUpdate at hx
    split at hx
    · rename_i u ups e
      simp only [Prod.mk.injEq] at e
      obtain ⟨rfl, rfl⟩ := e
      obtain ⟨f1, f2, _, f3, _⟩ := update_spec hr.inv e1
      obtain ⟨t1, _, _⟩ := C43_update c s s1 u _ hr e1
      rw [ha] at f1 f2 f3
      cases hf : fillRule u o with
      | none =>
        simp only [survivor, hf, List.filterMap_cons, List.filterMap_nil, List.perm_singleton] at f1
        have e3 := quiet_one (hr.step e1) f1 e2 hq' (by
          rw [← hg, f2]; simp [List.flatMap_cons, answeredFills, reports, hf])
        rw [e3, f3]; simp [makerFills, hf]
      | some q =>
        by_cases hqr : q = o.remaining
        · have e3 := quiet_nothing (hr.step e1) (by simpa [survivor, hf, hqr] using f1) e2 hq'
          rw [e3.1, f3]; simp [makerFills, hf, hqr]
        · simp [List.flatMap_cons, answeredFills, f2, reports, hf, t1, report, hqr] at hg
    · simp at hx

/-- C137, patience: from the same state without resting orders, one account submits a market order and the
other a limit order of the same size on the same side. If the limit order is then filled at once by some later
update, its account has got the same position at a strictly better price and has gained no less before fees,
whatever the market does in the meantime, as long as nobody is liquidated. -/
theorem C137_patience (c : Cfg) (s a1 b1 a b : State) (side : Side) (p q : Int) (i j : Nat)
    (f : FilledMarket) (o : Limit) (g : FilledLimit) (us vs : List Op) (xs ys : List (Op × Resp))
    (hr : Reachable c s) (hs : s.active = [])
    (ha : step c s (.market side q i) = .ok (a1, .market (.ok f)))
    (hb : step c s (.limit side p q j) = .ok (b1, .limit (.ok o)))
    (ha' : history c a1 us = .ok (a, xs)) (hx : ∀ x ∈ xs, quietUpdate x = true)
    (hb' : history c b1 vs = .ok (b, ys)) (hy : ∀ y ∈ ys, quietUpdate y = true)
    (hg : ys.flatMap answeredFills = [.fullyFilled g]) :
    noWorseOff c c a b ∧
    fills a.log = ⟨false, side, touchPrice s.ms side, q⟩ :: fills s.log ∧
    fills b.log = ⟨true, side, p, q⟩ :: fills s.log ∧
    (side = .buy → p < s.ms.ask) ∧ (side = .sell → s.ms.bid < p) := by
  obtain ⟨_, f1, _, f2, _⟩ := C21_market_order c s a1 hr _ _ _ _ ha
  obtain ⟨g1, g2, _⟩ := C18_accepted_limit c s b1 hr _ _ _ _ _ hb
  obtain ⟨c1, _, c3⟩ := C16_never_crosses c s b1 _ _ _ _ _ hb
  have c1 := c1 o rfl
  rw [hs] at g2 f2
  obtain ⟨l1, _⟩ := quiet_nothing (hr.step ha) f2 ha' hx
  have l2 := quiet_one (hr.step hb) g2 hb' hy hg
  rw [g1] at l2
  rw [c3] at l2
  rw [f1] at l1
  have hcr : (side = .buy → p < s.ms.ask) ∧ (side = .sell → s.ms.bid < p) := by
    unfold crosses at c1
    cases side <;> simp at c1 ⊢ <;> omega
  have hrefl : ∀ fs : List Fill, allAsGood fs fs := by
    intro fs
    induction fs with
    | nil => trivial
    | cons x xs ih => exact ⟨⟨rfl, rfl, fun _ => Int.le_refl _, fun _ => Int.le_refl _⟩, ih⟩
  have r1 : Reachable c a := reach_history (hr.step ha) ha'
  have r2 : Reachable c b := reach_history (hr.step hb) hb'
  refine ⟨C137_better_fills c c a b (SameContract.self c) r1 r2 ?_, l1, l2, hcr⟩
  rw [l1, l2]
  refine ⟨⟨rfl, rfl, ?_, ?_⟩, hrefl _⟩
  · rintro rfl
    have := hcr.1 rfl
    simp only [touchPrice]; omega
  · rintro rfl
    have := hcr.2 rfl
    simp only [touchPrice]; omega

theorem share_lead (e : Env) {v w r t : Int} (hv : 0 ≤ v) (hw : 0 ≤ w) (h0 : 0 ≤ r) (hrt : r ≤ t)
    (ht : t ≤ e.scale) : share e v r ≤ share e w t + larger (v - w) 0 := by
  have hs := scale_pos e
  have hvr := Int.mul_nonneg hv h0
  have hwt := Int.mul_nonneg hw (Int.le_trans h0 hrt)
  unfold share larger
  by_cases hle : v ≤ w
  · have h1 : v * r ≤ w * t := Int.le_trans (Int.mul_le_mul_of_nonneg_right hle h0)
      (Int.mul_le_mul_of_nonneg_left hrt hw)
    have := tdiv_mono hs hvr h1
    split <;> omega
  · have h1 : v * r ≤ w * t + (v - w) * e.scale := by
      have a1 := Int.mul_le_mul_of_nonneg_left hrt hv
      have a2 := Int.mul_le_mul_of_nonneg_left ht (show 0 ≤ v - w by omega)
      have a3 : v * t = w * t + (v - w) * t := by rw [← Int.add_mul]; congr 1; omega
      omega
    have h2 := tdiv_mono hs hvr h1
    have h3 : (w * t + (v - w) * e.scale).tdiv e.scale = (w * t).tdiv e.scale + (v - w) := by
      have : 0 ≤ (v - w) * e.scale := Int.mul_nonneg (by omega) (by omega)
      rw [Int.tdiv_eq_ediv_of_nonneg (by omega), Int.tdiv_eq_ediv_of_nonneg hwt,
        Int.add_mul_ediv_right _ _ (by omega)]
    split <;> omega

/-- C137, patience, fees: with a maker fee at most the taker fee the limit order is charged no more than the
market order, unless what it trades is worth more; then at most by the difference in worth. -/
theorem C137_patience_fees (c : Cfg) (s a1 b1 a b : State) (side : Side) (p q : Int) (i j : Nat)
    (f : FilledMarket) (o : Limit) (g : FilledLimit) (us vs : List Op) (xs ys : List (Op × Resp))
    (hm : 0 ≤ c.spec.feeMaker) (hmt : c.spec.feeMaker ≤ c.spec.feeTaker)
    (ht : c.spec.feeTaker ≤ c.scale)
    (hr : Reachable c s) (hs : s.active = [])
    (ha : step c s (.market side q i) = .ok (a1, .market (.ok f)))
    (hb : step c s (.limit side p q j) = .ok (b1, .limit (.ok o)))
    (ha' : history c a1 us = .ok (a, xs)) (hx : ∀ x ∈ xs, quietUpdate x = true)
    (hb' : history c b1 vs = .ok (b, ys)) (hy : ∀ y ∈ ys, quietUpdate y = true)
    (hg : ys.flatMap answeredFills = [.fullyFilled g]) :
    b.feesPaid + b.pos.outstandingFees ≤ a.feesPaid + a.pos.outstandingFees +
      larger (value c.env q p - value c.env q (touchPrice s.ms side)) 0 := by
  obtain ⟨_, l1, l2, _⟩ := C137_patience c s a1 b1 a b side p q i j f o g us vs xs ys hr hs ha hb ha' hx hb'
    hy hg
  have r1 := reach_history (hr.step ha) ha'
  have r2 := reach_history (hr.step hb) hb'
  have p1 := r1.fill_price _ (by rw [l1]; exact List.mem_cons_self)
  have p2 := r2.fill_price _ (by rw [l2]; exact List.mem_cons_self)
  simp only at p1 p2
  obtain ⟨oa, r1⟩ := r1
  obtain ⟨ob, r2⟩ := r2
  rw [C04_fee_schedule c oa a r1 hm (by omega), C04_fee_schedule c ob b r2 hm (by omega), l1, l2]
  simp only [feeSum, Fill.fee, if_true, Bool.false_eq_true, if_false]
  have := share_lead c.env (v := value c.env q p) (w := value c.env q (touchPrice s.ms side))
    (value_nonneg c.env (by omega) (by omega)) (value_nonneg c.env (by omega) (by omega)) hm hmt ht
  omega

/-! ## The hypotheses are met -/

/-- Buys at about 100 and sells at about 120, with quotes that are `w` wider on each side. -/
def Ex.widened (w : Int) : List Op :=
  [Ex.q (100 - w) (101 + w) 1, .market .buy (Ex.d 2) 0, Ex.q (140 - w) (141 + w) 2, .market .buy (Ex.d 1) 0,
   Ex.q (120 - w) (121 + w) 3, .market .sell (Ex.d 2) 0]

example : ∃ a b, Reachable Ex.linR a ∧ Reachable Ex.linR b ∧ allAsGood (fills a.log) (fills b.log) ∧
    realisedGain Ex.linR a < realisedGain Ex.linR b ∧ 0 < a.pos.quantity := by
  have h : Ex.threeRuns Ex.linR (Ex.widened 3) (Ex.widened 0) [] (fun a b _ =>
      decide (allAsGood (fills a.log) (fills b.log) ∧ realisedGain Ex.linR a < realisedGain Ex.linR b ∧
        0 < a.pos.quantity)) = true := by
    decide +kernel
  obtain ⟨a, b, _, e1, e2, _, h⟩ := Ex.three_runs h
  exact ⟨a, b, e1, e2, by simpa using h⟩

/-- `tighterCalls` for quotes, as a check. -/
def Ex.tighterCheck : List (Op × Resp) → List (Op × Resp) → Bool
  | [], [] => true
  | (.update (.bba x), .update (.ok _)) :: xs, (.update (.bba y), .update (.ok _)) :: ys =>
    decide (x.bid ≤ y.bid ∧ y.ask ≤ x.ask) && Ex.tighterCheck xs ys
  | (.market side q _, .market (.ok _)) :: xs, (.market side' q' _, .market (.ok _)) :: ys =>
    decide (side' = side ∧ q' = q) && Ex.tighterCheck xs ys
  | _, _ => false

theorem Ex.tighter_check : ∀ {xs ys : List (Op × Resp)}, Ex.tighterCheck xs ys = true →
    sameStrategyTighter xs ys := by
  intro xs ys
  fun_induction Ex.tighterCheck xs ys with
  | case1 => intro _; trivial
  | case2 x ups xs y ups' ys ih =>
    intro h
    simp only [Bool.and_eq_true, decide_eq_true_eq] at h
    exact ⟨fun ms ms' _ _ => by simp only [quotesAfter]; exact h.1, ih h.2⟩
  | case3 side q i f xs side' q' j g ys ih =>
    intro h
    simp only [Bool.and_eq_true, decide_eq_true_eq] at h
    exact ⟨h.1, ih h.2⟩
  | case4 => intro h; cases h

/-- The histories of this example are those of one strategy with wider and with tighter quotes. -/
example : ∃ a b xs ys, history Ex.linR (State.init Ex.linR) (Ex.widened 3) = .ok (a, xs) ∧
    history Ex.linR (State.init Ex.linR) (Ex.widened 0) = .ok (b, ys) ∧ sameStrategyTighter xs ys := by
  have h : (match history Ex.linR (State.init Ex.linR) (Ex.widened 3),
      history Ex.linR (State.init Ex.linR) (Ex.widened 0) with
    | .ok (_, xs), .ok (_, ys) => Ex.tighterCheck xs ys
    | _, _ => false) = true := by
    decide +kernel
  split at h
  · rename_i a xs b ys e1 e2
    exact ⟨a, b, xs, ys, e1, e2, Ex.tighter_check h⟩
  · cases h

/-- Bought at 104 the position is liquidated at 51, bought at 101 it is not. -/
example : ∃ a b, Reachable Ex.linR a ∧ Reachable Ex.linR b ∧ allAsGood (fills a.log) (fills b.log) ∧
    breach Ex.linR a.pos (quotesAfter a.ms (.bba ⟨Ex.d 51, Ex.d 52, 2⟩)) ∧
    ¬ breach Ex.linR b.pos (quotesAfter b.ms (.bba ⟨Ex.d 51, Ex.d 52, 2⟩)) ∧
    (step Ex.linR a (.update (.bba ⟨Ex.d 51, Ex.d 52, 2⟩))).isOk = true ∧
    (step Ex.linR b (.update (.bba ⟨Ex.d 51, Ex.d 52, 2⟩))).isOk = true := by
  have h : Ex.threeRuns Ex.linR ((Ex.widened 3).take 2) ((Ex.widened 0).take 2) [] (fun a b _ =>
      decide (allAsGood (fills a.log) (fills b.log) ∧
        breach Ex.linR a.pos (quotesAfter a.ms (.bba ⟨Ex.d 51, Ex.d 52, 2⟩)) ∧
        ¬ breach Ex.linR b.pos (quotesAfter b.ms (.bba ⟨Ex.d 51, Ex.d 52, 2⟩)) ∧
        (step Ex.linR a (.update (.bba ⟨Ex.d 51, Ex.d 52, 2⟩))).isOk = true ∧
        (step Ex.linR b (.update (.bba ⟨Ex.d 51, Ex.d 52, 2⟩))).isOk = true)) = true := by
    decide +kernel
  obtain ⟨a, b, _, e1, e2, _, h⟩ := Ex.three_runs h
  exact ⟨a, b, e1, e2, by simpa using h⟩

/-- Waiting for a price, as a check: quotes, then a market order or a limit order, then updates. -/
def Ex.outwait (c : Cfg) (side : Side) (p q : Int) (us vs : List Op)
    (P : State → State → Bool) : Bool :=
  match run c (State.init c) [Ex.q 100 101 1] with
  | .error _ => false
  | .ok s =>
    match step c s (.market side q 0), step c s (.limit side p q 0) with
    | .ok (a1, .market (.ok _)), .ok (b1, .limit (.ok _)) =>
      match history c a1 us, history c b1 vs with
      | .ok (a, xs), .ok (b, ys) =>
        xs.all quietUpdate && ys.all quietUpdate && s.active.isEmpty &&
          (match ys.flatMap answeredFills with
            | [.fullyFilled _] => true
            | _ => false) && P a b
      | _, _ => false
    | _, _ => false

theorem Ex.outwaited {c : Cfg} {side : Side} {p q : Int} {us vs : List Op} {P : State → State → Bool}
    (h : Ex.outwait c side p q us vs P = true) :
    ∃ s a1 b1 a b f o g xs ys, Reachable c s ∧ s.active = [] ∧
      step c s (.market side q 0) = .ok (a1, .market (.ok f)) ∧
      step c s (.limit side p q 0) = .ok (b1, .limit (.ok o)) ∧
      history c a1 us = .ok (a, xs) ∧ (∀ x ∈ xs, quietUpdate x = true) ∧
      history c b1 vs = .ok (b, ys) ∧ (∀ y ∈ ys, quietUpdate y = true) ∧
      ys.flatMap answeredFills = [.fullyFilled g] ∧ P a b = true := by
  unfold Ex.outwait at h
  split at h
  · cases h
  · rename_i s e0
    split at h
    · rename_i a1 f b1 o e1 e2
      split at h
      · rename_i a xs b ys e3 e4
        simp only [Bool.and_eq_true, List.all_eq_true, List.isEmpty_iff] at h
        obtain ⟨⟨⟨⟨h1, h2⟩, h3⟩, h4⟩, h5⟩ := h
        split at h4
        · rename_i g e5
          exact ⟨s, a1, b1, a, b, f, o, g, xs, ys, ⟨_, e0⟩, h3, e1, e2, e3, h1, e4, h2, e5, h5⟩
        · cases h4
      · cases h
    · cases h

/-- Buying three contracts at 98 by waiting for a candle instead of paying 101: at 120 the account is worth
9 more before fees. -/
example : ∃ s a1 b1 a b f o g xs ys, Reachable Ex.linR s ∧ s.active = [] ∧
    step Ex.linR s (.market .buy (Ex.d 3) 0) = .ok (a1, .market (.ok f)) ∧
    step Ex.linR s (.limit .buy (Ex.d 98) (Ex.d 3) 0) = .ok (b1, .limit (.ok o)) ∧
    history Ex.linR a1 [Ex.q 120 121 3] = .ok (a, xs) ∧ (∀ x ∈ xs, quietUpdate x = true) ∧
    history Ex.linR b1 [.update (.trade ⟨2, Ex.d 97, Ex.d 3, .sell⟩), Ex.q 120 121 3] = .ok (b, ys) ∧
    (∀ y ∈ ys, quietUpdate y = true) ∧ ys.flatMap answeredFills = [.fullyFilled g] ∧
    decide (a.pos.unrealizedPnl Ex.linR.env (Ex.d 120) (Ex.d 121) = .ok (Ex.d 57) ∧
      b.pos.unrealizedPnl Ex.linR.env (Ex.d 120) (Ex.d 121) = .ok (Ex.d 66)) = true :=
  Ex.outwaited (P := fun a b => decide (a.pos.unrealizedPnl Ex.linR.env (Ex.d 120) (Ex.d 121) = .ok (Ex.d 57) ∧
      b.pos.unrealizedPnl Ex.linR.env (Ex.d 120) (Ex.d 121) = .ok (Ex.d 66))) (by decide +kernel)

/-- The limit order must be filled at once: if it is filled in parts, rounding the average entry price can
cost more than the better price gains. Selling 0.2 at the market for 1.5 gives an entry price of 1.5; a
limit order at 1.6 that is filled in two parts of 0.1 gives an entry price of 1.0. -/
theorem C137_parts_can_lose : ∃ c a b, Reachable c a ∧ Reachable c b ∧
    fills a.log = [⟨false, .sell, 15, 2⟩] ∧
    fills b.log = [⟨true, .sell, 16, 1⟩, ⟨true, .sell, 16, 1⟩] ∧
    a.pos.entryPrice = 15 ∧ b.pos.entryPrice = 10 ∧
    a.pos.unrealizedPnl c.env 15 15 = .ok 0 ∧ b.pos.unrealizedPnl c.env 15 15 = .ok (-1) ∧
    realisedGain c a = realisedGain c b := by
  have h : Ex.threeRuns Ex.tick [.update (.bba ⟨15, 16, 1⟩), .market .sell 2 0]
      [.update (.bba ⟨15, 16, 1⟩), .limit .sell 16 2 0, .update (.trade ⟨2, 17, 1, .buy⟩),
        .update (.trade ⟨3, 17, 1, .buy⟩)] [] (fun a b _ =>
      decide (fills a.log = [⟨false, .sell, 15, 2⟩] ∧
        fills b.log = [⟨true, .sell, 16, 1⟩, ⟨true, .sell, 16, 1⟩] ∧
        a.pos.entryPrice = 15 ∧ b.pos.entryPrice = 10 ∧
        a.pos.unrealizedPnl Ex.tick.env 15 15 = .ok 0 ∧ b.pos.unrealizedPnl Ex.tick.env 15 15 = .ok (-1) ∧
        realisedGain Ex.tick a = realisedGain Ex.tick b)) = true := by
    decide +kernel
  obtain ⟨a, b, _, e1, e2, _, h⟩ := Ex.three_runs h
  exact ⟨Ex.tick, a, b, e1, e2, by simpa using h⟩

end Lfest
