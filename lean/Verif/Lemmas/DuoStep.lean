import Verif.Lemmas.Duo
import Verif.Lemmas.Dust
import Verif.Props.NoPanic

/-! The calls of a strategy with one position and its exit. -/

namespace Lfest

open Spec

theorem Duo.inLine {c : Cfg} {s : State} (h : Duo c s) : Spec.inLine c s := h.pair.line

/-- An accepted or refused limit order. -/
theorem Duo.submitted {c : Cfg} {s s' : State} {o : NewLimit} {r} (hc : soundConfig c)
    (hr : Reachable c s) (hr' : Reachable c s') (h : Duo c s) (hp : 0 < o.price) (hq : 0 < o.qty)
    (k : fits c s s.active o.side o.price o.qty) (hst : submitLimit c s o = .ok (s', r)) :
    Duo c s' := by
  obtain ⟨hc1, hc2, hc3, hc4, hc5⟩ := hc
  obtain ⟨_, hms, _, _, hpos, hlog, hcase⟩ :=
    submitLimit_arenas (fun x hx => (hr.inv.orders x hx).fresh) hst
  rcases hcase with ⟨err, _, ha, hacc, _⟩ | ⟨rfl, _, _, _, _⟩
  · have hpair := h.pair
    exact ⟨by rw [hacc, hpos, ha]; exact h.pair, by rw [hms]; exact h.quotes,
      by rw [hpos, ha, hms]; exact h.live, by rw [ha, hacc]; exact h.funds⟩
  obtain ⟨_, ha, _, hm⟩ := submitLimit_margin hp hq hr.inv hr.linv.wf hc5 hst
  simp only at hm
  have hpm : s'.acct.balance .positionMargin = s.acct.balance .positionMargin := by
    rw [hr'.locked, hr.locked, hlog]; rfl
  have hqo : quantityOk c.spec.quantityFilter o.qty := by
    rcases submitLimit_cases hst with ⟨err, _, _, he⟩ | ⟨hv, _⟩
    · cases he
    · exact (quantity_ok hv).1 rfl
  have hg' : GoodOrders s'.active := fun x hx =>
    ⟨(hr'.inv.orders x hx).price, Int.le_of_lt (hr'.inv.orders x hx).rem⟩
  have hcheck : marginReq c s'.active s.pos.quantity ≤
      s.acct.balance .wallet + marginReq c s.active s.pos.quantity := by
    have hsync := hr.inv.sync hc5
    rcases submitLimit_cases hst with ⟨err, _, _, he⟩ | ⟨_, hx⟩
    · cases he
    rcases hx with ⟨err, _, _, he⟩ | ⟨_, hx⟩
    · cases he
    rcases hx with ⟨err, _, _, he⟩ | ⟨hk, _⟩
    · cases he
    rw [hsync] at hk
    rcases checkLimit_ok hr.linv.wf (fun x hx => by
      rw [← ha] at hx; exact (hg' x hx).2) hk with ⟨_, hle⟩ | ⟨he, _⟩
    · rw [ha]; exact hle
    · cases he
  have hmono : marginReq c s.active s.pos.quantity ≤ marginReq c s'.active s.pos.quantity := by
    rw [ha]
    exact marginReq_append (by rw [← ha]; exact hg') hc3
  have habs : ∀ x : Int, 0 ≤ x → Spec.abs x = x := fun x hx => by
    unfold Spec.abs; rw [if_pos hx]
  have hb := h.pair.line
  rw [habs _ (by omega)] at hm
  obtain ⟨hm1, hm2⟩ := hm
  have hnew : ∀ x, x ∈ s'.active → x ∈ s.active ∨ x = o.intoPending s.nextId s.ms.ts := by
    intro x hx; rw [ha] at hx; simpa using hx
  have hz : s.pos = .neutral → opposing s.pos.quantity o.side = 0 := by
    intro hn; rw [hn]; exact opposing_neutral _
  refine ⟨⟨hr'.linv.sums, hr'.linv.wf, by rw [hpos]; exact h.pair.entry, fun x hx => ?_, ?_, ?_,
    fun hn => ?_, fun hn => ?_⟩, by rw [hms]; exact h.quotes, fun _ => ?_, fun _ => by omega⟩
  · rcases hnew x hx with hx | rfl
    · exact h.pair.orders x hx
    · exact ⟨hp, hq, rfl, hqo⟩
  · rw [hpos]; omega
  · rw [hpm, hpos]; exact h.pair.exact
  · rw [hpos] at hn
    have hz := hz hn
    obtain ⟨f1, f2, f3⟩ := h.pair.flat hn
    rcases k.2 with ⟨_, k1, k2⟩ | ⟨k1, k2, _⟩
    · have hlen : s.active.length ≤ 1 := by
        match hs : s.active, f1 with
        | [], _ => simp
        | [x], _ => simp
        | [x, y], _ =>
          rw [hs] at k2 f2
          have a1 := (k2 x (by simp)).1
          have a2 := (k2 y (by simp)).1
          have a3 := (List.pairwise_cons.1 f2).1 y (by simp)
          exfalso
          revert a1 a2 a3
          cases x.side <;> cases y.side <;> cases o.side <;> simp
      refine ⟨?_, ?_, fun x hx => ?_⟩
      · rw [ha]; simp; omega
      · rw [ha, List.pairwise_append]
        refine ⟨f2, by simp, fun x hx y hy => ?_⟩
        simp only [List.mem_singleton] at hy
        subst hy
        exact k2 x hx
      · rcases hnew x hx with hx | rfl
        · exact f3 x hx
        · exact k1
    · omega
  · rw [hpos] at hn
    obtain ⟨f1, f2, _⟩ := h.pair.held hn
    rcases k.2 with ⟨kn, _⟩ | ⟨_, k2, k3⟩
    · exact absurd kn hn
    · rw [hpos, hpm]
      refine ⟨f1, f2, .inr ⟨o.intoPending s.nextId s.ms.ts, ?_, k2⟩⟩
      rw [ha, k3]; rfl
  · rw [hms]; exact ⟨k.1, h.quotes.1 k.1⟩

theorem short_pairwise {α} {R : α → α → Prop} {xs : List α} (h : xs.length ≤ 1) :
    xs.Pairwise R := by
  match xs, h with
  | [], _ => exact .nil
  | [x], _ => simp

/-- A cancelled order. -/
theorem Duo.cancelled {c : Cfg} {s s' : State} {b : CancelBy} {r} (hr : Reachable c s)
    (hr' : Reachable c s') (h : Duo c s) (hst : cancelLimit c s b = .ok (s', r)) : Duo c s' := by
  have hwal := cancelLimit_wallet hst
  have hmar := cancelLimit_margin hr.inv hr.linv.wf hst
  obtain ⟨_, ⟨_, rfl, _⟩ | ⟨removed, active', a, m', h1, _, _, _, _, _, rfl, rfl⟩⟩ := cancelLimit_ok hst
  · exact h
  obtain ⟨xs, ys, he, hperm⟩ := removeCancel_some h1
  have hline : a.balance .orderMargin = marginReq c active' s.pos.quantity := by
    rcases hmar with ⟨_, he, _⟩ | ⟨_, _, hx⟩
    · cases he
    · exact hx
  have hpm : a.balance .positionMargin = s.acct.balance .positionMargin := by
    have h1 := hr'.locked
    simp only [fills] at h1
    rw [h1, hr.locked]
  have hsub : ∀ x ∈ active', x ∈ s.active := fun x hx => by
    rw [hperm.mem_iff] at hx
    rw [he]; simp at hx ⊢; rcases hx with hx | hx <;> simp [hx]
  have hlen : active'.length + 1 = s.active.length := by
    rw [hperm.length_eq, he]; simp; omega
  have hl2 := h.pair.length
  have hne : active' ≠ [] → s.active ≠ [] := fun _ hx => by rw [hx] at hlen; simp at hlen
  have hpw : active'.Pairwise (fun x y => x.side ≠ y.side ∧ x.remaining = y.remaining) := by
    exact short_pairwise (by omega)
  refine ⟨⟨hr'.linv.sums, h.pair.wf, h.pair.entry, fun x hx => h.pair.orders x (hsub x hx), hline,
    ?_, fun hn => ⟨by simp only; omega, hpw, fun x hx => (h.pair.flat hn).2.2 x (hsub x hx)⟩,
    fun hn => ?_⟩, h.quotes, fun hx => h.live ?_, fun hx => ?_⟩
  · simp only; rw [hpm]; exact h.pair.exact
  · simp only at hn ⊢
    obtain ⟨f1, f2, f3⟩ := h.pair.held hn
    rw [hpm]
    refine ⟨f1, f2, .inl ?_⟩
    rcases f3 with f3 | ⟨o, f3, _⟩
    · rw [f3] at hlen; simp at hlen
    · rw [f3] at hlen
      exact List.length_eq_zero_iff.1 (by simpa using hlen)
  · rcases hx with hx | hx
    · exact .inl hx
    · exact .inr (hne hx)
  · have := h.funds (hne hx)
    simp only at hwal ⊢
    omega

theorem Duo.distinct {c : Cfg} {s : State} (h : Duo c s) :
    distinctPrices (s.active.filter (fun o => decide (0 < opposing s.pos.quantity o.side))) := by
  by_cases hn : s.pos = .neutral
  · have : s.active.filter (fun o => decide (0 < opposing s.pos.quantity o.side)) = [] := by
      rw [List.filter_eq_nil_iff]
      intro o _
      rw [hn]
      cases o.side <;> simp [opposing, Position.quantity, larger]
    rw [this]; exact List.Pairwise.nil
  · rcases (h.pair.held hn).2.2 with he | ⟨o, he, _⟩
    · rw [he]; exact List.Pairwise.nil
    · rw [he]
      unfold distinctPrices
      refine List.Pairwise.filter _ ?_
      simp

/-- An amended order. -/
theorem Duo.amended {c : Cfg} {s s' : State} {id : Nat} {o : NewLimit} {r} (hc : soundConfig c)
    (hr : Reachable c s) (hr' : Reachable c s') (h : Duo c s) (hp : 0 < o.price) (hq : 0 < o.qty)
    (k : (∃ o ∈ s.active, o.id = id) →
      fits c s (s.active.filter (fun o => decide (o.id ≠ id))) o.side o.price o.qty)
    (hst : amendLimit c s id o = .ok (s', r)) : Duo c s' := by
  rcases amendLimit_cases hst with ⟨_, rfl, _⟩ | ⟨old, total, hg, ht, hcase⟩
  · exact h
  obtain ⟨hmem, hid⟩ := getById_some hg
  have hk := k ⟨old, hmem, hid⟩
  have hto : total = old.remaining := by
    obtain ⟨_, h2, h3, _⟩ := h.pair.orders old hmem
    simp only [Limit.totalQuantity, h3, assertP, bind, Except.bind] at ht
    rw [if_pos h2] at ht
    simp only [ok_inj] at ht
    exact ht.symm
  rcases hcase with ⟨hle, _⟩ | ⟨_, ⟨err, hcan, _⟩ | ⟨s1, x, hcan, hsub⟩⟩
  · omega
  · exact h.cancelled hr hr' hcan
  · have hr1 : Reachable c s1 := hr.step (op := .cancel (.orderId id)) (r := .limit (.ok x)) (by
      simp only [step, hcan, bind, Except.bind])
    have h1 := h.cancelled hr hr1 hcan
    have e : old.remaining + (o.qty - total) = o.qty := by omega
    rw [e] at hsub
    refine h1.submitted (o := o) hc hr1 hr' hp hq ?_ hsub
    obtain ⟨_, ⟨_, _, he⟩ | ⟨removed, active', a, m', h2, _, _, _, _, _, hs1, _⟩⟩ := cancelLimit_ok hcan
    · cases he
    obtain ⟨xs, ys, he, hperm⟩ := removeCancel_some h2
    have hrid : removed.id = id := by
      simp only [Book.removeCancel] at h2
      exact (removeById_some hr.inv.nodup h2).2.1
    have hsub' : ∀ y ∈ s1.active, y ∈ s.active.filter (fun o => decide (o.id ≠ id)) := by
      intro y hy
      rw [hs1] at hy
      simp only at hy
      rw [hperm.mem_iff] at hy
      have hn := hr.inv.nodup
      rw [he] at hn
      have hne := hn.split.1 y hy
      rw [hrid] at hne
      rw [List.mem_filter, he]
      refine ⟨?_, by simpa using hne⟩
      simp at hy ⊢; rcases hy with hy | hy <;> simp [hy]
    refine ⟨by rw [hs1]; exact hk.1, ?_⟩
    rcases hk.2 with ⟨k1, k2, k3⟩ | ⟨k1, k2, k3⟩
    · refine .inl ⟨by rw [hs1]; exact k1, k2, fun y hy => k3 y (hsub' y hy)⟩
    · refine .inr ⟨k1, by rw [hs1]; exact k2, ?_⟩
      rw [List.eq_nil_iff_forall_not_mem]
      intro y hy
      have := hsub' y hy
      rw [k3] at this
      simp at this

theorem Duo.observed {c : Cfg} {s s1 : State} {a : UpdateArg} {u : Update}
    (hb : a.build c.env.debug = .ok u) (h : Duo c s) (k : oneAtATime c s (.update a))
    (h1 : observe c s u = .ok s1) : Duo c s1 := by
  obtain ⟨hu, htk, hqp⟩ := k
  obtain ⟨e1, e2, e3, e4, _, _⟩ := observe_fields h1
  have hqt := (observe_quotes hb h1).1
  have hbid : s1.ms.bid = (quotesAfter s.ms a).1 := by rw [← hqt]
  have hask : s1.ms.ask = (quotesAfter s.ms a).2 := by rw [← hqt]
  have hqs : (s1.ms.bid = s.ms.bid ∧ s1.ms.ask = s.ms.ask) ∨ (0 < s1.ms.bid ∧ 0 < s1.ms.ask) := by
    rcases quotes_positive (ms := s.ms) hqp with e | e
    · rw [e] at hbid hask; exact .inl ⟨hbid, hask⟩
    · rw [hbid, hask]; exact .inr e
  have hq0 := h.quotes
  refine ⟨by rw [e1, e2, e3]; exact h.pair, ?_, fun hx => ?_, by rw [e3, e1]; exact h.funds⟩
  · rcases hqs with ⟨x, y⟩ | ⟨x, y⟩
    · rw [x, y]; exact hq0
    · exact ⟨fun _ => y, fun _ => x⟩
  · rw [e2, e3] at hx
    have := h.live hx
    omega

/-- A market update panics exactly when its fills leave the wallet negative. -/
theorem Duo.update {c : Cfg} {s : State} {a : UpdateArg} (hc : soundConfig c)
    (hr : Reachable c s) (h : Duo c s) (k : bracket c s (.update a)) :
    (mayFill a = false ∨ breach c s.pos (quotesAfter s.ms a) ∨ 0 ≤ walletAfter c s a →
      ∃ s' r, step c s (.update a) = .ok (s', r) ∧ Duo c s') ∧
    (mayFill a = true → ¬ breach c s.pos (quotesAfter s.ms a) → walletAfter c s a < 0 →
      step c s (.update a) = .error .walletNegative) := by
  obtain ⟨ko, kq, kw, kb⟩ := k
  by_cases hbr : breach c s.pos (quotesAfter s.ms a)
  · refine ⟨fun _ => ?_, fun _ hx => absurd hbr hx⟩
    obtain ⟨s', r, hs, hsolo⟩ := ((h.solo (kb hbr) (hr.inv.sync hc.2.2.2.2)).update hc hr ko).1
      (.inr (.inl hbr))
    have hr' := hr.step hs
    exact ⟨s', r, hs, Duo.of_solo hsolo hr'.linv hr'.entry_nonneg⟩
  · obtain ⟨u, hb, hv⟩ := build_valid c.env.debug ko.2.1 ko.1
    obtain ⟨s1, h1⟩ := observe_valid (s := s) hv
    obtain ⟨e1, e2, e3, e4, e5, _⟩ := observe_fields h1
    have hqt := (observe_quotes hb h1).1
    have hd1 := h.observed hb ko h1
    have hI : Inv c s1 := by
      have hi := hr.inv
      exact ⟨e3 ▸ hi.nodup, by rw [e3, e5]; exact hi.orders, e3 ▸ hi.cap, e3 ▸ hi.len,
        by rw [e3, e4]; exact hi.sync⟩
    have hL : LInv c s1.core := (observe_core (st := false) h1).inv (fun _ _ => LInv.step) hr.linv
    have hmm := checkMaintenance_ok (c := c) (ms := s1.ms) hL.wf
    have ew : walletAfter c s1 a = walletAfter c s a := by
      simp only [walletAfter, fills_observe h1, e3]
    obtain ⟨m1, m2⟩ := hd1.matching hc hI hL hb kq (by rw [e3]; exact kw)
    rw [ew] at m1 m2
    have hm : checkMaintenanceMargin c s1.ms s1.pos = .ok () := by
      rcases hmm with ⟨hm, _⟩ | ⟨_, hbr'⟩
      · exact hm
      · rw [hqt] at hbr'
        have : s1.core.pos = s.pos := e2
        rw [this] at hbr'
        exact absurd hbr' hbr
    constructor
    · intro hx
      obtain ⟨s2, h2, hs2⟩ := m1 (by
        rcases hx with hx | hx | hx
        · exact .inl ((build_mayFill hb).symm.trans hx)
        · exact absurd hx hbr
        · exact .inr hx)
      refine ⟨s2, .update (.ok s2.updates), ?_, hs2⟩
      simp only [step, hb, updateState, h1, bind, Except.bind, hm, h2]
    · intro hnb _ hwal
      have hcf : u.canFill = true := (build_mayFill hb).symm.trans hnb
      simp only [step, hb, updateState, h1, bind, Except.bind, hm, m2 hcf hwal]

theorem Duo.check {c : Cfg} {s : State} {a : UpdateArg} (hc : soundConfig c)
    (hr : Reachable c s) (h : Duo c s) (k : bracket c s (.checkActive a)) :
    (mayFill a = false ∨ 0 ≤ walletAfter c s a →
      ∃ s' r, step c s (.checkActive a) = .ok (s', r) ∧ Duo c s') ∧
    (mayFill a = true → walletAfter c s a < 0 →
      step c s (.checkActive a) = .error .walletNegative) := by
  obtain ⟨k1, k2, kq, kw⟩ := k
  obtain ⟨u, hb, hv⟩ := build_valid c.env.debug k2 k1
  obtain ⟨m1, m2⟩ := h.matching hc hr.inv hr.linv hb kq kw
  constructor
  · intro hx
    obtain ⟨s2, h2, hs2⟩ := m1 (by
      rcases hx with hx | hx
      · exact .inl ((build_mayFill hb).symm.trans hx)
      · exact .inr hx)
    refine ⟨s2, .unit, ?_, hs2⟩
    simp only [step, hb, bind, Except.bind, h2]
  · intro hnb hwal
    have hcf : u.canFill = true := (build_mayFill hb).symm.trans hnb
    simp only [step, hb, bind, Except.bind, m2 hcf hwal]

/-- The calls whose fills leave the wallet negative. -/
def bankrupts (c : Cfg) (s : State) (op : Op) : Prop :=
  ∃ a, mayFill a = true ∧ walletAfter c s a < 0 ∧
    (op = .checkActive a ∨ (op = .update a ∧ ¬ breach c s.pos (quotesAfter s.ms a)))

/-- One call of such a strategy. -/
theorem Duo.step {c : Cfg} {s : State} {op : Op} (hc : soundConfig c)
    (hr : Reachable c s) (h : Duo c s) (k : bracket c s op) :
    ((∃ s' r, Lfest.step c s op = .ok (s', r) ∧ Duo c s') ∧ ¬ bankrupts c s op) ∨
    (Lfest.step c s op = .error .walletNegative ∧ bankrupts c s op) := by
  cases op with
  | update a =>
    obtain ⟨h1, h2⟩ := h.update hc hr k
    by_cases hx : mayFill a = false ∨ breach c s.pos (quotesAfter s.ms a) ∨ 0 ≤ walletAfter c s a
    · refine .inl ⟨h1 hx, ?_⟩
      rintro ⟨a', g1, g2, g3 | ⟨g3, g4⟩⟩
      · cases g3
      · cases g3
        rcases hx with hx | hx | hx
        · rw [hx] at g1; cases g1
        · exact g4 hx
        · omega
    · simp only [not_or, Bool.not_eq_false, Int.not_le] at hx
      exact .inr ⟨h2 hx.1 hx.2.1 hx.2.2, a, hx.1, hx.2.2, .inr ⟨rfl, hx.2.1⟩⟩
  | checkActive a =>
    obtain ⟨h1, h2⟩ := h.check hc hr k
    by_cases hx : mayFill a = false ∨ 0 ≤ walletAfter c s a
    · refine .inl ⟨h1 hx, ?_⟩
      rintro ⟨a', g1, g2, g3 | ⟨g3, _⟩⟩
      · cases g3
        rcases hx with hx | hx
        · rw [hx] at g1; cases g1
        · omega
      · cases g3
    · simp only [not_or, Bool.not_eq_false, Int.not_le] at hx
      exact .inr ⟨h2 hx.1 hx.2, a, hx.1, hx.2, .inl rfl⟩
  | market side q uid =>
    obtain ⟨ka, ko⟩ := k
    obtain ⟨s', r, hs, hsolo⟩ := (h.solo ka (hr.inv.sync hc.2.2.2.2)).order hc hr ko
    have hr' := hr.step hs
    exact .inl ⟨⟨s', r, hs, Duo.of_solo hsolo hr'.linv hr'.entry_nonneg⟩, by simp [bankrupts]⟩
  | limit side p q uid =>
    refine .inl ⟨?_, by simp [bankrupts]⟩
    obtain ⟨s', r, hs⟩ := C66_submit c s side p q uid hc hr h.inLine
    refine ⟨s', r, hs, ?_⟩
    have hr' := hr.step hs
    simp only [Lfest.step] at hs
    split at hs
    · simp only [ok_inj, Prod.mk.injEq] at hs; exact hs.1 ▸ h
    · next o hn =>
      obtain ⟨hp, hq, rfl⟩ := newLimit_ok hn
      simp only [bind_ok, ok_inj, Prod.mk.injEq] at hs
      obtain ⟨⟨s1, x⟩, hs, rfl, _⟩ := hs
      exact h.submitted (o := ⟨uid, side, p, q⟩) hc hr hr' hp hq k hs
  | amend id side p q uid =>
    refine .inl ⟨?_, by simp [bankrupts]⟩
    obtain ⟨s', r, hs⟩ := C66_amend c s id side p q uid hc hr h.inLine h.distinct
    refine ⟨s', r, hs, ?_⟩
    have hr' := hr.step hs
    simp only [Lfest.step] at hs
    split at hs
    · simp only [ok_inj, Prod.mk.injEq] at hs; exact hs.1 ▸ h
    · next o hn =>
      obtain ⟨hp, hq, rfl⟩ := newLimit_ok hn
      simp only [bind_ok, ok_inj, Prod.mk.injEq] at hs
      obtain ⟨⟨s1, x⟩, hs, rfl, _⟩ := hs
      exact h.amended (o := ⟨uid, side, p, q⟩) hc hr hr' hp hq k hs
  | cancel b =>
    refine .inl ⟨?_, by simp [bankrupts]⟩
    obtain ⟨s', r, hs⟩ := C66_cancel c s b hc hr h.inLine h.distinct
    refine ⟨s', r, hs, ?_⟩
    have hr' := hr.step hs
    simp only [Lfest.step, bind_ok, ok_inj, Prod.mk.injEq] at hs
    obtain ⟨⟨s1, x⟩, hs, rfl, _⟩ := hs
    exact h.cancelled hr hr' hs

theorem Duo.run {c : Cfg} (hc : soundConfig c) (ops : List Op) :
    ∀ s s', Reachable c s → Duo c s → bracketed c s ops → Lfest.run c s ops = .ok s' →
      Duo c s' := by
  induction ops with
  | nil => intro s s' _ h _ hrun; simp only [Lfest.run, ok_inj] at hrun; exact hrun ▸ h
  | cons op ops ih =>
    intro s s' hr h hf hrun
    simp only [Lfest.run, bind_ok] at hrun
    obtain ⟨⟨s1, r⟩, h1, h2⟩ := hrun
    rcases h.step hc hr hf.1 with ⟨⟨s2, r2, h3, h4⟩, _⟩ | ⟨h3, _⟩
    · rw [h1] at h3
      simp only [ok_inj, Prod.mk.injEq] at h3
      obtain ⟨rfl, rfl⟩ := h3
      exact ih s1 s' (hr.step h1) h4 (hf.2 s1 r h1) h2
    · rw [h1] at h3; cases h3

theorem le_sum_of_mem {xs : List Int} {x : Int} (h : ∀ y ∈ xs, 0 ≤ y) (hx : x ∈ xs) :
    x ≤ xs.sum := by
  have hs : ∀ ys : List Int, (∀ y ∈ ys, 0 ≤ y) → 0 ≤ ys.sum := by
    intro ys hy
    have := sum_nonneg (l := ys) (f := id) hy
    simpa using this
  induction xs with
  | nil => simp at hx
  | cons y ys ih =>
    have h1 := h y (by simp)
    have h2 := hs ys (fun z hz => h z (by simp [hz]))
    rw [List.sum_cons]
    rcases List.mem_cons.1 hx with rfl | hx
    · omega
    · have := ih (fun z hz => h z (by simp [hz])) hx
      omega

theorem marginReq_member {c : Cfg} {os : List Limit} {o : Limit} (hg : GoodOrders os)
    (h0 : 0 ≤ c.spec.initMarginReq) (ho : o ∈ os) :
    share c.env (value c.env o.remaining o.price) c.spec.initMarginReq ≤ marginReq c os 0 := by
  have key : ∀ side, o.side = side → value c.env o.remaining o.price ≤ sideValue c.env side 0 os := by
    rintro side hs
    rw [sideValue_zero hg]
    refine le_sum_of_mem ?_ ?_
    · intro x hx
      obtain ⟨y, hy, rfl⟩ := List.mem_map.1 hx
      have := hg y (List.mem_filter.1 hy).1
      exact value_nonneg _ this.2 (Int.le_of_lt this.1)
    · exact List.mem_map.2 ⟨o, List.mem_filter.2 ⟨ho, by simp [hs]⟩, rfl⟩
  have hv : 0 ≤ value c.env o.remaining o.price :=
    value_nonneg _ (hg o ho).2 (Int.le_of_lt (hg o ho).1)
  unfold marginReq
  refine share_mono h0 hv ?_
  have hz : larger (-0) 0 = (0 : Int) := rfl
  have hz' : larger 0 0 = (0 : Int) := rfl
  rw [hz, hz']
  cases hs : o.side with
  | buy => have := key .buy hs; unfold larger; split <;> omega
  | sell => have := key .sell hs; unfold larger; split <;> omega

/-- A single fill that opens a position is paid for by the margin of its order. -/
theorem Duo.opening {c : Cfg} {s : State} {a : UpdateArg} (h0 : 0 ≤ c.spec.initMarginReq)
    (hl : LInv c s.core) (h : Duo c s) (hn : s.pos = .neutral) (hw : wholeFills a s.active)
    (h1 : (makerFills a s.active).length = 1) : 0 ≤ walletAfter c s a := by
  obtain ⟨o, hmem, hf, hrest⟩ : ∃ o ∈ s.active,
      makerFills a s.active = [⟨true, o.side, o.price, o.remaining⟩] ∧
      ∀ y ∈ s.active.filter (fun o => decide (fillRule a o = none)),
        s.active.filter (fun o => decide (fillRule a o = none)) = [y] ∧
          o.side ≠ y.side ∧ o.remaining = y.remaining := by
    obtain ⟨f1, f2, _⟩ := h.pair.flat hn
    revert hw h1 f1 f2
    generalize s.active = os
    intro hw h1 f1 f2
    match os, f1 with
    | [], _ => simp [makerFills] at h1
    | [x], _ =>
      rcases hw x (by simp) with hx | hx
      · simp [makerFills, hx] at h1
      · exact ⟨x, by simp, by simp [makerFills, hx], by simp [hx]⟩
    | [x, y], _ =>
      have hxy := (List.pairwise_cons.1 f2).1 y (by simp)
      rcases hw x (by simp) with hx | hx <;> rcases hw y (by simp) with hy | hy
      · simp [makerFills, hx, hy] at h1
      · refine ⟨y, by simp, by simp [makerFills, hx, hy], ?_⟩
        have : [x, y].filter (fun o => decide (fillRule a o = none)) = [x] := by simp [hx, hy]
        rw [this]
        intro z hz
        simp only [List.mem_singleton] at hz; subst hz
        exact ⟨rfl, fun e => hxy.1 e.symm, hxy.2.symm⟩
      · refine ⟨x, by simp, by simp [makerFills, hx, hy], ?_⟩
        have : [x, y].filter (fun o => decide (fillRule a o = none)) = [y] := by simp [hx, hy]
        rw [this]
        intro z hz
        simp only [List.mem_singleton] at hz; subst hz
        exact ⟨rfl, hxy⟩
      · simp [makerFills, hx, hy] at h1
  have hr := (h.pair.orders o hmem).2.1
  have hled : (ledger c (fills s.log)).qty = 0 := by
    have := congrArg Ledger.qty hl.ledger
    simp only [ledgerOf, State.core, hn, Position.quantity] at this
    exact this.symm
  have hwal := hl.wallet
  have hfun := h.funds (List.ne_nil_of_mem hmem)
  simp only [State.core] at hwal
  have hpm : s.acct.balance .positionMargin = 0 := by
    rw [h.pair.exact, hn, show Spec.abs (Position.quantity .neutral) = 0 from rfl, value_zero,
      share_zero]
  have hom : s.acct.balance .orderMargin = marginReq c s.active 0 := by
    rw [h.pair.line, hn]; rfl
  have hle := marginReq_member h.pair.good h0 hmem
  have hab : Spec.abs (Fill.signed ⟨true, o.side, o.price, o.remaining⟩) = o.remaining := by
    have : ∀ x : Int, 0 < x → Spec.abs x = x ∧ Spec.abs (-x) = x := fun x hx => by
      unfold Spec.abs; constructor <;> split <;> omega
    cases hs : o.side
    · exact (this _ hr).1
    · exact (this _ hr).2
  have hz : marginReq c (s.active.filter (fun o => decide (fillRule a o = none)))
      (Fill.signed ⟨true, o.side, o.price, o.remaining⟩) = 0 := by
    cases hs : s.active.filter (fun o => decide (fillRule a o = none)) with
    | nil => exact marginReq_nil ..
    | cons y ys =>
      obtain ⟨h2, h3, h4⟩ := hrest y (by rw [hs]; simp)
      rw [hs] at h2
      rw [h2]
      refine marginReq_exit ?_
      rw [← h4]
      cases e1 : o.side <;> cases e2 : y.side <;> rw [e1, e2] at h3 <;>
        simp only [Fill.signed, opposing, larger, ne_eq, not_true_eq_false, reduceCtorEq,
          not_false_eq_true] at h3 ⊢ <;> omega
  simp only [walletAfter, hf, List.foldl_cons, List.foldl_nil, Ledger.fill, hled, if_true, hab, hz]
  omega

end Lfest
