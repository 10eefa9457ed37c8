import Verif.SpecBatch
import Verif.Props.NoPanic
import Verif.Props.Validate
import Verif.Props.Margin
import Verif.Props.Orders
import Verif.Props.Risk

/-!
# Lists of limit orders: C92
-/

namespace Lfest

open Spec

theorem allAccepted_cons {x : Op × Resp} {tr : List (Op × Resp)} :
    allAccepted (x :: tr) ↔ (∃ o, x.2 = .limit (.ok o)) ∧ allAccepted tr := by
  simp [allAccepted]

theorem reachable_history {c : Cfg} {ops : List Op} : ∀ {s s' : State} {tr : List (Op × Resp)},
    Reachable c s → history c s ops = .ok (s', tr) → Reachable c s' := by
  induction ops with
  | nil =>
    intro s s' tr hr h
    simp only [history, ok_inj, Prod.mk.injEq] at h
    exact h.1 ▸ hr
  | cons op ops ih =>
    intro s s' tr hr h
    simp only [history] at h
    obtain ⟨⟨s1, r⟩, h1, h2⟩ := bind_ok.1 h
    obtain ⟨⟨s2, tr2⟩, h3, h4⟩ := bind_ok.1 h2
    simp only [ok_inj, Prod.mk.injEq] at h4
    exact h4.1 ▸ ih (hr.step h1) h3

/-- What an accepted order changes, in line. -/
theorem accepted_effect {c : Cfg} {s s1 : State} {n : NewLimit} {o : Limit} (hc : soundConfig c)
    (hr : Reachable c s) (hl : inLine c s)
    (h : step c s (.limit n.side n.price n.qty n.uid) = .ok (s1, .limit (.ok o))) :
    o = ⟨n.uid, n.side, n.price, n.qty, s.nextId, s.ms.ts, .unfilled⟩ ∧
    s1.active = s.active ++ [o] ∧ s1.nextId = s.nextId + 1 ∧ s1.ms = s.ms ∧ s1.pos = s.pos ∧
    inLine c s1 ∧ s1.acct.balance .wallet + s1.acct.balance .orderMargin =
      s.acct.balance .wallet + s.acct.balance .orderMargin ∧
    s1.acct.balance .positionMargin = s.acct.balance .positionMargin ∧
    s1.feesPaid = s.feesPaid := by
  obtain ⟨_, _, h3, _, h5⟩ := hc
  obtain ⟨a1, a2, a3, a4, a5, a6, a7, _, a9⟩ := C18_accepted_limit c s s1 hr _ _ _ _ o h
  refine ⟨a1, a2, a3, a4, a5, ?_, by omega, a7, a6⟩
  exact C24_order_margin_in_line c s s1 (.limit n.side n.price n.qty n.uid) _ hr h5 h3 hl
    (by simp [taker]) (.inr trivial) h

/-- C92: a list of limit orders, submitted one after the other to an exchange whose order margin is
in line, never panics, and leaves it in line. -/
theorem C92_returns (c : Cfg) (s : State) (l : List NewLimit) (hc : soundConfig c)
    (hr : Reachable c s) (hl : inLine c s) :
    ∃ s' tr, history c s (submitAll l) = .ok (s', tr) ∧ inLine c s' := by
  induction l generalizing s with
  | nil => exact ⟨s, [], rfl, hl⟩
  | cons n l ih =>
    obtain ⟨s1, r, h⟩ := C66_submit c s n.side n.price n.qty n.uid hc hr hl
    have hl1 := C24_order_margin_in_line c s s1 (.limit n.side n.price n.qty n.uid) r hr hc.2.2.2.2 hc.2.2.1 hl
      (by cases r <;> simp [taker]) (.inr trivial) h
    obtain ⟨s', tr, h', hl'⟩ := ih s1 (hr.step h) hl1
    refine ⟨s', (.limit n.side n.price n.qty n.uid, r) :: tr, ?_, hl'⟩
    simp only [submitAll, List.map_cons, history, h]
    simp only [submitAll] at h'
    simp only [bind, Except.bind, h']

/-- C92: the list is accepted as a whole if and only if every order is admissible on its own, there is
room for all of them, and the wallet covers what the requirement of all orders together exceeds the
reserved margin by. In what order they are submitted is irrelevant to the first two conditions. -/
theorem C92_batch_rule (c : Cfg) (s s' : State) (l : List NewLimit) (tr : List (Op × Resp))
    (hc : soundConfig c) (hr : Reachable c s) (hl : inLine c s) (hne : l ≠ [])
    (h : history c s (submitAll l) = .ok (s', tr)) :
    allAccepted tr ↔
      (∀ n ∈ l, admissible c s.ms n) ∧ s.active.length + l.length ≤ c.maxOpen ∧
      marginReq c (s.active ++ restingOrders s.nextId s.ms.ts l) s.pos.quantity ≤
        s.acct.balance .wallet + s.acct.balance .orderMargin := by
  induction l generalizing s s' tr with
  | nil => exact absurd rfl hne
  | cons n l ih =>
    simp only [submitAll, List.map_cons, history] at h
    obtain ⟨⟨s1, r⟩, h1, h2⟩ := bind_ok.1 h
    obtain ⟨⟨s2, tr2⟩, h3, h4⟩ := bind_ok.1 h2
    simp only [ok_inj, Prod.mk.injEq] at h4
    obtain ⟨rfl, rfl⟩ := h4
    rw [allAccepted_cons]
    have dec := (C59_limit_order_decision c s s1 n.side n.price n.qty n.uid r _ hr hc.2.2.2.2 h1 rfl).1
    simp only at h3 ⊢
    constructor
    · rintro ⟨⟨o, rfl⟩, hall⟩
      obtain ⟨d1, d2, d3, d4, d5, d6, d7⟩ := dec.1 ⟨o, rfl⟩
      obtain ⟨rfl, e2, e3, e4, e5, e6, e7, _⟩ := accepted_effect hc hr hl h1
      have hadm : admissible c s.ms n := ⟨d1, d2, d3, d4, d6⟩
      by_cases hl0 : l = []
      · subst hl0
        refine ⟨by simpa using hadm, by simp; omega, ?_⟩
        rw [hl]; exact d5
      · obtain ⟨i1, i2, i3⟩ := (ih s1 s2 tr2 (hr.step h1) e6 hl0 h3).1 hall
        rw [e4] at i1
        rw [e2, e3, e4, e5, e7, List.append_assoc] at i3
        rw [e2] at i2
        simp only [List.length_append, List.length_cons, List.length_nil] at i2
        refine ⟨?_, by simp only [List.length_cons]; omega, i3⟩
        intro m hm
        rcases List.mem_cons.1 hm with rfl | hm
        · exact hadm
        · exact i1 m hm
    · rintro ⟨g1, g2, g3⟩
      obtain ⟨d1, d2, d3, d4, d6⟩ := g1 n (by simp)
      have mono : ∀ (k : List NewLimit) (os : List Limit) (nx : Nat) (ts : Int),
          (∀ x ∈ os, 0 < x.price ∧ 0 ≤ x.remaining) → (∀ m ∈ k, admissible c s.ms m) →
          marginReq c os s.pos.quantity ≤ marginReq c (os ++ restingOrders nx ts k) s.pos.quantity := by
        intro k
        induction k with
        | nil => intro os nx ts _ _; simp [restingOrders]
        | cons m k ihk =>
          intro os nx ts ho hk
          have hm := hk m (by simp)
          have hg : ∀ x ∈ os ++ [(⟨m.uid, m.side, m.price, m.qty, nx, ts, .unfilled⟩ : Limit)],
              0 < x.price ∧ 0 ≤ x.remaining := by
            intro x hx
            rcases List.mem_append.1 hx with hx | hx
            · exact ho x hx
            · simp only [List.mem_singleton] at hx
              subst hx
              exact ⟨hm.1, Int.le_of_lt hm.2.1⟩
          have a := C26_adding_never_lowers c os ⟨m.uid, m.side, m.price, m.qty, nx, ts, .unfilled⟩
            s.pos.quantity hc.2.2.1 hg
          have b := ihk _ (nx + 1) ts hg (fun x hx => hk x (by simp [hx]))
          rw [List.append_assoc] at b
          exact Int.le_trans a b
      have hgood : ∀ x ∈ s.active ++ [(⟨n.uid, n.side, n.price, n.qty, s.nextId, s.ms.ts, .unfilled⟩ :
          Limit)], 0 < x.price ∧ 0 ≤ x.remaining := by
        intro x hx
        rcases List.mem_append.1 hx with hx | hx
        · have := hr.inv.orders x hx
          exact ⟨this.price, Int.le_of_lt this.rem⟩
        · simp only [List.mem_singleton] at hx
          subst hx
          exact ⟨d1, Int.le_of_lt d2⟩
      have hm := mono l _ (s.nextId + 1) s.ms.ts hgood (fun x hx => g1 x (by simp [hx]))
      rw [List.append_assoc] at hm
      have g3' : marginReq c (s.active ++ ([(⟨n.uid, n.side, n.price, n.qty, s.nextId, s.ms.ts,
          .unfilled⟩ : Limit)] ++ restingOrders (s.nextId + 1) s.ms.ts l)) s.pos.quantity ≤
          s.acct.balance .wallet + s.acct.balance .orderMargin := g3
      simp only [List.length_cons] at g2
      obtain ⟨o, rfl⟩ := dec.2 ⟨d1, d2, d3, d4, by rw [← hl]; omega, d6, by omega⟩
      refine ⟨⟨o, rfl⟩, ?_⟩
      obtain ⟨rfl, e2, e3, e4, e5, e6, e7, _⟩ := accepted_effect hc hr hl h1
      by_cases hl0 : l = []
      · subst hl0
        simp only [List.map_nil, history, ok_inj, Prod.mk.injEq] at h3
        obtain ⟨_, rfl⟩ := h3
        simp [allAccepted]
      · refine (ih s1 s2 tr2 (hr.step h1) e6 hl0 h3).2 ⟨?_, ?_, ?_⟩
        · rw [e4]; exact fun x hx => g1 x (by simp [hx])
        · rw [e2]; simp only [List.length_append, List.length_cons, List.length_nil]; omega
        · rw [e2, e3, e4, e5, e7, List.append_assoc]; exact g3'

/-- C92: what a list of accepted orders changes. -/
theorem C92_effect (c : Cfg) (s s' : State) (l : List NewLimit) (tr : List (Op × Resp))
    (hc : soundConfig c) (hr : Reachable c s) (hl : inLine c s)
    (h : history c s (submitAll l) = .ok (s', tr)) (hall : allAccepted tr) :
    s'.active = s.active ++ restingOrders s.nextId s.ms.ts l ∧ s'.nextId = s.nextId + l.length ∧
    s'.ms = s.ms ∧ s'.pos = s.pos ∧ s'.feesPaid = s.feesPaid ∧
    s'.acct.balance .orderMargin = marginReq c s'.active s'.pos.quantity ∧
    s'.acct.balance .wallet + s'.acct.balance .orderMargin =
      s.acct.balance .wallet + s.acct.balance .orderMargin ∧
    s'.acct.balance .positionMargin = s.acct.balance .positionMargin := by
  induction l generalizing s s' tr with
  | nil =>
    simp only [submitAll, List.map_nil, history, ok_inj, Prod.mk.injEq] at h
    obtain ⟨rfl, rfl⟩ := h
    exact ⟨by simp [restingOrders], rfl, rfl, rfl, rfl, hl, rfl, rfl⟩
  | cons n l ih =>
    simp only [submitAll, List.map_cons, history] at h
    obtain ⟨⟨s1, r⟩, h1, h2⟩ := bind_ok.1 h
    obtain ⟨⟨s2, tr2⟩, h3, h4⟩ := bind_ok.1 h2
    simp only [ok_inj, Prod.mk.injEq] at h4
    obtain ⟨rfl, rfl⟩ := h4
    rw [allAccepted_cons] at hall
    obtain ⟨⟨o, ho⟩, hall⟩ := hall
    simp only at ho
    subst ho
    obtain ⟨rfl, e2, e3, e4, e5, e6, e7, e8, e9⟩ := accepted_effect hc hr hl h1
    obtain ⟨i1, i2, i3, i4, i5, i6, i7, i8⟩ := ih s1 s2 tr2 (hr.step h1) e6 h3 hall
    refine ⟨?_, ?_, i3.trans e4, i4.trans e5, i5.trans e9, i6, i7.trans e7, i8.trans e8⟩
    · rw [i1, e2, e3, e4, List.append_assoc]; rfl
    · rw [i2, e3]; simp only [List.length_cons]; omega

/-! ## The requirement depends on the terms of the orders only -/

/-- An order with the given terms and no ids. -/
def blank (n : NewLimit) : Limit := ⟨n.uid, n.side, n.price, n.qty, 0, 0, .unfilled⟩

theorem sideValue_blank (e : Env) (side : Side) (k : Int) (os : List Limit) :
    sideValue e side k (os.map (fun o => blank (terms o))) = sideValue e side k os := by
  unfold sideValue
  have hf : (os.map (fun o => blank (terms o))).filter (fun o => o.side == side) =
      (os.filter (fun o => o.side == side)).map (fun o => blank (terms o)) := by
    rw [List.filter_map]; rfl
  simp only [hf, List.zipIdx_map, List.map_map]
  congr 1
  apply List.map_congr_left
  intro x _
  simp only [Function.comp, Prod.map]
  have : ∀ p : Limit × Nat → Bool, ∀ g : Limit × Nat → Limit × Nat,
      (∀ y, (g y).1.remaining = y.1.remaining) → ∀ l : List (Limit × Nat),
      qtyOf ((l.map g).filter p) = qtyOf (l.filter (fun y => p (g y))) := by
    intro p g hg l
    rw [List.filter_map]
    simp only [qtyOf, List.map_map]
    congr 1
    apply List.map_congr_left
    intro y _
    exact hg y
  simp only [uncovered]
  rw [this _ (Prod.map (fun o => blank (terms o)) id) (fun y => rfl)]
  rfl

theorem marginReq_blank (c : Cfg) (os : List Limit) (pos : Int) :
    marginReq c (os.map (fun o => blank (terms o))) pos = marginReq c os pos := by
  simp only [marginReq, sideValue_blank]

theorem marginReq_terms {c : Cfg} {os os' : List Limit} {pos : Int} (hg : GoodOrders os)
    (hp : (os.map terms).Perm (os'.map terms))
    (h : distinctPrices (os.filter (fun o => decide (0 < opposing pos o.side)))) :
    marginReq c os pos = marginReq c os' pos := by
  rw [← marginReq_blank c os, ← marginReq_blank c os']
  have hp' : (os.map (fun o => blank (terms o))).Perm (os'.map (fun o => blank (terms o))) := by
    have := hp.map blank
    simpa only [List.map_map, Function.comp_def] using this
  have hg1 : GoodOrders (os.map (fun o => blank (terms o))) := by
    intro x hx
    obtain ⟨o, ho, rfl⟩ := List.mem_map.1 hx
    exact hg o ho
  have key : ∀ side, opposing pos side = 0 ∨
      distinctPrices ((os.map (fun o => blank (terms o))).filter (fun o => o.side == side)) := by
    intro side
    by_cases h0 : 0 < opposing pos side
    · right
      have e : (os.map (fun o => blank (terms o))).filter (fun o => o.side == side) =
          ((os.filter (fun o => decide (0 < opposing pos o.side))).filter
            (fun o => o.side == side)).map (fun o => blank (terms o)) := by
        rw [List.filter_map, List.filter_filter]
        congr 1
        refine List.filter_congr (fun x _ => ?_)
        show (x.side == side) = _
        by_cases hx : x.side = side
        · simp [hx, h0]
        · simp [hx]
      rw [e]
      have := h.filter (fun o => o.side == side)
      unfold distinctPrices at this ⊢
      rw [List.pairwise_map]
      exact this
    · left
      cases side <;> simp only [opposing, larger] at h0 ⊢ <;> split <;> simp_all <;> omega
  have side : ∀ sd, sideValue c.env sd (opposing pos sd) (os.map (fun o => blank (terms o))) =
      sideValue c.env sd (opposing pos sd) (os'.map (fun o => blank (terms o))) := by
    intro sd
    rcases key sd with h0 | hd
    · rw [h0]; exact sideValue_zero_perm hg1 hp'
    · exact sideValue_perm hd hp'
  have b := side .buy
  have s := side .sell
  simp only [opposing] at b s
  simp only [marginReq, b, s]

theorem terms_resting (next : Nat) (ts : Int) (l : List NewLimit) :
    (restingOrders next ts l).map terms = l := by
  induction l generalizing next with
  | nil => rfl
  | cons n l ih => simp only [restingOrders, List.map_cons, ih]; rfl

/-- C92: if a list of orders is accepted as a whole, so is every rearrangement of it, with the same
orders at rest apart from ids, and the same balances: provided that the orders which reduce the
position have pairwise different prices. -/
theorem C92_any_order (c : Cfg) (s s1 : State) (l l' : List NewLimit) (tr : List (Op × Resp))
    (hc : soundConfig c) (hr : Reachable c s) (hl : inLine c s) (hp : l.Perm l')
    (h : history c s (submitAll l) = .ok (s1, tr)) (hall : allAccepted tr)
    (hd : distinctPrices (s1.active.filter (fun o => decide (0 < opposing s.pos.quantity o.side)))) :
    ∃ s2 tr', history c s (submitAll l') = .ok (s2, tr') ∧ allAccepted tr' ∧
      (s2.active.map terms).Perm (s1.active.map terms) ∧ s2.pos = s1.pos ∧
      s2.nextId = s1.nextId ∧ s2.feesPaid = s1.feesPaid ∧
      s2.acct.balance .wallet = s1.acct.balance .wallet ∧
      s2.acct.balance .orderMargin = s1.acct.balance .orderMargin ∧
      s2.acct.balance .positionMargin = s1.acct.balance .positionMargin := by
  obtain ⟨s2, tr', h', _⟩ := C92_returns c s l' hc hr hl
  obtain ⟨a1, a2, a3, a4, a5, a6, a7, a8⟩ := C92_effect c s s1 l tr hc hr hl h hall
  have hperm : ((s.active ++ restingOrders s.nextId s.ms.ts l).map terms).Perm
      ((s.active ++ restingOrders s.nextId s.ms.ts l').map terms) := by
    simp only [List.map_append, terms_resting]
    exact List.Perm.append_left _ hp
  have hr1 : Reachable c s1 := reachable_history hr h
  have hg1 : GoodOrders s1.active := fun x hx =>
    ⟨(hr1.inv.orders x hx).price, Int.le_of_lt (hr1.inv.orders x hx).rem⟩
  rw [a1] at hd hg1
  have hm := marginReq_terms (c := c) hg1 hperm hd
  have hall' : allAccepted tr' := by
    by_cases hne : l = []
    · subst hne
      have : l' = [] := hp.symm.eq_nil
      subst this
      simp only [submitAll, List.map_nil, history, ok_inj, Prod.mk.injEq] at h'
      obtain ⟨_, rfl⟩ := h'
      simp [allAccepted]
    · obtain ⟨g1, g2, g3⟩ := (C92_batch_rule c s s1 l tr hc hr hl hne h).1 hall
      refine (C92_batch_rule c s s2 l' tr' hc hr hl (fun e => hne (e ▸ hp).eq_nil) h').2 ⟨?_, ?_, ?_⟩
      · exact fun n hn => g1 n (hp.mem_iff.2 hn)
      · rw [← hp.length_eq]; exact g2
      · rw [← hm]; exact g3
  obtain ⟨b1, b2, b3, b4, b5, b6, b7, b8⟩ := C92_effect c s s2 l' tr' hc hr hl h' hall'
  have hm' : s2.acct.balance .orderMargin = s1.acct.balance .orderMargin := by
    rw [a6, b6, a4, b4, a1, b1, hm]
  refine ⟨s2, tr', h', hall', ?_, b4.trans a4.symm, ?_, b5.trans a5.symm, by omega, hm',
    b8.trans a8.symm⟩
  · rw [a1, b1]; exact hperm.symm
  · rw [a2, b2, hp.length_eq]

/-- A long position of 3 with one sell and one buy at rest; then two sells and a buy, in two orders:
both lists are accepted as a whole, some of the sells being covered by the position, and the
resulting books are different lists of the same terms. -/
example : Ex.after Ex.lin Ex.ops2 (fun s => decide (s.pos.quantity = Ex.d 3 ∧
    s.acct.balance .orderMargin = marginReq Ex.lin s.active s.pos.quantity) &&
    (match history Ex.lin s (submitAll [⟨0, .sell, Ex.d 120, Ex.d 1⟩, ⟨0, .sell, Ex.d 115, Ex.d 4⟩,
        ⟨9, .buy, Ex.d 90, Ex.d 1⟩]),
      history Ex.lin s (submitAll [⟨9, .buy, Ex.d 90, Ex.d 1⟩, ⟨0, .sell, Ex.d 115, Ex.d 4⟩,
        ⟨0, .sell, Ex.d 120, Ex.d 1⟩]) with
    | .ok (s1, tr1), .ok (s2, tr2) =>
      tr1.all (fun x => Ex.isOk x.2) && tr2.all (fun x => Ex.isOk x.2) &&
      decide (s1.active.length = 5 ∧ s1.active ≠ s2.active ∧ s1.acct = s2.acct ∧
        s1.acct.balance .orderMargin = Ex.d 350 ∧
        distinctPrices (s1.active.filter (fun o => decide (0 < opposing s.pos.quantity o.side))))
    | _, _ => false)) = true := by decide +kernel

/-- C92 needs the different prices: next to a long position of 0.00001, sells of 0.00002 and 0.00003
at the same price 1.5 require 0.00005 when submitted in this order and 0.00006 in the other, by
rounding. With 0.00005 in the wallet only the first order of submission is accepted as a whole. -/
theorem C92_equal_prices_matter : ∃ c s s1 s2 l l' tr tr', soundConfig c ∧ Reachable c s ∧
    inLine c s ∧ l.Perm l' ∧ history c s (submitAll l) = .ok (s1, tr) ∧ allAccepted tr ∧
    history c s (submitAll l') = .ok (s2, tr') ∧ ¬ allAccepted tr' := by
  have H : Ex.after { Ex.fine with start := 6 }
      [.update (.bba ⟨140000, 150000, 1⟩), .market .buy 1 0] (fun s =>
      decide (s.acct.balance .orderMargin =
        marginReq { Ex.fine with start := 6 } s.active s.pos.quantity) &&
      (match history { Ex.fine with start := 6 } s
          (submitAll [⟨0, .sell, 150000, 2⟩, ⟨0, .sell, 150000, 3⟩]),
        history { Ex.fine with start := 6 } s
          (submitAll [⟨0, .sell, 150000, 3⟩, ⟨0, .sell, 150000, 2⟩]) with
      | .ok (_, [(_, .limit (.ok _)), (_, .limit (.ok _))]),
        .ok (_, [_, (_, .limit (.error _))]) => true
      | _, _ => false)) = true := by decide +kernel
  obtain ⟨s, hr, hp⟩ := Ex.after_reach H
  simp only [Bool.and_eq_true, decide_eq_true_eq] at hp
  obtain ⟨h1, h2⟩ := hp
  split at h2
  · next s1 o1 l1 o2 l2 s2 x o3 e h3 h4 =>
    refine ⟨_, s, s1, s2, _, _, _, _, ?_, hr, h1, List.Perm.swap _ _ [], h3, ?_, h4, ?_⟩
    · unfold soundConfig; decide
    · simp [allAccepted]
    · simp [allAccepted]
  · simp at h2

end Lfest
