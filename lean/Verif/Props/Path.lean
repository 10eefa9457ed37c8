import Verif.SpecPath
import Verif.Props.WindDown
import Verif.Props.Tracker

/-!
# Between market updates only the orders that are left matter: C132
-/

namespace Lfest

open Spec

/-- Forget the user's id of an order. -/
def nameless (o : Limit) : Limit := { o with uid := 0 }

theorem sideValue_nameless (e : Env) (side : Side) (k : Int) (os : List Limit) :
    sideValue e side k (os.map nameless) = sideValue e side k os := by
  unfold sideValue
  have hf : (os.map nameless).filter (fun o => o.side == side) =
      (os.filter (fun o => o.side == side)).map nameless := by
    rw [List.filter_map]; rfl
  simp only [hf, List.zipIdx_map, List.map_map]
  congr 1
  apply List.map_congr_left
  intro x _
  simp only [Function.comp, Prod.map]
  have : ∀ p : Limit × Nat → Bool, ∀ g : Limit × Nat → Limit × Nat,
      (∀ y, (g y).1.remaining = y.1.remaining) → ∀ l : List (Limit × Nat),
      qtyOf ((l.map g).filter p) = qtyOf (l.filter (fun y => p (g y))) := by
    intro p g hg l
    rw [List.filter_map]
    simp only [qtyOf, List.map_map]
    congr 1
    apply List.map_congr_left
    intro y _
    exact hg y
  simp only [uncovered]
  rw [this _ (Prod.map nameless id) (fun y => rfl)]
  rfl

theorem marginReq_nameless (c : Cfg) (os : List Limit) (pos : Int) :
    marginReq c (os.map nameless) pos = marginReq c os pos := by
  simp only [marginReq, sideValue_nameless]

theorem marginReq_offers {c : Cfg} {os os' : List Limit} {pos : Int} (hg : GoodOrders os)
    (hp : (os.map offer).Perm (os'.map offer)) (h : reducersDiffer os pos) :
    marginReq c os pos = marginReq c os' pos := by
  rw [← marginReq_nameless c os, ← marginReq_nameless c os']
  refine marginReq_terms (fun x hx => ?_) ?_ ?_
  · obtain ⟨o, ho, rfl⟩ := List.mem_map.1 hx
    exact hg o ho
  · have := hp.map (fun x => (⟨0, x.1, x.2.1, x.2.2⟩ : NewLimit))
    simpa only [List.map_map, Function.comp_def, nameless, terms, offer] using this
  · rw [List.filter_map]
    unfold reducersDiffer distinctPrices at h
    unfold distinctPrices
    rw [List.pairwise_map]
    exact h

theorem managing_history {c : Cfg} (hc : soundConfig c) (ops : List Op) :
    ∀ (s s' : State) (tr : List (Op × Resp)), Reachable c s → inLine c s →
    (∀ op ∈ ops, managing op) → history c s ops = .ok (s', tr) →
    inLine c s' ∧ s'.pos = s.pos ∧ s'.ms = s.ms ∧ s'.feesPaid = s.feesPaid ∧
    s'.acct.balance .positionMargin = s.acct.balance .positionMargin ∧
    s'.acct.balance .treasury = s.acct.balance .treasury ∧ equity s' = equity s := by
  induction ops with
  | nil =>
    intro s s' tr hr hl _ h
    simp only [history, ok_inj, Prod.mk.injEq] at h
    obtain ⟨rfl, _⟩ := h
    exact ⟨hl, rfl, rfl, rfl, rfl, rfl, rfl⟩
  | cons op ops ih =>
    intro s s' tr hr hl hm h
    simp only [history] at h
    obtain ⟨⟨s1, r⟩, h1, h2⟩ := bind_ok.1 h
    obtain ⟨⟨s2, tr2⟩, h3, h4⟩ := bind_ok.1 h2
    simp only [ok_inj, Prod.mk.injEq] at h4
    obtain ⟨rfl, _⟩ := h4
    have hm1 := hm op (by simp)
    have hq : quiet op r ∧ ¬ taker op r ∧ orderly s op := by
      cases op <;> simp_all [managing, quiet, taker, orderly]
    obtain ⟨q1, q2, q3⟩ := hq
    obtain ⟨a1, a2, a3, a4, a5⟩ := C03_only_fills_change_equity c s s1 op r h1
      (C03_quiet_calls c s s1 op r h1 q1)
    have a6 : s1.ms = s.ms := C43_other_calls c s s1 op r hr (fun u e => by rw [e] at hm1; exact hm1) h1
    have hl1 := C24_order_margin_in_line c s s1 op r hr hc.2.2.2.2 hc.2.2.1 hl q2 (.inr q3) h1
    obtain ⟨b1, b2, b3, b4, b5, b6, b7⟩ := ih s1 s2 tr2 (hr.step h1) hl1
      (fun o ho => hm o (by simp [ho])) h3
    exact ⟨b1, b2.trans a3, b3.trans a6, b4.trans a2, b5.trans a4, b6.trans a5, b7.trans a1⟩

/-- C132: between two market updates the account depends only on the orders that are left. Two
sequences of submissions, cancellations and amendments, accepted or not, that start from the same
exchange and leave orders that offer the same quantities at the same prices, whatever their ids, user
ids and times, have led to the same position and the same balances. -/
theorem C132_only_the_orders_left (c : Cfg) (s s1 s2 : State) (ops1 ops2 : List Op)
    (tr1 tr2 : List (Op × Resp)) (hc : soundConfig c) (hr : Reachable c s) (hl : inLine c s)
    (hm1 : ∀ op ∈ ops1, managing op) (hm2 : ∀ op ∈ ops2, managing op)
    (h1 : history c s ops1 = .ok (s1, tr1)) (h2 : history c s ops2 = .ok (s2, tr2))
    (hp : (s1.active.map offer).Perm (s2.active.map offer))
    (hd : reducersDiffer s1.active s.pos.quantity) :
    s1.pos = s2.pos ∧ s1.ms = s2.ms ∧ ∀ a, s1.acct.balance a = s2.acct.balance a := by
  obtain ⟨a1, a2, a3, a4, a5, a6, a7⟩ := managing_history hc ops1 s s1 tr1 hr hl hm1 h1
  obtain ⟨b1, b2, b3, b4, b5, b6, b7⟩ := managing_history hc ops2 s s2 tr2 hr hl hm2 h2
  have hr1 : Reachable c s1 := reachable_history hr h1
  have hr2 : Reachable c s2 := reachable_history hr h2
  have hg : GoodOrders s1.active := fun x hx =>
    ⟨(hr1.inv.orders x hx).price, Int.le_of_lt (hr1.inv.orders x hx).rem⟩
  have hm := marginReq_offers (c := c) hg hp hd
  have om : s1.acct.balance .orderMargin = s2.acct.balance .orderMargin := by
    unfold inLine at a1 b1
    rw [a1, b1, a2, b2, hm]
  refine ⟨a2.trans b2.symm, a3.trans b3.symm, ?_⟩
  obtain ⟨o1, r1⟩ := hr1
  obtain ⟨o2, r2⟩ := hr2
  obtain ⟨_, z1, k1⟩ := C01_double_entry c o1 s1 r1
  obtain ⟨_, z2, k2⟩ := C01_double_entry c o2 s2 r2
  simp only [State.feesPaid] at a4 b4
  have e1 : s1.acct.balance .broker = 0 := by simp [Accounts.balance, Accounts.get, k1]; rfl
  have e2 : s2.acct.balance .broker = 0 := by simp [Accounts.balance, Accounts.get, k2]; rfl
  intro a
  cases a <;> omega

/-- One call against five, one of which is turned down: next to a long position of 3, a sell of 4 at 115
is submitted; or a buy, a sell of 1, a buy far too large, an amendment of the sell to 4 and the
cancellation of the first buy. The orders left differ in ids and user ids and offer the same. -/
def Ex.oneWay : List Op := [.limit .sell (Ex.d 115) (Ex.d 4) 7]

@[inherit_doc Ex.oneWay]
def Ex.otherWay : List Op :=
  [.limit .buy (Ex.d 90) (Ex.d 1) 9, .limit .sell (Ex.d 115) (Ex.d 1) 0,
   .limit .buy (Ex.d 90) (Ex.d 1000) 9, .amend 4 .sell (Ex.d 115) (Ex.d 4) 0, .cancel (.orderId 3)]

example : Ex.after Ex.lin Ex.ops2 (fun s => decide (s.pos.quantity = Ex.d 3 ∧
    s.acct.balance .orderMargin = marginReq Ex.lin s.active s.pos.quantity) &&
    (match history Ex.lin s Ex.oneWay, history Ex.lin s Ex.otherWay with
    | .ok (s1, tr1), .ok (s2, tr2) =>
      decide ((s1.active.map offer).Perm (s2.active.map offer) ∧ s1.active ≠ s2.active ∧
        s1.active.length = 3 ∧ reducersDiffer s1.active s.pos.quantity ∧
        s1.acct ≠ s2.acct ∧ s1.acct ≠ s.acct) &&
      decide (tr1.length = 1 ∧ (tr2.filter (fun x => Ex.isOk x.2)).length = 4)
    | _, _ => false)) = true := by decide +kernel

example : (∀ op ∈ Ex.oneWay, managing op) ∧ (∀ op ∈ Ex.otherWay, managing op) := by
  simp [Ex.oneWay, Ex.otherWay, managing]

/-- C132, there and back: whatever was submitted, amended and cancelled, once the orders that are left
offer what the orders at the beginning did, the account is as it was. -/
theorem C132_there_and_back (c : Cfg) (s s' : State) (ops : List Op) (tr : List (Op × Resp))
    (hc : soundConfig c) (hr : Reachable c s) (hl : inLine c s) (hm : ∀ op ∈ ops, managing op)
    (h : history c s ops = .ok (s', tr)) (hp : (s'.active.map offer).Perm (s.active.map offer))
    (hd : reducersDiffer s.active s.pos.quantity) :
    s'.pos = s.pos ∧ s'.ms = s.ms ∧ ∀ a, s'.acct.balance a = s.acct.balance a := by
  obtain ⟨h1, h2, h3⟩ := C132_only_the_orders_left c s s s' [] ops [] tr hc hr hl (by simp) hm rfl h
    hp.symm hd
  exact ⟨h1.symm, h2.symm, fun a => (h3 a).symm⟩

/-- Two new orders, one of them amended, then both cancelled, and an old one replaced by a new one with
the same offer. -/
example : Ex.after Ex.lin Ex.ops2 (fun s =>
    match history Ex.lin s [.limit .sell (Ex.d 115) (Ex.d 4) 7, .limit .buy (Ex.d 90) (Ex.d 1) 9,
      .amend 3 .sell (Ex.d 120) (Ex.d 2) 7, .cancel (.orderId 4), .cancel (.orderId 5),
      .cancel (.orderId 2), .limit .buy (Ex.d 95) (Ex.d 2) 50] with
    | .ok (s1, tr) =>
      decide ((s1.active.map offer).Perm (s.active.map offer) ∧ s1.active ≠ s.active ∧
        s.active.length = 2 ∧ reducersDiffer s.active s.pos.quantity ∧ s1.acct ≠ s.acct) &&
      tr.all (fun x => Ex.isOk x.2)
    | _ => false) = true := by decide +kernel

theorem marginReq_filter {c : Cfg} {pos : Int} (hi : 0 ≤ c.spec.initMarginReq) (p : Limit → Bool)
    (zs : List Limit) : ∀ xs, GoodOrders (xs ++ zs) → reducersDiffer (xs ++ zs) pos →
    marginReq c (xs ++ zs.filter p) pos ≤ marginReq c (xs ++ zs) pos := by
  induction zs with
  | nil => intro xs _ _; simp
  | cons z zs ih =>
    intro xs hg hd
    by_cases hz : p z = true
    · rw [List.filter_cons_of_pos hz]
      have e : ∀ l, xs ++ z :: l = (xs ++ [z]) ++ l := fun l => by simp
      rw [e zs] at hg hd ⊢
      rw [e (zs.filter p)]
      exact ih (xs ++ [z]) hg hd
    · rw [List.filter_cons_of_neg hz]
      have hs : (xs ++ zs).Sublist (xs ++ z :: zs) :=
        List.Sublist.append_left (List.sublist_cons_self z zs) xs
      refine Int.le_trans (ih xs (fun x hx => hg x (hs.subset hx)) ?_) ?_
      · exact List.Pairwise.sublist (hs.filter _) hd
      · exact marginReq_remove hi hg hd (List.Perm.refl _)

/-- C132, cancel first: if new orders are accepted as a whole and then some of the old ones cancelled,
one may as well cancel first and submit then: everything is accepted, and the same orders, ids
included, are left with the same balances. -/
theorem C132_cancel_first (c : Cfg) (s s0 : State) (l : List NewLimit) (ids : List Nat)
    (tr0 : List (Op × Resp)) (hc : soundConfig c) (hr : Reachable c s) (hl : inLine c s)
    (hn : ids.Nodup) (hex : ∀ i ∈ ids, ∃ o ∈ s.active, o.id = i)
    (h : history c s (submitAll l) = .ok (s0, tr0)) (hall : allAccepted tr0)
    (hd : reducersDiffer s0.active s.pos.quantity) :
    ∃ s1 s2 tr1 tr2, history c s (submitAll l ++ cancelAll ids) = .ok (s1, tr1) ∧
      history c s (cancelAll ids ++ submitAll l) = .ok (s2, tr2) ∧
      allAccepted tr1 ∧ allAccepted tr2 ∧
      s1.active.Perm s2.active ∧ s1.pos = s2.pos ∧ s1.ms = s2.ms ∧ s1.nextId = s2.nextId ∧
      ∀ a, s1.acct.balance a = s2.acct.balance a := by
  obtain ⟨a1, a2, a3, a4, a5, a6, a7, a8⟩ := C92_effect c s s0 l tr0 hc hr hl h hall
  have hr0 : Reachable c s0 := reachable_history hr h
  have hl0 : inLine c s0 := a6
  have good : ∀ {t}, Reachable c t → GoodOrders t.active := fun ht x hx =>
    ⟨(ht.inv.orders x hx).price, Int.le_of_lt (ht.inv.orders x hx).rem⟩
  have hsub : s.active.Sublist s0.active := by rw [a1]; exact List.sublist_append_left _ _
  have hds : reducersDiffer s.active s.pos.quantity := List.Pairwise.sublist (hsub.filter _) hd
  have hd0 : reducersDiffer s0.active s0.pos.quantity := by rw [a4]; exact hd
  obtain ⟨s1, tc, h1, t1, p1, l1, q1, m1, n1, f1, y1, g1, w1⟩ := C96_cancel_any_order c ids s0 hc hr0
    hl0 hd0 hn (fun i hi => by
      obtain ⟨o, ho, e⟩ := hex i hi
      exact ⟨o, hsub.subset ho, e⟩)
  obtain ⟨sc, td, h2, t2, p2, l2, q2, m2, n2, f2, y2, g2, w2⟩ := C96_cancel_any_order c ids s hc hr
    hl hds hn hex
  have hrc : Reachable c sc := reachable_history hr h2
  obtain ⟨s2, te, h3, l3⟩ := C92_returns c sc l hc hrc l2
  -- ids of new orders are none of those cancelled
  have hnew : (restingOrders s.nextId s.ms.ts l).filter (fun o => decide (o.id ∉ ids)) =
      restingOrders s.nextId s.ms.ts l := by
    have fresh : ∀ (l : List NewLimit) (k : Nat) (ts : Int), ∀ o ∈ restingOrders k ts l, k ≤ o.id := by
      intro l
      induction l with
      | nil => intro k ts o ho; simp [restingOrders] at ho
      | cons n l ih =>
        intro k ts o ho
        simp only [restingOrders, List.mem_cons] at ho
        rcases ho with rfl | ho
        · exact Nat.le_refl _
        · have := ih (k + 1) ts o ho; omega
    refine List.filter_eq_self.2 fun o ho => ?_
    refine decide_eq_true fun hi => ?_
    obtain ⟨x, hx, e⟩ := hex _ hi
    have h5 := fresh l s.nextId s.ms.ts o ho
    have h6 := (hr.inv.orders x hx).fresh
    omega
  have hbook : (sc.active ++ restingOrders sc.nextId sc.ms.ts l).Perm
      (s0.active.filter (fun o => decide (o.id ∉ ids))) := by
    rw [a1, List.filter_append, hnew, n2, m2]
    exact p2.append_right _
  have hreq : marginReq c (sc.active ++ restingOrders sc.nextId sc.ms.ts l) sc.pos.quantity ≤
      marginReq c s0.active s0.pos.quantity := by
    have hf := marginReq_filter (c := c) (pos := s.pos.quantity) hc.2.2.1
      (fun o => decide (o.id ∉ ids)) s0.active [] (by simpa using good hr0) (by simpa using hd)
    simp only [List.nil_append] at hf
    rw [q2, a4]
    refine Int.le_trans (Int.le_of_eq ?_) hf
    refine (marginReq_terms (c := c) (fun x hx => ?_) (hbook.symm.map terms) ?_).symm
    · exact good hr0 x (List.mem_filter.1 hx).1
    · exact List.Pairwise.sublist (List.filter_sublist.filter _) hd
  have hacc : allAccepted te := by
    by_cases hne : l = []
    · subst hne
      simp only [submitAll, List.map_nil, history, ok_inj, Prod.mk.injEq] at h3
      obtain ⟨_, rfl⟩ := h3
      simp [allAccepted]
    · obtain ⟨u1, u2, u3⟩ := (C92_batch_rule c s s0 l tr0 hc hr hl hne h).1 hall
      refine (C92_batch_rule c sc s2 l te hc hrc l2 hne h3).2 ⟨?_, ?_, ?_⟩
      · rw [m2]; exact u1
      · have := p2.length_eq
        have := List.length_filter_le (fun o : Limit => decide (o.id ∉ ids)) s.active
        omega
      · rw [w2]
        refine Int.le_trans hreq ?_
        rw [a1, a4]
        exact u3
  obtain ⟨b1, b2, b3, b4, b5, b6, b7, b8⟩ := C92_effect c sc s2 l te hc hrc l2 h3 hacc
  have e1 : history c s (submitAll l ++ cancelAll ids) = .ok (s1, tr0 ++ tc) := by
    rw [history_append, h]
    simp only [bind, Except.bind, h1]
  have e2 : history c s (cancelAll ids ++ submitAll l) = .ok (s2, td ++ te) := by
    rw [history_append, h2]
    simp only [bind, Except.bind, h3]
  have hperm : s1.active.Perm s2.active := by rw [b1]; exact p1.trans hbook.symm
  have acc : ∀ {t : State} {tr : List (Op × Resp)}, (∀ x ∈ tr, ∃ o ∈ t.active,
      x = (.cancel (.orderId o.id), .limit (.ok o))) → allAccepted tr := by
    intro t tr ht x hx
    obtain ⟨o, _, rfl⟩ := ht x hx
    exact ⟨o, rfl⟩
  have hm : ∀ op ∈ submitAll l ++ cancelAll ids, managing op := by
    intro op hop
    simp only [submitAll, cancelAll, List.mem_append, List.mem_map] at hop
    rcases hop with ⟨n, _, rfl⟩ | ⟨i, _, rfl⟩ <;> trivial
  have hd1 : reducersDiffer s1.active s.pos.quantity := by
    refine (List.Pairwise.sublist ?_ hd).perm (p1.filter _).symm (fun h e e' => h e.symm e'.symm)
    exact List.filter_sublist.filter _
  obtain ⟨r1, r2, r3⟩ := C132_only_the_orders_left c s s1 s2 _ _ _ _ hc hr hl hm
    (fun op hop => hm op (by simpa [or_comm] using hop)) e1 e2 (hperm.map offer) hd1
  refine ⟨s1, s2, _, _, e1, e2, ?_, ?_, hperm, r1, r2, ?_, r3⟩
  · exact fun x hx => (List.mem_append.1 hx).elim (hall x) (acc t1 x)
  · exact fun x hx => (List.mem_append.1 hx).elim (acc t2 x) (hacc x)
  · rw [n1, a2, b2, n2]

/-- A buy and a sell submitted, then the old buy cancelled: the hypotheses are met. -/
example : Ex.after Ex.lin Ex.ops2 (fun s =>
    match history Ex.lin s (submitAll [⟨9, .buy, Ex.d 90, Ex.d 1⟩, ⟨0, .sell, Ex.d 115, Ex.d 4⟩]) with
    | .ok (s0, tr) => tr.all (fun x => Ex.isOk x.2) &&
      decide (reducersDiffer s0.active s.pos.quantity ∧ s.active.any (fun o => o.id == 2) ∧
        s0.active.length = 4)
    | _ => false) = true := by decide +kernel

/-- The converse of `C132_cancel_first` fails, as it should: with the margin of the old order free, a
buy of 6 at 90 is accepted; before, it is not. -/
theorem C132_cancelling_pays_for_orders : ∃ s s1 s2 l ids tr1 tr2, Reachable Ex.lin s ∧
    inLine Ex.lin s ∧ (∀ i ∈ ids, ∃ o ∈ s.active, o.id = i) ∧
    history Ex.lin s (submitAll l ++ cancelAll ids) = .ok (s1, tr1) ∧ ¬ allAccepted tr1 ∧
    history Ex.lin s (cancelAll ids ++ submitAll l) = .ok (s2, tr2) ∧ allAccepted tr2 := by
  have h : Ex.after Ex.lin Ex.ops2 (fun s =>
      decide (s.acct.balance .orderMargin = marginReq Ex.lin s.active s.pos.quantity ∧
        ∃ o ∈ s.active, o.id = 2) &&
      (match history Ex.lin s (submitAll [⟨9, .buy, Ex.d 90, Ex.d 6⟩] ++ cancelAll [2]),
        history Ex.lin s (cancelAll [2] ++ submitAll [⟨9, .buy, Ex.d 90, Ex.d 6⟩]) with
      | .ok (_, tr1), .ok (_, tr2) =>
        tr1.any (fun x => !Ex.isOk x.2) &&
          tr2.all (fun x => match x.2 with | .limit (.ok _) => true | _ => false)
      | _, _ => false)) = true := by decide +kernel
  obtain ⟨s, hr, hs⟩ := Ex.after_reach h
  simp only [Bool.and_eq_true, decide_eq_true_eq] at hs
  obtain ⟨⟨hl, hex⟩, hm⟩ := hs
  split at hm
  · rename_i s1 tr1 s2 tr2 h1 h2
    simp only [Bool.and_eq_true, List.any_eq_true, List.all_eq_true] at hm
    obtain ⟨⟨x, hx, hx1⟩, hall⟩ := hm
    refine ⟨s, s1, s2, _, _, tr1, tr2, hr, hl, ?_, h1, ?_, h2, ?_⟩
    · intro i hi
      rw [List.mem_singleton.1 hi]
      exact hex
    · intro hacc
      obtain ⟨o, ho⟩ := hacc x hx
      rw [ho] at hx1
      exact absurd hx1 (by simp [Ex.isOk])
    · intro y hy
      have := hall y hy
      split at this
      · rename_i o e
        exact ⟨o, e⟩
      · cases this
  · cases hm

end Lfest
