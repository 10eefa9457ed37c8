import Verif.Props.NoPanic
import Verif.Props.Batch
import Verif.Props.Solvent
import Verif.Props.Safety
import Verif.Props.Ledger
import Verif.Props.Matching
import Verif.Props.Risk

/-!
# Winding an account down: C96
-/

namespace Lfest

open Spec

theorem cancel_inLine {c : Cfg} {s s' : State} {b : CancelBy} {o : Limit} (hr : Reachable c s)
    (hcap : c.maxOpen ≤ 10000) (h : step c s (.cancel b) = .ok (s', .limit (.ok o))) :
    inLine c s' := by
  have e := C65_every_call c s s' _ _ hcap hr h
  simp only [Ref.Exchange.call, Ref.Exchange.cancel, Prod.mk.injEq] at e
  split at e
  · obtain ⟨_, e⟩ := e; cases e
  · obtain ⟨e, _⟩ := e
    have h1 := congrArg Ref.Exchange.reserved e
    have h2 := congrArg Ref.Exchange.orders e
    have h3 := congrArg (fun x => x.book.qty) e
    simp only [Ref.Exchange.required] at h1 h2 h3
    unfold inLine
    change _ = s'.acct.balance .orderMargin at h1
    change _ = s'.active at h2
    change _ = s'.pos.quantity at h3
    rw [← h1, ← h2, ← h3]

/-- C96, cancelling: when the order margin is in line and the orders that would reduce the position
have different prices, any active orders can be cancelled in any order. Every cancellation returns
the order. What is left are the other orders, with the margin they need; the rest of the margin is
back in the wallet, and nothing else has changed. -/
theorem C96_cancel_any_order (c : Cfg) (ids : List Nat) (s : State) (hc : soundConfig c)
    (hr : Reachable c s) (hline : inLine c s)
    (hd : distinctPrices (s.active.filter (fun o => decide (0 < opposing s.pos.quantity o.side))))
    (hn : ids.Nodup) (hex : ∀ i ∈ ids, ∃ o ∈ s.active, o.id = i) :
    ∃ s' tr, history c s (cancelAll ids) = .ok (s', tr) ∧
      (∀ x ∈ tr, ∃ o ∈ s.active, x = (.cancel (.orderId o.id), .limit (.ok o))) ∧
      s'.active.Perm (s.active.filter (fun o => decide (o.id ∉ ids))) ∧ inLine c s' ∧
      s'.pos = s.pos ∧ s'.ms = s.ms ∧ s'.nextId = s.nextId ∧ s'.feesPaid = s.feesPaid ∧
      s'.acct.balance .treasury = s.acct.balance .treasury ∧
      s'.acct.balance .positionMargin = s.acct.balance .positionMargin ∧
      s'.acct.balance .wallet + s'.acct.balance .orderMargin =
        s.acct.balance .wallet + s.acct.balance .orderMargin := by
  induction ids generalizing s with
  | nil =>
    refine ⟨s, [], rfl, by simp, ?_, hline, rfl, rfl, rfl, rfl, rfl, rfl, rfl⟩
    rw [List.filter_eq_self.2 (by simp)]
  | cons i ids ih =>
    obtain ⟨c1, c2, c3, c4, c5⟩ := hc
    obtain ⟨w, hw, hwi⟩ := hex i (by simp)
    obtain ⟨s1, o, h1⟩ := C27_cancel_succeeds c s (.orderId i) hr c5 ⟨c3, c4⟩ hline hd ⟨w, hw, hwi⟩
    obtain ⟨⟨xs, ys, hact, hno, hxs, hperm⟩, e1, e2, e3, e4, e5, e6, e7, e8⟩ :=
      C19_cancel_removes c s s1 _ o h1
    simp only [named] at hno
    have hnd : (s.active.map Limit.id).Nodup := hr.inv.nodup
    have hfil : (s.active.filter (fun x => decide (x.id ≠ i))) = xs ++ ys := by
      rw [hact] at hnd ⊢
      simp only [List.map_append, List.map_cons, List.nodup_append, List.nodup_cons,
        List.mem_map, List.mem_cons] at hnd
      obtain ⟨_, ⟨hy, _⟩, hx⟩ := hnd
      rw [List.filter_append, List.filter_cons_of_neg (by simp [hno])]
      congr 1
      · refine List.filter_eq_self.2 fun x hxm => ?_
        simpa [named] using hxs x hxm
      · refine List.filter_eq_self.2 fun x hxm => ?_
        have : x.id ≠ o.id := fun h => hy ⟨x, hxm, h⟩
        simpa [hno] using this
    have hact1 : s1.active.Perm (s.active.filter (fun x => decide (x.id ≠ i))) := hfil ▸ hperm
    have hd1 : distinctPrices
        (s1.active.filter (fun o => decide (0 < opposing s1.pos.quantity o.side))) := by
      rw [e1]
      refine (List.Pairwise.sublist ?_ hd).perm (hact1.filter _).symm (fun h e => ?_)
      · exact List.Sublist.filter _ List.filter_sublist
      · exact fun e' => h e.symm e'.symm
    obtain ⟨s2, tr, h2, g0, g1, g2, g3, g4, g5, g6, g7, g8, g9⟩ := ih s1 (hr.step h1)
      (cancel_inLine hr c5 h1) hd1 (List.nodup_cons.1 hn).2 (fun j hj => by
        obtain ⟨y, hy, hyj⟩ := hex j (by simp [hj])
        refine ⟨y, hact1.mem_iff.2 (List.mem_filter.2 ⟨hy, ?_⟩), hyj⟩
        have : j ≠ i := fun h => (List.nodup_cons.1 hn).1 (h ▸ hj)
        simp [hyj, this])
    refine ⟨s2, (.cancel (.orderId i), .limit (.ok o)) :: tr, ?_, ?_, ?_, g2, by rw [g3, e1],
      by rw [g4, e2], by rw [g5, e3], by rw [g6, e4], by rw [g7, e6], by rw [g8, e5], by omega⟩
    · simp only [cancelAll, List.map_cons, history, h1, bind, Except.bind]
      rw [show (ids.map fun i => Op.cancel (.orderId i)) = cancelAll ids from rfl, h2]
    · intro x hx
      rcases List.mem_cons.1 hx with rfl | hx
      · exact ⟨o, by simp [hact], by rw [hno]⟩
      · obtain ⟨y, hy, e⟩ := g0 x hx
        exact ⟨y, (List.mem_filter.1 (hact1.mem_iff.1 hy)).1, e⟩
    · refine g1.trans ((hact1.filter _).trans ?_)
      rw [List.filter_filter]
      refine List.Perm.of_eq (List.filter_congr fun x _ => ?_)
      simp [Bool.and_comm]

theorem history_append {c : Cfg} (xs ys : List Op) : ∀ s : State,
    history c s (xs ++ ys) = (do
      let a ← history c s xs
      let b ← history c a.1 ys
      .ok (b.1, a.2 ++ b.2)) := by
  induction xs with
  | nil =>
    intro s
    simp only [List.nil_append, history, bind, Except.bind]
    rcases history c s ys with p | ⟨s', tr⟩ <;> rfl
  | cons op xs ih =>
    intro s
    simp only [List.cons_append, history, bind, Except.bind]
    rcases step c s op with p | ⟨s1, r⟩
    · rfl
    · simp only [ih, bind, Except.bind]
      rcases history c s1 xs with p | ⟨s2, tr⟩
      · rfl
      · simp only
        rcases history c s2 ys with p | ⟨s3, tr'⟩ <;> rfl

/-- C96, winding down: if in addition there are quotes, the position is one the quantity filter
allows, and its margin is at least one unit and (in a debug build) exactly what is held, then
cancelling all orders, in any order, and closing the position at market leaves an account without
orders and position. All of its money, but for what rounding has left in the position margin, is in
the wallet. -/
theorem C96_wind_down (c : Cfg) (ids : List Nat) (uid : Nat) (s : State) (hc : soundConfig c)
    (hr : Reachable c s) (hline : inLine c s)
    (hd : distinctPrices (s.active.filter (fun o => decide (0 < opposing s.pos.quantity o.side))))
    (hids : ids.Perm (s.active.map Limit.id))
    (hquotes : 0 < s.ms.bid ∧ 0 < s.ms.ask)
    (hq : s.pos ≠ .neutral → quantityOk c.spec.quantityFilter (Spec.abs s.pos.quantity))
    (hm : s.pos ≠ .neutral → 0 < share c.env (value c.env (Spec.abs s.pos.quantity)
      s.pos.entryPrice) c.spec.initMarginReq)
    (hex : c.env.debug = true → s.acct.balance .positionMargin =
      share c.env (value c.env (Spec.abs s.pos.quantity) s.pos.entryPrice) c.spec.initMarginReq) :
    ∃ s' tr, history c s (cancelAll ids ++ closeAll s.pos uid) = .ok (s', tr) ∧
      s'.active = [] ∧ s'.pos = .neutral ∧ s'.acct.balance .orderMargin = 0 ∧
      s'.acct.balance .positionMargin = s.acct.balance .positionMargin -
        share c.env (value c.env (Spec.abs s.pos.quantity) s.pos.entryPrice) c.spec.initMarginReq ∧
      s'.acct.balance .wallet + s'.acct.balance .positionMargin = equity s +
        Spec.pnl c.env s.pos.entryPrice (exitPrice s.pos.quantity (s.ms.bid, s.ms.ask))
          s.pos.quantity -
        larger (s.pos.outstandingFees + share c.env (value c.env (Spec.abs s.pos.quantity)
          (exitPrice s.pos.quantity (s.ms.bid, s.ms.ask))) c.spec.feeTaker) 0 := by
  have hids' : ∀ i, i ∈ ids ↔ ∃ o ∈ s.active, o.id = i := fun i => by
    rw [hids.mem_iff, List.mem_map]
  obtain ⟨s1, tr1, h1, _, g1, g2, g3, g4, g5, g6, g7, g8, g9⟩ := C96_cancel_any_order c ids s hc hr
    hline hd (hids.nodup_iff.2 hr.inv.nodup) (fun i hi => (hids' i).1 hi)
  have hr1 := reachable_history hr h1
  have hnil : s1.active = [] := by
    have : s.active.filter (fun o => decide (o.id ∉ ids)) = [] := by
      refine List.filter_eq_nil_iff.2 fun o ho => ?_
      simp only [decide_eq_true_eq, Decidable.not_not]
      exact (hids' _).2 ⟨o, ho, rfl⟩
    rw [this] at g1
    exact g1.eq_nil
  have hom : s1.acct.balance .orderMargin = 0 := by
    unfold inLine at g2
    rw [g2, hnil]
    have : ∀ side x, sideValue c.env side x [] = 0 := fun side x => by cases side <;> rfl
    simp only [marginReq, this, larger, Int.le_refl, if_true, share_zero]
  by_cases hneu : s.pos = .neutral
  · refine ⟨s1, tr1, ?_, hnil, g3.trans hneu, hom, ?_, ?_⟩
    · simp only [closeAll, if_pos hneu, List.append_nil, h1]
    · rw [hneu, show Spec.abs (Position.quantity .neutral) = 0 from rfl, value_zero, share_zero, g8]
      omega
    · rw [hneu, show Spec.abs (Position.quantity .neutral) = 0 from rfl, value_zero, share_zero, g8]
      have : ∀ a b, Spec.pnl c.env a b 0 = 0 := fun a b => by
        unfold Spec.pnl; split <;> simp only [value_zero] <;> rfl
      rw [show Position.quantity .neutral = 0 from rfl, this]
      simp only [equity, larger, Position.outstandingFees]
      omega
  · have hwf : PosWF s.pos := hr.linv.wf
    obtain ⟨side, q, hcl, hq0, hqa, hop, hside, hexit⟩ : ∃ side q,
        closeAll s.pos uid = [.market side q uid] ∧ 0 < q ∧ Spec.abs s.pos.quantity = q ∧
        opposing s.pos.quantity side = q ∧
        (s.pos.quantity = q ∧ side = .sell ∨ s.pos.quantity = -q ∧ side = .buy) ∧
        exitPrice s.pos.quantity (s.ms.bid, s.ms.ask) = touchPrice s.ms side := by
      have hz : s.pos.quantity ≠ 0 := fun h => hneu (hwf.flat_iff.2 h)
      unfold closeAll
      rw [if_neg hneu]
      split
      · refine ⟨.sell, s.pos.quantity, rfl, by omega, ?_, ?_, .inl ⟨rfl, rfl⟩, ?_⟩
        · unfold Spec.abs; rw [if_pos (by omega)]
        · simp only [opposing, larger]; rw [if_neg (by omega)]
        · simp only [exitPrice, touchPrice]; rw [if_pos (by omega)]
      · refine ⟨.buy, -s.pos.quantity, rfl, by omega, ?_, ?_, .inr ⟨by omega, rfl⟩, ?_⟩
        · unfold Spec.abs; rw [if_neg (by omega)]
        · simp only [opposing, larger]; rw [if_neg (by omega)]
        · simp only [exitPrice, touchPrice]; rw [if_neg (by omega)]
    have hp : 0 < touchPrice s1.ms side := by
      rw [g4]; cases side
      · exact hquotes.2
      · exact hquotes.1
    rw [hqa] at hq hm hex
    obtain ⟨s2, f, h2⟩ := C58_against c s1 side q uid hr1 hc.1 hq0 (hq hneu) hp
      (by unfold marketAllowed; rw [g3, hop]; simp only [Int.le_refl, if_true]; split
          · omega
          · trivial)
      (by rw [g3, hop]
          have : smaller q q = q := by unfold smaller; split <;> rfl
          rw [this]; exact hm hneu)
      (by rw [g3, hop]; omega)
      (by rw [g3, hop, g8]
          rintro (h | ⟨_, h⟩)
          · omega
          · exact hex h)
    obtain ⟨_, k2, k3, k4, _, _, _, k8⟩ := C21_market_order c s1 s2 hr1 side q uid f h2
    have hpos : s2.pos = .neutral := by
      refine (hr1.step h2).linv.wf.flat_iff.2 ?_
      change s2.pos.quantity = 0
      rw [k3, g3]
      rcases hside with ⟨h, rfl⟩ | ⟨h, rfl⟩ <;> simp only [h] <;> omega
    have hs := C10_reduce_settles c s1 s2 _ _ _ hr1 h2 k2
      (by rw [g3]; rcases hside with ⟨h, rfl⟩ | ⟨h, rfl⟩ <;> simp <;> omega)
      (by rw [g3, hqa]; exact Int.le_refl _)
    simp only [Fill.fee, Bool.false_eq_true, if_false] at hs
    obtain ⟨m1, m2, _, _⟩ := hs
    refine ⟨s2, tr1 ++ [(.market side q uid, .market (.ok f))], ?_, k4.trans hnil, hpos,
      k8.trans hom, ?_, ?_⟩
    · rw [hcl, history_append, h1]
      simp only [bind, Except.bind, history, h2]
    · rw [m2, g3, g8, hqa]
    · rw [hqa, hexit]
      rw [g3, g4] at m1
      have hsg : (if 0 < s.pos.quantity then q else -q) = s.pos.quantity := by
        rcases hside with ⟨h, _⟩ | ⟨h, _⟩
        · rw [if_pos (by omega)]; omega
        · rw [if_neg (by omega)]; omega
      rw [hsg] at m1
      rw [g3, g8] at m2
      simp only [equity, larger]
      split at m1 <;> split <;> omega

theorem off_grid_step {c : Cfg} {s s' : State} {op : Op} {r : Resp} (hr : Reachable c s)
    (hmin : c.spec.quantityFilter.tickSize ∣ c.spec.quantityFilter.minQuantity.getD 0)
    (hoff : ¬ c.spec.quantityFilter.tickSize ∣ s.pos.quantity) (hop : manages op)
    (h : step c s op = .ok (s', r)) :
    ¬ c.spec.quantityFilter.tickSize ∣ s'.pos.quantity ∧ ∀ err, r ≠ .update (.error err) := by
  have hgrid : ∀ q, quantityOk c.spec.quantityFilter q → c.spec.quantityFilter.tickSize ∣ q :=
    fun q hq => (Int.dvd_iff_dvd_of_dvd_sub hq.2.2).2 hmin
  have hsame : quiet op r → ¬ c.spec.quantityFilter.tickSize ∣ s'.pos.quantity := fun hq => by
    rwa [(C03_only_fills_change_equity c s s' op r h (C03_quiet_calls c s s' op r h hq)).2.2.1]
  rcases step_cases h with ⟨a, u, x, rfl, _, _, rfl⟩ | ⟨a, u, rfl, _⟩ | ⟨err, rfl, rfl⟩ |
    ⟨side, q, uid, x, rfl, _, _, rfl⟩ | ⟨_, _, _, _, x, rfl, _, _, _, rfl⟩ |
    ⟨_, _, _, _, _, x, rfl, _, _, _, rfl⟩ | ⟨_, x, rfl, _, rfl⟩
  · cases a with
    | bba b =>
      rcases (C32_quotes_never_fill c s s' b _ h).2 with ⟨hr1, _, _⟩ | hr1
      · cases hr1
        exact ⟨hsame trivial, fun err he => by cases he⟩
      · cases hr1
        have := hgrid _ (C30_needs_allowed_quantity c s s' _ _ hr h)
        exfalso
        apply hoff
        unfold Spec.abs at this
        split at this
        · exact this
        · exact (Int.dvd_neg).1 this
    | _ => exact hop.elim
  · exact hop.elim
  · exact ⟨hoff, fun err he => by cases he⟩
  · refine ⟨?_, fun err he => by cases he⟩
    rcases x with err | f
    · exact hsame trivial
    · have hq : c.spec.quantityFilter.tickSize ∣ q :=
        hgrid q ((C60_market_order_decision c s s' side q uid _ hr h).1 ⟨f, rfl⟩).2.1
      obtain ⟨_, _, k3, _⟩ := C21_market_order c s s' hr side q uid f h
      rw [k3]
      intro hd
      apply hoff
      cases side
      · exact (Int.dvd_add_left hq).1 hd
      · exact (Int.dvd_add_left ((Int.dvd_neg).2 hq)).1 hd
  all_goals exact ⟨hsame trivial, fun err he => by cases he⟩

/-- C96, the exception: a position that is not a whole number of quantity steps cannot be got rid of.
Whatever market orders are executed, limit orders placed or cancelled and quotes seen, as long as no
limit order is filled it is never closed, and never liquidated either. -/
theorem C96_off_grid_stays (c : Cfg) (ops : List Op) (s s' : State) (tr : List (Op × Resp))
    (hr : Reachable c s)
    (hmin : c.spec.quantityFilter.tickSize ∣ c.spec.quantityFilter.minQuantity.getD 0)
    (hoff : ¬ c.spec.quantityFilter.tickSize ∣ s.pos.quantity) (hops : ∀ op ∈ ops, manages op)
    (h : history c s ops = .ok (s', tr)) :
    s'.pos ≠ .neutral ∧ ¬ c.spec.quantityFilter.tickSize ∣ s'.pos.quantity ∧
      ∀ x ∈ tr, ∀ err, x.2 ≠ .update (.error err) := by
  have key : ¬ c.spec.quantityFilter.tickSize ∣ s'.pos.quantity ∧
      ∀ x ∈ tr, ∀ err, x.2 ≠ .update (.error err) := by
    induction ops generalizing s tr with
    | nil =>
      simp only [history, ok_inj, Prod.mk.injEq] at h
      obtain ⟨rfl, rfl⟩ := h
      exact ⟨hoff, by simp⟩
    | cons op ops ih =>
      simp only [history] at h
      obtain ⟨⟨s1, r⟩, h1, h2⟩ := bind_ok.1 h
      obtain ⟨⟨s2, tr2⟩, h3, h4⟩ := bind_ok.1 h2
      simp only [ok_inj, Prod.mk.injEq] at h4
      obtain ⟨rfl, rfl⟩ := h4
      obtain ⟨g1, g2⟩ := off_grid_step hr hmin hoff (hops op (by simp)) h1
      obtain ⟨k1, k2⟩ := ih s1 tr2 (hr.step h1) g1 (fun o ho => hops o (by simp [ho])) h3
      refine ⟨k1, fun x hx => ?_⟩
      rcases List.mem_cons.1 hx with rfl | hx
      · exact g2
      · exact k2 x hx
  refine ⟨fun hn => key.1 ?_, key⟩
  rw [hn]
  exact Int.dvd_zero _

/-! Examples -/

/-- A long position, with two orders to sell and one to buy more. -/
def Ex.toWind : List Op :=
  [.update (.bba ⟨Ex.d 100, Ex.d 101, 1⟩), .limit .buy (Ex.d 99) (Ex.d 4) 1,
   .update (.trade ⟨2, Ex.d 98, Ex.d 3, .sell⟩), .limit .sell (Ex.d 110) (Ex.d 2) 2,
   .limit .sell (Ex.d 111) (Ex.d 1) 3]

example : Ex.after Ex.lin Ex.toWind (fun s => decide (
    s.acct.balance .orderMargin = marginReq Ex.lin s.active s.pos.quantity ∧
    distinctPrices (s.active.filter (fun o => decide (0 < opposing s.pos.quantity o.side))) ∧
    [2, 0, 1].Perm (s.active.map Limit.id) ∧ 0 < s.ms.bid ∧ 0 < s.ms.ask ∧
    s.pos ≠ .neutral ∧ quantityOk Ex.lin.spec.quantityFilter (Spec.abs s.pos.quantity) ∧
    0 < share Ex.lin.env (value Ex.lin.env (Spec.abs s.pos.quantity) s.pos.entryPrice)
      Ex.lin.spec.initMarginReq ∧
    s.acct.balance .positionMargin = share Ex.lin.env (value Ex.lin.env (Spec.abs s.pos.quantity)
      s.pos.entryPrice) Ex.lin.spec.initMarginReq)) = true := by
  decide +kernel

/-- A limit order for one contract is filled by a trade of half the smallest quantity step. The
position is too small to be sold; selling a contract turns it into a short one. -/
theorem C96_off_grid_reached : ∃ s, Reachable Ex.lin s ∧
    Ex.lin.spec.quantityFilter.tickSize ∣ Ex.lin.spec.quantityFilter.minQuantity.getD 0 ∧
    ¬ Ex.lin.spec.quantityFilter.tickSize ∣ s.pos.quantity ∧
    (∃ s' tr, history Ex.lin s [.market .sell s.pos.quantity 0, .market .sell (Ex.d 1) 0,
      .market .buy (Ex.d 1) 0] = .ok (s', tr) ∧ s'.pos.quantity = s.pos.quantity ∧
      (∃ err, tr.head? = some (.market .sell s.pos.quantity 0, .market (.error err)))) :=
  ⟨_, ⟨[.update (.bba ⟨Ex.d 100, Ex.d 101, 1⟩), .limit .buy (Ex.d 99) (Ex.d 1) 1,
    .update (.trade ⟨2, Ex.d 98, 500, .sell⟩), .cancel (.orderId 0)], rfl⟩, by decide +kernel,
    by decide +kernel, _, _, rfl, by decide +kernel, _, rfl⟩

end Lfest
