import Verif.Lemmas.Returns

/-! When matching, liquidations and whole calls return. -/

namespace Lfest

open Spec Ref

/-! ### One order -/

theorem filled_returns {c : Cfg} {a : UpdateArg} {u : Update} {o : Limit}
    (hb : a.build c.env.debug = .ok u) (hf : u.canFill = true) (ho : 0 < o.remaining) :
    Yields (u.filled c.env.debug o) ↔ (c.env.debug = true → emptyTrade a = false) := by
  cases hd : c.env.debug with
  | false =>
    simp only [Bool.false_eq_true, false_imp_iff, iff_true]
    exact filled_release hf
  | true =>
    rw [hd] at hb
    simp only [forall_const]
    constructor
    · rintro ⟨x, h⟩
      cases a with
      | trade t =>
        simp only [UpdateArg.build, ok_inj] at hb; subst hb
        simp only [Update.filled, Trade.filled, bind_ok, debugP_ok, forall_const] at h
        obtain ⟨_, h, _⟩ := h
        simp only [emptyTrade, decide_eq_false_iff_not]
        omega
      | _ => rfl
    · intro h
      refine filled_debug hb hf ho ?_
      rintro t rfl
      simp only [emptyTrade, decide_eq_false_iff_not] at h
      omega

/-- The orders after a fill. -/
def ordersAfter (c : Cfg) (os : List Limit) (o : Limit) (q : Int) : List Limit :=
  if q = o.remaining then takeOut (fun y => y.id == o.id) os
  else os.map (fun y => if y.id = o.id then filledBy c.env o q else y)

theorem applyFill_orders {c : Cfg} {a : UpdateArg} {u : Update} {l l' : Loop} {o o' : Limit} {q : Int}
    (hb : a.build c.env.debug = .ok u) (hr : u.filled c.env.debug o = .ok (some q))
    (hn : IdsNodup l.om) (ho : o ∈ l.om) (h : applyFill c u.ts l o q = .ok (l', o')) :
    l'.om = ordersAfter c l.om o q := by
  obtain ⟨r, hf, ha, hpo, _, hm⟩ := applyFill_ok h
  have hout : Outcome c u o ⟨o', some (q, reportOf o' r)⟩ := .inr ⟨q, o', r, hr, hf, rfl⟩
  have hfr := filled_eq hb hr
  rcases hout.spec hb with ⟨hn, _⟩ | ⟨q', hq', hq0, hqle, he⟩
  · rw [hn] at hfr; simp at hfr
  rw [← hfr] at hq'
  simp only [Option.some.injEq] at hq'; subst hq'
  simp only [Out.mk.injEq, Option.some.injEq, Prod.mk.injEq, true_and] at he
  obtain ⟨rfl, he⟩ := he
  unfold ordersAfter
  cases r with
  | some f =>
    have hfull : q = o.remaining := by
      by_cases hh : q = o.remaining
      · exact hh
      · simp [reportOf, report, hh] at he
    rw [if_pos hfull]
    obtain ⟨y, hy⟩ := omRemove_ok hm.1
    exact (removeBy_takeOut hy).2
  | none =>
    have hfull : ¬ q = o.remaining := by
      intro hh
      simp [reportOf, report, hh] at he
    rw [if_neg hfull]
    obtain ⟨hpos, h5⟩ := omUpdate_ok hm.1
    rcases h5 with ⟨h5, _⟩ | ⟨old, h5, _, h6⟩
    · exact absurd rfl (getById_none.1 h5 o ho)
    · rw [h6, replaceFirst_eq_map hn]; rfl

theorem applyFill_returns {c : Cfg} {n : Nat} {ts : Int} {l : Loop} {o : Limit} {q : Int}
    (hn : IdsNodup l.om) (ho : o ∈ l.om) (hw : OrderWF n o) :
    Yields (applyFill c ts l o q) ↔ (q ≤ o.remaining ∧ 0 < q) := by
  constructor
  · rintro ⟨⟨l', o'⟩, h⟩
    obtain ⟨r, hf, _⟩ := applyFill_ok h
    have := fill_fixed hf
    exact ⟨this.2.2.2.2.2.2.2, this.2.2.2.2.2.2.1⟩
  · rintro ⟨h1, h2⟩
    have := applyFill_only (P := []) (c := c) (ts := ts) hn ho hw (fun h => absurd h1 h)
      (fun h => absurd h2 h)
    cases hA : applyFill c ts l o q with
    | ok r => exact .ok _
    | error p => exact absurd (this p hA) (by simp)

theorem matchOrder_returns {c : Cfg} {n : Nat} {a : UpdateArg} {u : Update} {l : Loop} {o : Limit}
    {os : List Limit} (m : MarketState) (k : Nat)
    (hdb : c.env.debug = true → c.spec.initMarginReq ≤ c.scale)
    (hb : a.build c.env.debug = .ok u) (hf : u.canFill = true) (hg : Going c n l (o :: os))
    (he : 0 ≤ l.pos.entryPrice) :
    Yields (matchOrder c u l o) ↔
      ((c.env.debug = true → emptyTrade a = false) ∧ (l.view c m k).matchReturns c a o) := by
  have hwf := hg.orders o (by simp)
  have hmem := hg.mem o (by simp)
  unfold matchOrder
  refine Yields.bind (filled_returns hb hf hwf.rem) fun r hr _ => ?_
  unfold Exchange.matchReturns
  have hfr := filled_eq hb hr
  rw [← hfr]
  cases r with
  | none => simp [returns_ok]
  | some q =>
    simp only
    have e1 : (l.view c m k).reserved = l.acct.balance .orderMargin := rfl
    have e2 : (l.view c m k).required c = marginReq c l.om l.pos.quantity := rfl
    have hlhs : Yields (do
        debugP c.env.debug (q > 0) .matchQty
        debugMarginEq c l.acct l.om l.pos .matchMarginMismatch
        let r ← applyFill c u.ts l o q
        let l2 ← settleLimit c r.1 r.2 q
        let l3 ← releaseMargin c l2 (l.acct.balance .orderMargin)
        .ok (l3, r.2)) ↔
      ((c.env.debug = true → 0 < q) ∧
        (c.env.debug = true → (l.view c m k).reserved = (l.view c m k).required c) ∧
        (q ≤ o.remaining ∧ 0 < q) ∧ (l.view c m k).books c ⟨true, o.side, o.price, q⟩ ∧
        (c.env.debug = true → ((l.view c m k).matched c a o).required c ≤ (l.view c m k).reserved)) := by
      refine Yields.bind returns_debug fun _ _ _ => Yields.bind ?_ fun _ _ _ =>
        Yields.bind (applyFill_returns hg.nodup hmem hwf) fun r1 hr1 hq => ?_
      · unfold debugMarginEq
        split
        · next hd =>
          simp only [hd, forall_const, e1, e2]
          refine Yields.free ⟨_, orderMargin_total c hg.pos hg.good hdb⟩ fun m hm => ?_
          rw [orderMargin_total c hg.pos hg.good hdb] at hm; cases hm
          exact returns_assert
        · next hd => simp [returns_ok, hd]
      · obtain ⟨l1, o1⟩ := r1
        obtain ⟨r, hfl, ha, hpo, _, _⟩ := applyFill_ok hr1
        obtain ⟨f1, f2, f3, _, _, f6, f7, f8⟩ := fill_fixed hfl
        have hords := applyFill_orders hb hr hg.nodup hmem hr1
        have hp : 0 < o1.price := by rw [f3]; exact hwf.price
        refine Yields.bind ?_ fun l2 hl2 _ => ?_
        · unfold settleLimit
          refine Yields.free ⟨_, convert_pos (by simp only; omega)⟩ fun v hv => ?_
          simp only [ha, hpo]
          refine Yields.last ?_ fun _ _ _ => .ok _
          have := changePosition_returns (c := c) (x := l.view c m k)
            (f := ⟨true, o.side, o.price, q⟩) (fee := dmul c.scale v c.spec.feeMaker)
            hg.pos hg.sums he hq.2 hwf.price hg.flat rfl rfl rfl
          simpa only [f2, f3] using this
        · obtain ⟨hcp, ho2, _⟩ := settleLimit_ok hl2
          obtain ⟨_, hw, hled, hbal, hsm, _⟩ := changePosition_ledger (f := ⟨true, o1.side, o1.price, q⟩)
            (k := -c.start) (hpo ▸ hg.pos) hcp
          have hbook := applyFill_book hg.nodup hmem hr1
          have hgood : GoodOrders l2.om := by rw [ho2]; exact hbook.good hg.good
          have hreq : ((l.view c m k).matched c a o).required c = marginReq c l2.om l2.pos.quantity := by
            simp only [Exchange.matched, ← hfr]
            simp only [Exchange.required, Exchange.fill, Loop.view]
            rw [ho2, hords]
            congr 1
            have := congrArg Ledger.qty hled
            rw [hpo, ha, f2, f3] at this
            exact this.symm
          rw [hreq, e1]
          refine Yields.last ?_ fun _ _ _ => .ok _
          unfold releaseMargin
          refine Yields.free ⟨_, orderMargin_total c hw hgood hdb⟩ fun m hm => ?_
          rw [orderMargin_total c hw hgood hdb] at hm; cases hm
          refine Yields.last returns_debug fun _ _ _ => Yields.next ?_ fun _ _ => .ok _
          unfold refund
          split
          · refine transfer_total ?_ (by omega) (by simp)
            have := hg.sums
            rw [ha] at hsm
            omega
          · exact .ok _
    refine Iff.trans hlhs ?_
    constructor
    · rintro ⟨_, h2, h3, h4, h5⟩
      exact ⟨h3.2, h3.1, h4, fun hd => ⟨h2 hd, h5 hd⟩⟩
    · rintro ⟨h1, h2, h3, h4⟩
      exact ⟨fun _ => h1, fun hd => (h4 hd).1, ⟨h2, h1⟩, h3, fun hd => (h4 hd).2⟩

theorem matched_entry {c : Cfg} {a : UpdateArg} {x : Exchange} {o : Limit} (hp : 0 < o.price)
    (h : x.matchReturns c a o) (he : 0 ≤ x.book.entry) : 0 ≤ (x.matched c a o).book.entry := by
  unfold Exchange.matchReturns at h
  unfold Exchange.matched
  cases hf : fillRule a o with
  | none => exact he
  | some q =>
    rw [hf] at h
    exact fill_entry c he hp h.1

/-! ### All orders -/

theorem matchLoop_returns {c : Cfg} {n : Nat} {a : UpdateArg} {u : Update} (m : MarketState) (k : Nat)
    (hdb : c.env.debug = true → c.spec.initMarginReq ≤ c.scale)
    (hb : a.build c.env.debug = .ok u) (hf : u.canFill = true) {os : List Limit} :
    ∀ {l : Loop}, Going c n l os → LoopWF l → 0 ≤ l.pos.entryPrice →
      (Yields (matchLoop c u l os) ↔
        ((c.env.debug = true → os = [] ∨ emptyTrade a = false) ∧ (l.view c m k).eachReturns c a os)) := by
  induction os with
  | nil => intro l _ _ _; simp [matchLoop, returns_ok, Exchange.eachReturns]
  | cons o os ih =>
    intro l hg hl he
    unfold matchLoop
    have h1 := matchOrder_returns m k hdb hb hf hg he
    refine Iff.trans (Yields.bind h1 (Q := (c.env.debug = true → os = [] ∨ emptyTrade a = false) ∧
      ((l.view c m k).matched c a o).eachReturns c a os) fun r hr hp => ?_) ?_
    · obtain ⟨l1, o1⟩ := r
      obtain ⟨hl1, hv, _⟩ := matchOrder_ref m k hb hl (hg.mem o (by simp)) hr
      have he1 : 0 ≤ l1.pos.entryPrice := by
        have := matched_entry (hg.orders o (by simp)).price hp.2 he
        rw [← hv] at this
        exact this
      rw [← hv]
      exact Yields.last (ih (matchOrder_going hg hr).1 hl1 he1) fun _ _ _ => .ok _
    · simp only [Exchange.eachReturns, List.cons_ne_nil, false_or]
      constructor
      · rintro ⟨⟨h1, h2⟩, h3, h4⟩
        exact ⟨h1, h2, h4⟩
      · rintro ⟨h1, h2, h4⟩
        exact ⟨⟨h1, h2⟩, fun hd => .inr (h1 hd), h4⟩

theorem checkActive_returns {c : Cfg} {s : State} {a : UpdateArg} {u : Update} (hc : soundConfig c)
    (hi : Inv c s) (hl : LInv c s.core) (he : 0 ≤ s.pos.entryPrice)
    (hflat : c.env.debug = true → s.pos = .neutral → s.acct.balance .positionMargin = 0)
    (hempty : c.env.debug = true → s.active = [] → s.acct.balance .orderMargin = 0)
    (hb : a.build c.env.debug = .ok u) :
    Yields (checkActive c s u) ↔ (Ref.view c s).matchAllReturns c a := by
  obtain ⟨k1, k2, k3, k4, k5⟩ := hc
  unfold checkActive Exchange.matchAllReturns
  rw [build_mayFill hb]
  cases hf : u.canFill with
  | false => simp [returns_ok]
  | true =>
    simp only [Bool.true_eq_false, if_false, forall_const]
    have hsync := hi.sync k5
    have hg : Going c s.nextId s.loop s.active := ⟨by simp only [State.loop, hsync]; exact hi.nodup,
      by simp only [State.loop, hsync]; exact goodOrders hi,
      by simp [State.loop, hsync], hi.nodup, hi.orders, hl.wf, hl.sums, hflat⟩
    have hlw : LoopWF s.loop := ⟨by simpa [State.loop, hsync] using hi.nodup,
        by simp only [State.loop, hsync]; exact fun o ho => Int.le_of_lt (hi.orders o ho).rem, hl.wf⟩
    have ev : Loop.view c s.ms s.nextId s.loop = Ref.view c s := by
      simp [Loop.view, Ref.view, State.loop, hsync, ledgerOf, State.feesPaid]
    have e3 : (Ref.view c s).orders = s.active := rfl
    have hloop := matchLoop_returns (os := s.active) s.ms s.nextId (fun _ => k4) hb hf hg hlw he
    rw [ev] at hloop
    have main : Yields (do
        debugP c.env.debug (s.om = s.active) .booksDiffer
        let (l, orders) ← matchLoop c u s.loop s.active
        let active' ← removeExecuted orders l.ids
        debugP c.env.debug (l.ids.length ≤ c.maxOpen) .idsCapacity
        debugP c.env.debug (l.om = active') .booksDiffer
        debugP c.env.debug (active' = [] → l.acct.balance .orderMargin = 0) .emptyButMargin
        debugMarginEq c l.acct l.om l.pos .finalMarginMismatch
        assertP (l.acct.balance .wallet ≥ 0) .walletNegative
        (.ok { s with acct := l.acct, pos := l.pos, om := l.om, log := l.log,
                      updates := l.updates, active := active' } : Res State)) ↔
      (((c.env.debug = true → s.active = [] ∨ emptyTrade a = false) ∧
        (Ref.view c s).eachReturns c a s.active) ∧
       (c.env.debug = true → ((Ref.view c s).matchAll c a).reserved =
          ((Ref.view c s).matchAll c a).required c) ∧
       0 ≤ ((Ref.view c s).matchAll c a).wallet c) := by
      refine Yields.free (returns_debug.2 fun _ => hsync) fun _ _ => Yields.bind hloop fun r hr _ => ?_
      obtain ⟨l, orders⟩ := r
      obtain ⟨hg', hcase⟩ := matchLoop_going hg hr
      obtain ⟨xs, hx1, hx2, _, _, hx5⟩ := matchLoop_out hr
      have hrem := matchLoop_om (done := []) (by simpa using hi.nodup)
        (by simp [removeExecuted, State.loop, hsync]) (by simp [State.loop]) hr
      simp only [List.nil_append] at hrem hx5
      have hv := matchLoop_ref s.ms s.nextId hb hlw hi.nodup hg.mem hr
      rw [ev] at hv
      have hv' : l.view c s.ms s.nextId = (Ref.view c s).matchAll c a := hv
      have hl' : LInv c l.core := (matchLoop_core (st := false) (by simp) hr).inv
        (fun _ _ => LInv.step) hl
      have hwal : ((Ref.view c s).matchAll c a).wallet c = l.acct.balance .wallet := by
        rw [← hv']
        have h1 := hl'.sums
        have h2 := hl'.broker
        simp only [Loop.core] at h1 h2
        simp only [Accounts.debitSum, Accounts.creditSum, h2] at h1
        simp only [Exchange.wallet, Loop.view, ledgerOf, Accounts.balance, Accounts.get,
          TAccount.net]
        omega
      rw [hwal, ← hv']
      simp only
      refine Yields.free ⟨_, hrem⟩ fun act hact => ?_
      rw [hrem] at hact; simp only [ok_inj] at hact; subst hact
      refine Yields.free (returns_debug.2 fun _ => ?_) fun _ _ =>
        Yields.free (returns_debug.2 fun _ => rfl) fun _ _ =>
        Yields.free (returns_debug.2 fun hd => ?_) fun _ _ =>
        Yields.bind ?_ fun _ _ _ => Yields.last returns_assert fun _ _ _ => .ok _
      · rw [hx5]
        simp only [State.loop, List.nil_append, List.length_map]
        have h1 := List.length_filter_le Out.full xs
        have h2 := hx1.length
        have h3 := hi.len
        omega
      · intro he
        rcases hcase with ⟨e1, e2, _⟩ | hcase
        · simp only [State.loop] at e1 e2
          rw [e1]; refine hempty hd ?_
          rw [← hsync, ← e2]; exact he
        · rw [hcase hd, he, marginReq_nil]
      · unfold debugMarginEq
        have e1 : (l.view c s.ms s.nextId).reserved = l.acct.balance .orderMargin := rfl
        have e2 : (l.view c s.ms s.nextId).required c = marginReq c l.om l.pos.quantity := rfl
        rw [e1, e2]
        split
        · next hd =>
          simp only [hd, forall_const]
          refine Yields.free ⟨_, orderMargin_total c hg'.pos hg'.good fun _ => k4⟩ fun m hm => ?_
          rw [orderMargin_total c hg'.pos hg'.good fun _ => k4] at hm; cases hm
          exact returns_assert
        · next hd => simp [returns_ok, hd]
    refine Iff.trans main ?_
    rw [e3]
    constructor
    · rintro ⟨⟨h1, h2⟩, h3, h4⟩
      exact ⟨h2, h4, fun hd => ⟨h1 hd, h3 hd⟩⟩
    · rintro ⟨h2, h4, h⟩
      exact ⟨⟨fun hd => (h hd).1, h2⟩, fun hd => (h hd).2, h4⟩

/-! ### Liquidations and updates -/

theorem liquidate_returns {c : Cfg} {s : State} (ht : c.spec.quantityFilter.tickSize ≠ 0)
    (hl : LInv c s.core) (he : 0 ≤ s.pos.entryPrice) (hn : s.pos ≠ .neutral) :
    Yields (liquidate c s) ↔
      (quantityError c.spec.quantityFilter (Ref.view c s).closing.qty = none ∧
        0 < (Ref.view c s).closing.price ∧ (Ref.view c s).books c (Ref.view c s).closing) := by
  have hw : PosWF s.pos := hl.wf
  have e1 : (Ref.view c s).book.qty = s.pos.quantity := rfl
  have e2 : (Ref.view c s).market = s.ms := rfl
  have ho : ∃ o, liquidationOrder s.pos = .ok o ∧ 0 < o.qty ∧
      (Ref.view c s).closing = ⟨false, o.side, touchPrice s.ms o.side, o.qty⟩ ∧
      opposing s.pos.quantity o.side = o.qty := by
    unfold Exchange.closing
    rw [e1, e2]
    cases hp : s.pos with
    | neutral => exact absurd hp hn
    | long i =>
      rw [hp] at hw
      have : 0 < i.qty := hw
      refine ⟨⟨0, .sell, i.qty⟩, by
        simp only [liquidationOrder, NewMarket.new]; rw [if_neg (by omega)], this, ?_, ?_⟩
      · simp [Position.quantity, this, touchPrice]
      · show larger i.qty 0 = i.qty
        unfold larger; split <;> omega
    | short i =>
      rw [hp] at hw
      have h0 : 0 < i.qty := hw
      have : ¬ 0 < -i.qty := by omega
      refine ⟨⟨0, .buy, i.qty⟩, by
        simp only [liquidationOrder, NewMarket.new]; rw [if_neg (by omega)], h0, ?_, ?_⟩
      · simp only [Position.quantity, this, if_false, touchPrice]; simp
      · show larger (- -i.qty) 0 = i.qty
        unfold larger; split <;> omega
  obtain ⟨o, ho, hq, hcl, hop⟩ := ho
  have haff : affordable c (Ref.view c s) o.side o.qty = true := by
    unfold affordable
    rw [e1, hop]
    simp only
    rw [if_neg (by omega)]
    simp
  have hmk := submitMarket_returns (c := c) (s := s) (o := o) ht hl he
    (fun _ h => absurd h hn) hq
  unfold liquidate
  refine Yields.free ⟨o, ho⟩ fun o' ho' => ?_
  rw [ho] at ho'; cases ho'
  have hval : ∀ s' r, submitMarket c s o = .ok (s', r) →
      ((∃ f, r = .ok f) ↔ quantityError c.spec.quantityFilter o.qty = none) := by
    intro s' r h
    have := submitMarket_ref hl h
    simp only [Exchange.marketOrder, haff, if_true] at this
    cases hqe : quantityError c.spec.quantityFilter o.qty with
    | none =>
      rw [hqe] at this
      simp only [Prod.mk.injEq] at this
      rw [← this.2]; simp
    | some e =>
      rw [hqe] at this
      simp only [Prod.mk.injEq] at this
      rw [← this.2]; simp
  rw [hcl]
  simp only
  have hm : (Ref.view c s).marketReturns c o.side o.qty ↔
      (quantityError c.spec.quantityFilter o.qty ≠ none ∨ (0 < touchPrice s.ms o.side ∧
        (Ref.view c s).books c ⟨false, o.side, touchPrice s.ms o.side, o.qty⟩)) := by
    unfold Exchange.marketReturns
    simp only [haff, if_true, e2]
  rw [hm] at hmk
  rw [returns_bind]
  constructor
  · rintro ⟨⟨s', r⟩, hs, h⟩
    have h1 := hmk.1 ⟨_, hs⟩
    have h2 := hval s' r hs
    cases r with
    | error e => simp [returns_error] at h
    | ok f =>
      have h3 := h2.1 ⟨f, rfl⟩
      rcases h1 with h1 | h1
      · exact absurd h3 h1
      · exact ⟨h3, h1⟩
  · rintro ⟨h1, h2⟩
    obtain ⟨⟨s', r⟩, hs⟩ := hmk.2 (.inr h2)
    obtain ⟨f, rfl⟩ := (hval s' r hs).2 h1
    exact ⟨_, hs, .ok _⟩

theorem updateState_returns {c : Cfg} {s : State} {a : UpdateArg} {u : Update} (hc : soundConfig c)
    (hi : Inv c s) (hl : LInv c s.core) (he : 0 ≤ s.pos.entryPrice)
    (hflat : c.env.debug = true → s.pos = .neutral → s.acct.balance .positionMargin = 0)
    (hempty : c.env.debug = true → s.active = [] → s.acct.balance .orderMargin = 0)
    (hb : a.build c.env.debug = .ok u) :
    Yields (updateState c s u) ↔ (Ref.view c s).updateReturns c a := by
  have hw : PosWF s.pos := hl.wf
  unfold updateState Exchange.updateReturns
  refine Yields.bind (observe_returns hc.2.1 hb) fun s1 h1 _ => ?_
  obtain ⟨e1, e2, e3, e4, e5, _⟩ := observe_fields h1
  have hv := observe_view hb h1
  have e0 : (Ref.view c s).market = s.ms := rfl
  have hl1 : LInv c s1.core := (observe_core (st := false) h1).inv (fun _ _ => LInv.step) hl
  have hi1 : Inv c s1 := hi.congr e3 e4 (by omega)
  have hw1 : PosWF s1.pos := hl1.wf
  rw [e0, ← hv]
  have hu : (Ref.view c s1).underwater c = true ↔ breach c s1.pos (s1.ms.bid, s1.ms.ask) := by
    unfold Exchange.underwater breach
    rw [decide_eq_true_eq]
    rfl
  rcases checkMaintenance_ok (c := c) (ms := s1.ms) hw1 with ⟨hk, hbr⟩ | ⟨hk, hbr⟩
  · rw [if_neg (fun k => hbr (hu.1 k)), hk]
    simp only
    exact Yields.last (checkActive_returns hc hi1 hl1 (by rw [e2]; exact he)
      (by rw [e1, e2]; exact hflat) (by rw [e1, e3]; exact hempty) hb) fun _ _ _ => .ok _
  · rw [if_pos (hu.2 hbr), hk]
    simp only
    refine Yields.last (liquidate_returns hc.1 hl1 (by rw [e2]; exact he) ?_) fun _ _ _ => .ok _
    intro hn
    simp [breach, hn, Position.quantity] at hbr

/-- Exactly the calls described return. -/
theorem step_returns {c : Cfg} {s : State} {op : Op} (hc : soundConfig c) (hr : Reachable c s) :
    Yields (step c s op) ↔ (Ref.view c s).returns c op := by
  have hi := hr.inv
  have hl := hr.linv
  have he := hr.entry_nonneg
  have hflat : c.env.debug = true → s.pos = .neutral → s.acct.balance .positionMargin = 0 :=
    fun hd => hr.flat hd
  have hempty : c.env.debug = true → s.active = [] → s.acct.balance .orderMargin = 0 :=
    fun hd => hr.empty hd
  unfold Exchange.returns
  cases op with
  | update a =>
    unfold step
    exact Yields.bind build_returns fun u hb _ =>
      Yields.last (updateState_returns hc hi hl he hflat hempty hb) fun _ _ _ => .ok _
  | checkActive a =>
    unfold step
    exact Yields.bind build_returns fun u hb _ =>
      Yields.last (checkActive_returns hc hi hl he hflat hempty hb) fun _ _ _ => .ok _
  | market side q uid =>
    simp only [step]
    cases hn : NewMarket.new side q uid with
    | error e =>
      have : ¬ 0 < q := by
        intro h
        simp only [NewMarket.new] at hn
        rw [if_neg (by omega)] at hn; cases hn
      simp [returns_ok, this]
    | ok o =>
      obtain ⟨hq, rfl⟩ := newMarket_ok hn
      simp only [hq, forall_const]
      exact Yields.last (submitMarket_returns (o := ⟨uid, side, q⟩) hc.1 hl he hflat hq)
        fun _ _ _ => .ok _
  | limit side p q uid =>
    simp only [step]
    cases hn : NewLimit.new side p q uid with
    | error e =>
      have : ¬ (0 < p ∧ 0 < q) := by
        rintro ⟨h1, h2⟩
        simp only [NewLimit.new] at hn
        rw [if_neg (by omega), if_neg (by omega)] at hn; cases hn
      simp only [returns_ok, true_iff]
      exact fun h1 h2 => absurd ⟨h1, h2⟩ this
    | ok o =>
      obtain ⟨hp, hq, rfl⟩ := newLimit_ok hn
      simp only [hp, hq, forall_const]
      exact Yields.last (submitLimit_returns (o := ⟨uid, side, p, q⟩) hi hl hc hp hq)
        fun _ _ _ => .ok _
  | amend id side p q uid =>
    simp only [step]
    cases hn : NewLimit.new side p q uid with
    | error e =>
      have : ¬ (0 < p ∧ 0 < q) := by
        rintro ⟨h1, h2⟩
        simp only [NewLimit.new] at hn
        rw [if_neg (by omega), if_neg (by omega)] at hn; cases hn
      simp only [returns_ok, true_iff]
      exact fun h1 h2 => absurd ⟨h1, h2⟩ this
    | ok o =>
      obtain ⟨hp, hq, rfl⟩ := newLimit_ok hn
      simp only [hp, hq, forall_const]
      exact Yields.last (amendLimit_returns (o := ⟨uid, side, p, q⟩) hi hl hc hp)
        fun _ _ _ => .ok _
  | cancel b =>
    unfold step
    exact Yields.last (cancelLimit_returns hi hl hc) fun _ _ _ => .ok _

end Lfest
