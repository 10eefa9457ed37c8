import Verif.SpecSolvent
import Verif.Props.OwnMoney

/-!
# Losses within the margin of the position: C123
-/

namespace Lfest

open Spec

/-- The wallet of such a strategy. -/
theorem Duo.free {c : Cfg} {s : State} (hr : Reachable c s) (h : Duo c s) :
    s.acct.balance .wallet = c.start + (Ref.view c s).book.realised - (Ref.view c s).book.paid -
      share c.env (value c.env (Spec.abs s.pos.quantity) s.pos.entryPrice) c.spec.initMarginReq -
      marginReq c s.active s.pos.quantity := by
  have h1 := hr.linv.wallet
  have h2 := Duo.book hr
  simp only [State.core] at h1
  rw [h.pair.exact, h.pair.line] at h1
  rw [h2]
  exact h1

/-- Calls without fills. -/
theorem Funded.same {c : Cfg} {s s' : State} (hi : 0 ≤ c.spec.initMarginReq)
    (hr : Reachable c s) (hr' : Reachable c s') (h : Duo c s) (h' : Duo c s') (hf : Funded s)
    (hb : (Ref.view c s').book = (Ref.view c s).book) : Funded s' := by
  have q : s'.pos.quantity = s.pos.quantity := congrArg Ledger.qty hb
  have e : s'.pos.entryPrice = s.pos.entryPrice := congrArg Ledger.entry hb
  have o : s'.pos.outstandingFees = s.pos.outstandingFees := congrArg Ledger.owed hb
  have w := h.free hr
  have w' := h'.free hr'
  rw [hb, q, e] at w'
  have hneu : s'.pos = .neutral ↔ s.pos = .neutral := by
    have a := PosWF.flat_iff (p := s'.pos) hr'.linv.wf
    have b := PosWF.flat_iff (p := s.pos) hr.linv.wf
    rw [a, b, q]
  have n := marginReq_nonneg (c := c) (pos := s.pos.quantity) h.pair.good hi
  obtain ⟨f1, f2⟩ := hf
  unfold Funded
  rw [o]
  refine ⟨f1, ?_⟩
  by_cases hn : s.pos = .neutral
  · have z : s.pos.outstandingFees = 0 := by rw [hn]; rfl
    by_cases ha : s'.active = []
    · rw [ha, marginReq_nil] at w'; omega
    · have := h'.funds ha; omega
  · have a := h.exitFree hn
    have b := h'.exitFree (fun x => hn (hneu.1 x))
    rw [q] at b
    omega

/-- What closing the whole position does to the books. -/
theorem close_all {c : Cfg} {l : Ledger} {f : Fill} (hq : f.qty = opposing l.qty f.side)
    (hpos : 0 < f.qty) (ho : 0 ≤ l.owed) (h0 : 0 ≤ f.fee c) :
    Spec.abs l.qty = f.qty ∧ (l.fill c f).qty = 0 ∧ (l.fill c f).owed = 0 ∧
    (l.fill c f).paid = l.paid + (l.owed + f.fee c) ∧
    (l.fill c f).realised = l.realised + Spec.pnl c.env l.entry f.price l.qty := by
  have hz : l.qty ≠ 0 := by
    intro h; rw [h] at hq; cases hs : f.side <;> simp [hs, opposing, larger] at hq <;> omega
  have hdir : ¬ ((0 < l.qty ∧ f.side = .buy) ∨ (l.qty < 0 ∧ f.side = .sell)) := by
    rintro (⟨h, hs⟩ | ⟨h, hs⟩) <;> simp only [hs, opposing, larger] at hq <;> split at hq <;> omega
  have habs : Spec.abs l.qty = f.qty := by
    rw [hq]
    cases hs : f.side <;> simp only [hs, not_or, not_and, opposing, larger, Spec.abs] at hdir ⊢ <;>
      split <;> split <;> grind
  refine ⟨habs, ?_⟩
  simp only [Ledger.fill]
  rw [if_neg hz, if_neg hdir]
  simp only [habs, Int.le_refl, if_true]
  refine ⟨?_, if_neg (by omega), ?_, ?_⟩
  · unfold Fill.signed
    cases hs : f.side <;> simp only [hs, opposing, larger] at hq ⊢ <;> split at hq <;> omega
  · split <;> omega
  · congr 2
    unfold Spec.abs at habs
    split at habs <;> split <;> omega

/-- Closing a position at a loss within its margin leaves the fees owed in the wallet. -/
theorem Funded.closed {c : Cfg} {s s' : State} {f : Fill} (hr : Reachable c s)
    (hr' : Reachable c s') (h : Duo c s) (h' : Duo c s') (hf : Funded s)
    (hq : f.qty = opposing s.pos.quantity f.side) (hpos : 0 < f.qty) (h0 : 0 ≤ f.fee c)
    (hl : 0 ≤ s.acct.balance .positionMargin +
      Spec.pnl c.env s.pos.entryPrice f.price s.pos.quantity - f.fee c)
    (hb : (Ref.view c s').book = (Ref.view c s).book.fill c f) : Funded s' := by
  obtain ⟨f1, f2⟩ := hf
  have hn : s.pos ≠ .neutral := by
    intro hn
    rw [hn] at hq
    cases hs : f.side <;> simp [hs, Position.quantity, opposing, larger] at hq <;> omega
  obtain ⟨b0, b1, b2, b3, b4⟩ := close_all (c := c) (l := (Ref.view c s).book) (f := f) hq hpos f1 h0
  rw [← hb] at b1 b2 b3 b4
  have w := h.free hr
  have w' := h'.free hr'
  rw [← h.pair.exact, h.exitFree hn] at w
  have o' : s'.pos.outstandingFees = 0 := b2
  have q' : s'.pos.quantity = 0 := b1
  have p1 : (Ref.view c s).book.owed = s.pos.outstandingFees := rfl
  have p2 : Spec.pnl c.env (Ref.view c s).book.entry f.price (Ref.view c s).book.qty =
    Spec.pnl c.env s.pos.entryPrice f.price s.pos.quantity := rfl
  unfold Funded
  rw [o']
  refine ⟨Int.le_refl 0, ?_⟩
  by_cases ha : s'.active = []
  · rw [b3, b4, q', ha, marginReq_nil, show Spec.abs 0 = 0 from rfl, value_zero, share_zero] at w'
    omega
  · exact h'.funds ha

/-- Opening a position whose margin and fee are there leaves the fee in the wallet. -/
theorem Funded.opened {c : Cfg} {s s' : State} {f : Fill} (hr : Reachable c s)
    (hr' : Reachable c s') (h : Duo c s) (h' : Duo c s') (hn : s.pos = .neutral)
    (hpos : 0 < f.qty) (h0 : 0 ≤ f.fee c)
    (hl : share c.env (value c.env f.qty f.price) c.spec.initMarginReq + f.fee c ≤
      s.acct.balance .wallet + s.acct.balance .orderMargin)
    (hb : (Ref.view c s').book = (Ref.view c s).book.fill c f) : Funded s' := by
  have z : s.pos.quantity = 0 := by rw [hn]; rfl
  have hb2 : (Ref.view c s').book = { (Ref.view c s).book with
      qty := f.signed, entry := f.price, owed := f.fee c } := by
    rw [hb, Ledger.fill, if_pos (show (Ref.view c s).book.qty = 0 from z)]
  have q' : s'.pos.quantity = f.signed := congrArg Ledger.qty hb2
  have e' : s'.pos.entryPrice = f.price := congrArg Ledger.entry hb2
  have o' : s'.pos.outstandingFees = f.fee c := congrArg Ledger.owed hb2
  have p' : (Ref.view c s').book.paid = (Ref.view c s).book.paid := by rw [hb2]
  have r' : (Ref.view c s').book.realised = (Ref.view c s).book.realised := by rw [hb2]
  have hab : Spec.abs f.signed = f.qty := by
    unfold Fill.signed Spec.abs
    cases f.side <;> simp only <;> split <;> omega
  have hn' : s'.pos ≠ .neutral := by
    intro hx
    rw [hx] at q'
    rw [← q'] at hab
    have : Spec.abs (Position.quantity .neutral) = 0 := rfl
    omega
  have w := h.free hr
  have w' := h'.free hr'
  have hx := h'.exitFree hn'
  rw [hx, p', r', e', q', hab] at w'
  rw [← h.pair.line, z, show Spec.abs 0 = 0 from rfl, value_zero, share_zero] at w
  unfold Funded
  rw [o']
  omega

/-- An update with at most one fill. -/
theorem Duo.atMostOne {c : Cfg} {s : State} {a : UpdateArg} (h : Duo c s)
    (hw : wholeFills a s.active) (h1 : (makerFills a s.active).length ≤ 1) :
    (makerFills a s.active = [] ∧
      s.active.filter (fun o => decide (fillRule a o = none)) = s.active) ∨
    ∃ o ∈ s.active, fillRule a o ≠ none ∧
      makerFills a s.active = [⟨true, o.side, o.price, o.remaining⟩] := by
  have hl := h.pair.length
  revert hw h1 hl
  generalize s.active = os
  intro hw h1 hl
  match os, hl with
  | [], _ => left; simp [makerFills]
  | [x], _ =>
    rcases hw x (by simp) with hx | hx
    · left; simp [makerFills, hx]
    · right; exact ⟨x, by simp, by simp [hx], by simp [makerFills, hx]⟩
  | [x, y], _ =>
    rcases hw x (by simp) with hx | hx <;> rcases hw y (by simp) with hy | hy
    · left; simp [makerFills, hx, hy]
    · right; exact ⟨y, by simp, by simp [hy], by simp [makerFills, hx, hy]⟩
    · right; exact ⟨x, by simp, by simp [hx], by simp [makerFills, hx, hy]⟩
    · simp [makerFills, hx, hy] at h1

theorem Duo.exit {c : Cfg} {s : State} {o : Limit} (h : Duo c s) (hn : s.pos ≠ .neutral)
    (ho : o ∈ s.active) : s.active = [o] ∧ o.remaining = opposing s.pos.quantity o.side := by
  rcases (h.pair.held hn).2.2 with he | ⟨o', he, hq⟩
  · rw [he] at ho; cases ho
  · rw [he] at ho
    simp only [List.mem_singleton] at ho
    subst ho
    exact ⟨he, hq⟩

theorem opposing_eq_abs {q : Int} {side : Side} (h : 0 < opposing q side) :
    opposing q side = Spec.abs q := by
  cases side <;> simp only [opposing, larger, Spec.abs] at h ⊢ <;> split at h <;> split <;> omega

/-- The fill of an exit order within the margin. -/
theorem exit_within {c : Cfg} {s : State} {o : Limit} (h : Duo c s) (hn : s.pos ≠ .neutral)
    (ho : o ∈ s.active) (hl : 0 ≤ leftOver c s o.price c.spec.feeMaker) :
    0 ≤ s.acct.balance .positionMargin + Spec.pnl c.env s.pos.entryPrice o.price s.pos.quantity -
      Fill.fee c ⟨true, o.side, o.price, o.remaining⟩ := by
  obtain ⟨_, hq⟩ := h.exit hn ho
  have hr := (h.pair.orders o ho).2.1
  have ha := opposing_eq_abs (q := s.pos.quantity) (side := o.side) (by omega)
  have : Fill.fee c ⟨true, o.side, o.price, o.remaining⟩ =
      share c.env (value c.env (Spec.abs s.pos.quantity) o.price) c.spec.feeMaker := by
    simp only [Fill.fee, if_true]; rw [hq, ha]
  rw [this]
  exact hl

/-- The fills of an update within the margin leave a wallet that is not negative. -/
theorem Funded.afterFills {c : Cfg} {s : State} {a : UpdateArg} (hi : 0 ≤ c.spec.initMarginReq)
    (h0 : 0 ≤ c.spec.feeMaker) (hr : Reachable c s) (h : Duo c s) (hf : Funded s)
    (hw : wholeFills a s.active) (hp : paidFills c s a) : 0 ≤ walletAfter c s a := by
  obtain ⟨f1, f2⟩ := hf
  have w := h.free hr
  have hbook := Duo.book hr
  have hq0 : (Ref.view c s).book.qty = s.pos.quantity := rfl
  have he0 : (Ref.view c s).book.entry = s.pos.entryPrice := rfl
  have ho0 : (Ref.view c s).book.owed = s.pos.outstandingFees := rfl
  rcases h.atMostOne hw hp.1 with ⟨e1, e2⟩ | ⟨o, ho, hfr, e1⟩
  · simp only [walletAfter, e1, e2, List.foldl_nil]
    rw [← hbook, hq0, he0]
    omega
  · by_cases hn : s.pos = .neutral
    · exact h.opening hi hr.linv hn hw (by rw [e1]; rfl)
    · have hl := hp.2 o ho hfr
      rw [if_neg hn] at hl
      have hl := exit_within h hn ho hl
      obtain ⟨ea, hq⟩ := h.exit hn ho
      obtain ⟨p1, p2, _⟩ := h.pair.orders o ho
      have hfee : 0 ≤ Fill.fee c ⟨true, o.side, o.price, o.remaining⟩ := by
        simp only [Fill.fee, if_true]
        exact share_nonneg _ (value_nonneg _ (by omega) (by omega)) h0
      obtain ⟨b0, b1, b2, b3, b4⟩ := close_all (c := c) (l := (Ref.view c s).book)
        (f := ⟨true, o.side, o.price, o.remaining⟩) (by rw [hq0]; exact hq) p2 (by omega) hfee
      have e2 : s.active.filter (fun o => decide (fillRule a o = none)) = [] := by
        rw [ea]; simp [hfr]
      rw [← h.pair.exact, h.exitFree hn] at w
      simp only [walletAfter, e1, e2, List.foldl_cons, List.foldl_nil, ← hbook, b1, b3, b4,
        marginReq_nil]
      rw [show Spec.abs 0 = 0 from rfl, value_zero, share_zero, hq0, he0]
      omega

/-- The fees owed after the fills of an update within the margin are in the wallet. -/
theorem Funded.fills {c : Cfg} {s s' : State} {a : UpdateArg} (hi : 0 ≤ c.spec.initMarginReq)
    (h0 : 0 ≤ c.spec.feeMaker) (hr : Reachable c s) (hr' : Reachable c s') (h : Duo c s)
    (h' : Duo c s') (hf : Funded s) (hw : wholeFills a s.active) (hp : paidFills c s a)
    (he : Spec.fills s'.log = (makerFills a s.active).reverse ++ Spec.fills s.log) : Funded s' := by
  have hb : (Ref.view c s').book = (makerFills a s.active).foldl (Ledger.fill c) (Ref.view c s).book := by
    rw [Duo.book hr', Duo.book hr, he, ledger_foldl]
  rcases h.atMostOne hw hp.1 with ⟨e1, e2⟩ | ⟨o, ho, hfr, e1⟩
  · rw [e1] at hb
    exact Funded.same hi hr hr' h h' hf hb
  · rw [e1] at hb
    simp only [List.foldl_cons, List.foldl_nil] at hb
    obtain ⟨p1, p2, _⟩ := h.pair.orders o ho
    have hfee : 0 ≤ Fill.fee c ⟨true, o.side, o.price, o.remaining⟩ := by
      simp only [Fill.fee, if_true]
      exact share_nonneg _ (value_nonneg _ (by omega) (by omega)) h0
    have hl := hp.2 o ho hfr
    by_cases hn : s.pos = .neutral
    · rw [if_pos hn] at hl
      refine Funded.opened hr hr' h h' hn p2 hfee ?_ hb
      have hm := marginReq_member (c := c) h.pair.good hi ho
      have hline := h.pair.line
      rw [hn] at hline
      have : Fill.fee c ⟨true, o.side, o.price, o.remaining⟩ =
        share c.env (value c.env o.remaining o.price) c.spec.feeMaker := by simp [Fill.fee]
      rw [this]
      simp only [Position.quantity] at hline
      simp only
      omega
    · rw [if_neg hn] at hl
      exact Funded.closed hr hr' h h' hf (h.exit hn ho).2 p2 hfee (exit_within h hn ho hl) hb

theorem Funded.marginStep {c : Cfg} {s s' : State} {op : Op} {r : Resp} (hc : soundConfig c)
    (m0 : 0 ≤ c.spec.feeMaker) (h0 : 0 ≤ c.spec.feeTaker) (hr : Reachable c s) (h : Duo c s)
    (h' : Duo c s') (hf : Funded s) (k : bracket c s op) (kw : withinMargin c s op)
    (hst : Lfest.step c s op = .ok (s', r)) : Funded s' := by
  have hi := hc.2.2.1
  have e := C65_every_call c s s' op r hc.2.2.2.2 hr hst
  have eb : ((Ref.view c s).call c op).1.book = (Ref.view c s').book := by rw [e]
  have hr' := hr.step hst
  have hwf : PosWF s.pos := hr.linv.wf
  have hsame := Funded.same hi hr hr' h h' hf
  have hq0 : (Ref.view c s).book.qty = s.pos.quantity := rfl
  cases op with
  | update a =>
    obtain ⟨⟨_, _, hqp⟩, _, hw, _⟩ := k
    simp only [Ref.Exchange.call, Prod.mk.injEq] at e
    obtain ⟨_, er⟩ := e
    cases hx : ((Ref.view c s).update c a).2 with
    | ok ups =>
      rw [hx] at er
      rw [← er] at hst
      exact Funded.fills hi m0 hr hr' h h' hf hw kw.1 (update_spec hr.inv hst).2.2.2.1
    | error err =>
      rw [hx] at er
      rw [← er] at hst
      have hl := C29_liquidation_iff_breach c s s' a _ hr hst
      have := hl.2 err rfl
      subst this
      have hbr := hl.1.1 rfl
      have hlo := kw.2 hbr
      have hn : s.pos ≠ .neutral := by
        intro hn
        rw [hn] at hbr
        simp [breach, Position.quantity] at hbr
      have hpos : 0 < (quotesAfter s.ms a).1 ∧ 0 < (quotesAfter s.ms a).2 := by
        rcases quotes_positive (ms := s.ms) hqp with h1 | h1
        · rw [h1]; exact h.live (.inl hn)
        · exact h1
      have hne : s.pos.quantity ≠ 0 := fun hz => hn (hwf.flat_iff.2 hz)
      simp only [Ref.Exchange.call, Ref.Exchange.update] at eb hx
      split at hx
      · rename_i hu
        rw [if_pos hu] at eb
        simp only [hq0] at eb
        by_cases hp : 0 < s.pos.quantity
        · rw [if_pos hp] at eb
          simp only [exitPrice, if_pos hp, leftOver] at hlo
          have hab : Spec.abs s.pos.quantity = s.pos.quantity := by unfold Spec.abs; split <;> omega
          rw [hab] at hlo
          refine Funded.closed (f := ⟨false, .sell, (quotesAfter s.ms a).1, s.pos.quantity⟩)
            hr hr' h h' hf ?_ hp ?_ ?_ eb.symm
          · simp only [opposing, larger]; split <;> omega
          · exact share_nonneg _ (value_nonneg _ (Int.le_of_lt hp) (Int.le_of_lt hpos.1)) h0
          · exact hlo
        · rw [if_neg hp] at eb
          simp only [exitPrice, if_neg hp, leftOver] at hlo
          have hab : Spec.abs s.pos.quantity = -s.pos.quantity := by unfold Spec.abs; split <;> omega
          rw [hab] at hlo
          refine Funded.closed (f := ⟨false, .buy, (quotesAfter s.ms a).2, -s.pos.quantity⟩)
            hr hr' h h' hf ?_ (by dsimp only; omega) ?_ ?_ eb.symm
          · simp only [opposing, larger]; split <;> omega
          · exact share_nonneg _ (value_nonneg _ (by dsimp only; omega) (Int.le_of_lt hpos.2)) h0
          · exact hlo
      · cases hx
  | checkActive a =>
    obtain ⟨_, _, _, hw⟩ := k
    simp only [Lfest.step, bind_ok, ok_inj, Prod.mk.injEq] at hst
    obtain ⟨u, hbu, s2, h2, rfl, _⟩ := hst
    exact Funded.fills hi m0 hr hr' h h' hf hw kw (checkActive_spec hbu hr.inv h2).2.2.1
  | market side q uid =>
    obtain ⟨ka, k1, k2, k3, _, _⟩ := k
    simp only [Ref.Exchange.call] at eb
    by_cases hq : q ≤ 0
    · rw [if_pos hq] at eb; exact hsame eb.symm
    rw [if_neg hq] at eb
    simp only [Ref.Exchange.marketOrder] at eb
    split at eb
    · exact hsame eb.symm
    · split at eb
      · rename_i haff
        have hfee : 0 ≤ Fill.fee c ⟨false, side, touchPrice s.ms side, q⟩ :=
          share_nonneg _ (value_nonneg _ (by dsimp only; omega) (Int.le_of_lt k1)) h0
        by_cases hn : s.pos = .neutral
        · have hz : (Ref.view c s).book.qty = 0 := hwf.flat_iff.1 hn
          have hopp : opposing 0 side = 0 := by cases side <;> rfl
          simp only [Ref.affordable, hz, hopp, if_true] at haff
          replace haff := of_decide_eq_true haff
          rw [← C65_wallet c s hr] at haff
          refine Funded.opened (f := ⟨false, side, touchPrice s.ms side, q⟩) hr hr' h h' hn
            (by dsimp only; omega) hfee ?_ eb.symm
          have hom : s.acct.balance .orderMargin = 0 := by rw [h.pair.line, ka, marginReq_nil]
          rw [hom]
          have hm : (Ref.view c s).market = s.ms := rfl
          rw [hm] at haff
          unfold needed at haff
          simp only [Fill.fee, Bool.false_eq_true, if_false]
          omega
        · obtain ⟨hqe, hlo⟩ := kw hn
          have hopp : 0 < opposing s.pos.quantity side := by
            rcases k2 with hx | hx
            · exact absurd hx hn
            · exact hx
          have ho := opposing_eq_abs hopp
          have htp : touchPrice s.ms side = exitPrice s.pos.quantity (s.ms.bid, s.ms.ask) := by
            unfold exitPrice
            cases side <;> simp only [opposing, larger] at hopp <;> split at hopp <;>
              simp only [touchPrice]
            · rw [if_neg (by omega)]
            · omega
            · rw [if_pos (by omega)]
            · omega
          refine Funded.closed (f := ⟨false, side, touchPrice s.ms side, q⟩) hr hr' h h' hf
            (by rw [ho]; exact hqe) (by dsimp only; omega) hfee ?_ eb.symm
          rw [leftOver, ← hqe, ← htp] at hlo
          exact hlo
      · exact hsame eb.symm
  | limit side p q uid =>
    refine hsame ?_
    rw [← eb]
    simp only [Ref.Exchange.call]
    by_cases a1 : p ≤ 0
    · rw [if_pos a1]
    by_cases a2 : q ≤ 0
    · rw [if_neg a1, if_pos a2]
    rw [if_neg a1, if_neg a2]
    exact Ref.limitOrder_book ..
  | amend id side p q uid =>
    refine hsame ?_
    rw [← eb]
    simp only [Ref.Exchange.call]
    by_cases a1 : p ≤ 0
    · rw [if_pos a1]
    by_cases a2 : q ≤ 0
    · rw [if_neg a1, if_pos a2]
    rw [if_neg a1, if_neg a2]
    simp only [Ref.Exchange.amend]
    split
    · rfl
    · split
      · exact Ref.cancel_book ..
      · rw [Ref.limitOrder_book, Ref.cancel_book]
  | cancel b =>
    refine hsame ?_
    rw [← eb]
    exact Ref.cancel_book ..

/-- C123: a strategy that holds one position at a time, with any leverage, long or short, with limit
or market orders, never panics and never owes money, as long as no fill, closing or liquidation loses
more, with its fee, than the margin of the position, and the fee of an entry order is in the wallet
when the order is filled. -/
theorem C123_within_margin (c : Cfg) (ops : List Op) (hc : soundConfig c) (hstart : 0 ≤ c.start)
    (m0 : 0 ≤ c.spec.feeMaker) (h0 : 0 ≤ c.spec.feeTaker) (hf : bracketed c (State.init c) ops)
    (hm : ∀ pre op suf s, ops = pre ++ op :: suf → run c (State.init c) pre = .ok s →
      withinMargin c s op) :
    ∃ s, run c (State.init c) ops = .ok s ∧ 0 ≤ s.acct.balance .wallet ∧
      s.pos.outstandingFees ≤ s.acct.balance .wallet := by
  suffices h : ∀ (ops : List Op) (s : State), Reachable c s → Duo c s → Funded s →
      bracketed c s ops →
      (∀ pre op suf s', ops = pre ++ op :: suf → run c s pre = .ok s' → withinMargin c s' op) →
      ∃ s', run c s ops = .ok s' ∧ Funded s' by
    obtain ⟨s, h1, h2, h3⟩ := h ops _ ⟨[], rfl⟩ (Duo.init c) (by
      simp [Funded, State.init, Position.outstandingFees, Accounts.new, Accounts.balance,
        Accounts.get, TAccount.net, hstart]) hf hm
    exact ⟨s, h1, by omega, h3⟩
  intro ops
  induction ops with
  | nil => intro s _ _ hfu _ _; exact ⟨s, rfl, hfu⟩
  | cons op ops ih =>
    intro s hr hs hfu hf hm
    have hk := hm [] op ops s rfl rfl
    rcases hs.step hc hr hf.1 with ⟨⟨s1, r, e1, hs1⟩, _⟩ | ⟨_, a, _, hw, hop⟩
    · have hf1 := hfu.marginStep hc m0 h0 hr hs hs1 hf.1 hk e1
      obtain ⟨s', h', hf'⟩ := ih s1 (hr.step e1) hs1 hf1 (hf.2 s1 r e1) (fun pre o suf s' e h =>
        hm (op :: pre) o suf s' (by simp [e]) (by simp only [run, e1, bind, Except.bind, h]))
      exact ⟨s', by simp only [run, e1, bind, Except.bind, h'], hf'⟩
    · exfalso
      have hb := hf.1
      have := hfu.afterFills (a := a) hc.2.2.1 m0 hr hs
        (by rcases hop with rfl | ⟨rfl, _⟩
            · exact hb.2.2.2
            · exact hb.2.2.1)
        (by rcases hop with rfl | ⟨rfl, _⟩
            · exact hk
            · exact hk.1)
      omega

/-- The prices at which a position can be closed within its margin. -/
theorem Duo.safe {c : Cfg} {s : State} {price rate : Int} (hc : soundConfig c) (h : Duo c s)
    (hp : 0 < price) (hr : 0 ≤ rate) :
    let paid := value c.env (Spec.abs s.pos.quantity) s.pos.entryPrice
    let now := value c.env (Spec.abs s.pos.quantity) price
    let i := c.spec.initMarginReq
    (boundedLoss c.env s.pos.quantity →
      paid * (c.scale - i) ≤ now * (c.scale - rate) → 0 ≤ leftOver c s price rate) ∧
    (boundedLoss c.env (-s.pos.quantity) →
      now * (c.scale + rate) ≤ paid * (c.scale + i) → 0 ≤ leftOver c s price rate) := by
  have hS := scale_pos c.env
  have ha : 0 ≤ Spec.abs s.pos.quantity := by unfold Spec.abs; split <;> omega
  have hV : 0 ≤ value c.env (Spec.abs s.pos.quantity) s.pos.entryPrice :=
    value_nonneg _ ha h.pair.entry
  have hv : 0 ≤ value c.env (Spec.abs s.pos.quantity) price := value_nonneg _ ha (Int.le_of_lt hp)
  have hpnl : (boundedLoss c.env s.pos.quantity →
      Spec.pnl c.env s.pos.entryPrice price s.pos.quantity =
        value c.env (Spec.abs s.pos.quantity) price -
          value c.env (Spec.abs s.pos.quantity) s.pos.entryPrice) ∧
      (boundedLoss c.env (-s.pos.quantity) →
      Spec.pnl c.env s.pos.entryPrice price s.pos.quantity =
        value c.env (Spec.abs s.pos.quantity) s.pos.entryPrice -
          value c.env (Spec.abs s.pos.quantity) price) := by
    constructor
    all_goals
      intro hb
      unfold boundedLoss at hb
      unfold Spec.pnl
      cases hk : c.env.kind <;> simp only [hk] at hb ⊢
      all_goals
        by_cases h0 : s.pos.quantity = 0
        · rw [h0]; simp [Spec.abs, value_zero]
        by_cases h1 : 0 ≤ s.pos.quantity
        · have : Spec.abs s.pos.quantity = s.pos.quantity := if_pos h1
          rw [this] <;> omega
        · have : Spec.abs s.pos.quantity = -s.pos.quantity := if_neg h1
          rw [this, value_neg, value_neg]; omega
  intro paid now i
  unfold leftOver
  rw [h.pair.exact]
  have hM := (tdiv_bounds (x := paid * i) (Int.mul_nonneg hV hc.2.2.1) hS).2.1
  have hF := (tdiv_bounds (x := now * rate) (Int.mul_nonneg hv hr) hS).1
  change paid * i < share c.env paid i * c.env.scale + c.env.scale at hM
  change share c.env now rate * c.env.scale ≤ now * rate at hF
  have e : c.scale = c.env.scale := rfl
  constructor
  · intro hb hle
    rw [hpnl.1 hb]
    change 0 ≤ share c.env paid i + (now - paid) - share c.env now rate
    rw [e] at hle
    have hS0 : (share c.env paid i + (now - paid) - share c.env now rate + 1) * c.env.scale > 0 := by
      have : (share c.env paid i + (now - paid) - share c.env now rate + 1) * c.env.scale =
        share c.env paid i * c.env.scale + c.env.scale + now * c.env.scale - paid * c.env.scale -
          share c.env now rate * c.env.scale := by grind
      have h1 : paid * (c.env.scale - i) = paid * c.env.scale - paid * i := by grind
      have h2 : now * (c.env.scale - rate) = now * c.env.scale - now * rate := by grind
      omega
    have := Int.pos_of_mul_pos_left hS0 hS
    omega
  · intro hb hle
    rw [hpnl.2 hb]
    change 0 ≤ share c.env paid i + (paid - now) - share c.env now rate
    rw [e] at hle
    have hS0 : (share c.env paid i + (paid - now) - share c.env now rate + 1) * c.env.scale > 0 := by
      have : (share c.env paid i + (paid - now) - share c.env now rate + 1) * c.env.scale =
        share c.env paid i * c.env.scale + c.env.scale + paid * c.env.scale - now * c.env.scale -
          share c.env now rate * c.env.scale := by grind
      have h1 : paid * (c.env.scale + i) = paid * c.env.scale + paid * i := by grind
      have h2 : now * (c.env.scale + rate) = now * c.env.scale + now * rate := by grind
      omega
    have := Int.pos_of_mul_pos_left hS0 hS
    omega

/-- C123, in prices: a position can be closed within its margin while the proceeds, less the fee, are
at least the part of its value that is not margin, on the side with bounded loss, and on the other
side while the cost, with the fee, is at most its value and its margin. -/
theorem C123_safe_prices (c : Cfg) (ops : List Op) (s : State) (price rate : Int)
    (hc : soundConfig c) (hf : bracketed c (State.init c) ops)
    (hrun : run c (State.init c) ops = .ok s) (hp : 0 < price) (hr : 0 ≤ rate) :
    let paid := value c.env (Spec.abs s.pos.quantity) s.pos.entryPrice
    let now := value c.env (Spec.abs s.pos.quantity) price
    let i := c.spec.initMarginReq
    (boundedLoss c.env s.pos.quantity →
      paid * (c.scale - i) ≤ now * (c.scale - rate) → 0 ≤ leftOver c s price rate) ∧
    (boundedLoss c.env (-s.pos.quantity) →
      now * (c.scale + rate) ≤ paid * (c.scale + i) → 0 ≤ leftOver c s price rate) :=
  Duo.safe hc (Duo.run hc ops _ s ⟨[], rfl⟩ (Duo.init c) hf hrun) hp hr

/-- A property of every call of a history and the state it meets, evaluated. -/
def Ex.each (c : Cfg) (p : State → Op → Bool) : State → List Op → Bool
  | _, [] => true
  | s, op :: ops => p s op &&
    match step c s op with
    | .ok (s', _) => Ex.each c p s' ops
    | .error _ => true

theorem Ex.each_sound {c : Cfg} {p : State → Op → Bool} {ops : List Op} {s : State}
    (h : Ex.each c p s ops = true) :
    ∀ pre op suf s', ops = pre ++ op :: suf → run c s pre = .ok s' → p s' op = true := by
  induction ops generalizing s with
  | nil => intro pre op suf s' e; simp at e
  | cons o ops ih =>
    simp only [Ex.each, Bool.and_eq_true] at h
    intro pre op suf s' e hr
    cases pre with
    | nil =>
      simp only [List.nil_append, List.cons.injEq] at e
      simp only [run, ok_inj] at hr
      rw [← hr, ← e.1]; exact h.1
    | cons x pre =>
      simp only [List.cons_append, List.cons.injEq] at e
      obtain ⟨rfl, e⟩ := e
      simp only [run, bind_ok] at hr
      obtain ⟨⟨s1, r⟩, h1, h2⟩ := hr
      have := h.2
      rw [h1] at this
      exact ih this pre op suf s' e h2

/-- Leverage five. A long position of three times the balance is liquidated by a fall of fifteen
percent; a short one, opened by a limit order next to a bid, is bought back by that bid; another short
one is closed at market with a loss. -/
def Ex.margined : Cfg :=
  { Ex.lin with spec := { Ex.lin.spec with initMarginReq := 20000, maintenanceMargin := 10000 } }

def Ex.leveraged : List Op :=
  [.update (.bba ⟨Ex.d 99, Ex.d 100, 1⟩), .market .buy (Ex.d 30) 0,
   .update (.bba ⟨Ex.d 85, Ex.d 86, 2⟩), .limit .buy (Ex.d 80) (Ex.d 20) 1,
   .limit .sell (Ex.d 90) (Ex.d 20) 2, .update (.trade ⟨3, Ex.d 91, Ex.d 20, .buy⟩),
   .update (.candle ⟨Ex.d 78, Ex.d 79, Ex.d 75, Ex.d 88, 4⟩), .market .sell (Ex.d 15) 0,
   .update (.bba ⟨Ex.d 80, Ex.d 81, 5⟩), .market .buy (Ex.d 15) 0]

example : soundConfig Ex.margined ∧ bracketed Ex.margined (State.init Ex.margined) Ex.leveraged ∧
    (∀ pre op suf s, Ex.leveraged = pre ++ op :: suf → run Ex.margined (State.init Ex.margined) pre = .ok s →
      withinMargin Ex.margined s op) ∧
    Ex.after Ex.margined Ex.leveraged (fun s => decide (
      (fills s.log).map (fun f => (f.maker, f.side)) = [(false, .buy), (false, .sell), (true, .buy),
        (true, .sell), (false, .sell), (false, .buy)] ∧ s.pos = .neutral)) = true :=
  ⟨by unfold soundConfig; decide, Ex.brackets_sound (by decide +kernel),
    fun pre op suf s e h => of_decide_eq_true (Ex.each_sound
      (p := fun s op => decide (withinMargin Ex.margined s op)) (by decide +kernel) pre op suf s e h),
    by decide +kernel⟩

/-- A position that is safe down to a price some percent above where its margin is used up. -/
example : bracketed Ex.margined (State.init Ex.margined) (Ex.leveraged.take 2) ∧
    Ex.after Ex.margined (Ex.leveraged.take 2) (fun s => decide (
      boundedLoss Ex.margined.env s.pos.quantity ∧
      value Ex.margined.env (Spec.abs s.pos.quantity) s.pos.entryPrice *
          (Ex.margined.scale - Ex.margined.spec.initMarginReq) ≤
        value Ex.margined.env (Spec.abs s.pos.quantity) (Ex.d 81) *
          (Ex.margined.scale - Ex.margined.spec.feeTaker) ∧
      ¬ 0 ≤ leftOver Ex.margined s (Ex.d 80) Ex.margined.spec.feeTaker)) = true :=
  ⟨Ex.brackets_sound (by decide +kernel), by decide +kernel⟩

end Lfest
