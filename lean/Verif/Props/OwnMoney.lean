import Verif.SpecSolvent
import Verif.Props.Solvent
import Verif.Props.Bracket
import Verif.Props.Risk

/-!
# Limit orders paid for with one's own money: C122
-/

namespace Lfest

open Spec

theorem Duo.book {c : Cfg} {s : State} (hr : Reachable c s) :
    (Ref.view c s).book = ledger c (fills s.log) := hr.linv.ledger

/-- The wallet of such a strategy without leverage. -/
theorem Duo.wallet {c : Cfg} {s : State} (hi : c.spec.initMarginReq = c.env.scale)
    (hr : Reachable c s) (h : Duo c s) :
    s.acct.balance .wallet = c.start + (ledger c (fills s.log)).realised -
      (ledger c (fills s.log)).paid -
      value c.env (Spec.abs (ledger c (fills s.log)).qty) (ledger c (fills s.log)).entry -
      marginReq c s.active (ledger c (fills s.log)).qty := by
  have h1 := hr.linv.wallet
  have h2 := hr.linv.ledger
  simp only [State.core] at h1 h2
  have q := congrArg Ledger.qty h2
  have e := congrArg Ledger.entry h2
  simp only [ledgerOf] at q e
  rw [h.pair.exact, h.pair.line, hi, share_one] at h1
  rw [← q, ← e]
  exact h1

theorem Duo.exitFree {c : Cfg} {s : State} (h : Duo c s) (hn : s.pos ≠ .neutral) :
    marginReq c s.active s.pos.quantity = 0 := by
  rcases (h.pair.held hn).2.2 with he | ⟨o, he, ho⟩
  · rw [he, marginReq_nil]
  · rw [he, marginReq_exit ho]

/-- Calls without fills. -/
theorem Funded.keep {c : Cfg} {s s' : State} (hi : c.spec.initMarginReq = c.env.scale)
    (hr : Reachable c s) (hr' : Reachable c s') (h : Duo c s) (h' : Duo c s') (hf : Funded s)
    (hb : (Ref.view c s').book = (Ref.view c s).book) : Funded s' := by
  have q : s'.pos.quantity = s.pos.quantity := congrArg Ledger.qty hb
  have o : s'.pos.outstandingFees = s.pos.outstandingFees := congrArg Ledger.owed hb
  have w := h.wallet hi hr
  have w' := h'.wallet hi hr'
  rw [← Duo.book hr', hb, Duo.book hr] at w'
  have e : (ledger c (fills s.log)).qty = s.pos.quantity := by rw [← Duo.book hr]; rfl
  rw [e] at w w'
  have hneu : s'.pos = .neutral ↔ s.pos = .neutral := by
    have a := PosWF.flat_iff (p := s'.pos) hr'.linv.wf
    have b := PosWF.flat_iff (p := s.pos) hr.linv.wf
    rw [a, b, q]
  have hs := scale_pos c.env
  have n := marginReq_nonneg (c := c) (pos := s.pos.quantity) h.pair.good (by omega)
  obtain ⟨f1, f2⟩ := hf
  unfold Funded
  rw [o]
  refine ⟨f1, ?_⟩
  by_cases hn : s.pos = .neutral
  · have z : s.pos.outstandingFees = 0 := by rw [hn]; rfl
    by_cases ha : s'.active = []
    · rw [ha, marginReq_nil] at w'; omega
    · have := h'.funds ha; omega
  · have a := h.exitFree hn
    have b := h'.exitFree (fun x => hn (hneu.1 x))
    rw [q] at b
    omega

/-- What closing the whole position does to the books. -/
theorem close_book {c : Cfg} {l : Ledger} {f : Fill} (hb : boundedLoss c.env l.qty)
    (hq : f.qty = opposing l.qty f.side) (hpos : 0 < f.qty) (ho : 0 ≤ l.owed) (h0 : 0 ≤ f.fee c) :
    Spec.abs l.qty = f.qty ∧ (l.fill c f).qty = 0 ∧ (l.fill c f).owed = 0 ∧
    (l.fill c f).paid = l.paid + (l.owed + f.fee c) ∧
    (l.fill c f).realised = l.realised +
      (value c.env f.qty f.price - value c.env f.qty l.entry) := by
  have hz : l.qty ≠ 0 := by
    intro h; rw [h] at hq; cases hs : f.side <;> simp [hs, opposing, larger] at hq <;> omega
  have hdir : ¬ ((0 < l.qty ∧ f.side = .buy) ∨ (l.qty < 0 ∧ f.side = .sell)) := by
    rintro (⟨h, hs⟩ | ⟨h, hs⟩) <;> simp only [hs, opposing, larger] at hq <;> split at hq <;> omega
  have habs : Spec.abs l.qty = f.qty := by
    rw [hq]
    cases hs : f.side <;> simp only [hs, not_or, not_and, opposing, larger, Spec.abs] at hdir ⊢ <;>
      split <;> split <;> grind
  refine ⟨habs, ?_⟩
  simp only [Ledger.fill]
  rw [if_neg hz, if_neg hdir]
  simp only [habs, Int.le_refl, if_true]
  refine ⟨?_, if_neg (by omega), ?_, ?_⟩
  · unfold Fill.signed
    cases hs : f.side <;> simp only [hs, opposing, larger] at hq ⊢ <;> split at hq <;> omega
  · split <;> omega
  · congr 1
    unfold boundedLoss at hb
    unfold Spec.pnl
    cases hk : c.env.kind <;> simp only [hk] at hb ⊢
    · rw [if_pos (by omega)]
    · rw [if_neg (by omega), value_neg, value_neg]; omega

theorem fee_range {c : Cfg} {f : Fill} (h0 : 0 ≤ c.spec.feeMaker) (h1 : c.spec.feeMaker ≤ c.env.scale)
    (hm : f.maker = true) (hq : 0 ≤ f.qty) (hp : 0 ≤ f.price) :
    0 ≤ f.fee c ∧ f.fee c ≤ value c.env f.qty f.price := by
  have hv : 0 ≤ value c.env f.qty f.price := value_nonneg _ hq hp
  simp only [Fill.fee, hm, if_true]
  exact ⟨share_nonneg _ hv h0, share_le hv h1⟩

/-- The fills of one update: none, the entry or the exit. -/
theorem Duo.oneFill {c : Cfg} {s : State} {a : UpdateArg} (h : Duo c s) (hw : wholeFills a s.active)
    (hs : feesAside c s) :
    (makerFills a s.active = [] ∧
      s.active.filter (fun o => decide (fillRule a o = none)) = s.active) ∨
    ∃ o, s.active = [o] ∧ makerFills a s.active = [⟨true, o.side, o.price, o.remaining⟩] ∧
      s.active.filter (fun o => decide (fillRule a o = none)) = [] := by
  have hshort : s.active = [] ∨ ∃ o, s.active = [o] := by
    by_cases hn : s.pos = .neutral
    · obtain ⟨f1, f2, _⟩ := h.pair.flat hn
      have hb := hs hn
      revert f1 f2 hb
      have hr := fun o ho => (h.pair.orders o ho).2.1
      revert hr
      generalize s.active = os
      intro hr f1 f2 hb
      match os, f1 with
      | [], _ => exact .inl rfl
      | [x], _ => exact .inr ⟨x, rfl⟩
      | [x, y], _ =>
        exfalso
        have hxy := (List.pairwise_cons.1 f2).1 y (by simp)
        have hx := (hb x (by simp)).1
        have hy := (hb y (by simp)).1
        have rx := hr x (by simp)
        have ry := hr y (by simp)
        unfold boundedLoss at hx hy
        cases hk : c.env.kind <;> cases e1 : x.side <;> cases e2 : y.side <;>
          simp only [hk, e1, e2] at hx hy hxy <;> first | omega | exact hxy.1 rfl
    · rcases (h.pair.held hn).2.2 with he | ⟨o, he, _⟩
      · exact .inl he
      · exact .inr ⟨o, he⟩
  rcases hshort with he | ⟨o, he⟩
  · left; simp [he, makerFills]
  · rcases hw o (by simp [he]) with ho | ho
    · left; simp [he, makerFills, ho]
    · right; exact ⟨o, he, by simp [he, makerFills, ho], by simp [he, ho]⟩

/-- The fills of one update leave a wallet that is not negative. -/
theorem Funded.after {c : Cfg} {s : State} {a : UpdateArg} (hi : c.spec.initMarginReq = c.env.scale)
    (h0 : 0 ≤ c.spec.feeMaker) (h1 : c.spec.feeMaker ≤ c.env.scale) (hr : Reachable c s)
    (h : Duo c s) (hf : Funded s) (hb : boundedLoss c.env s.pos.quantity)
    (hw : wholeFills a s.active) (hs : feesAside c s) : 0 ≤ walletAfter c s a := by
  obtain ⟨f1, f2⟩ := hf
  have w := h.wallet hi hr
  rcases h.oneFill hw hs with ⟨e1, e2⟩ | ⟨o, eo, e1, e2⟩
  · simp only [walletAfter, e1, e2, List.foldl_nil, hi, share_one]
    omega
  · by_cases hn : s.pos = .neutral
    · have hsc := scale_pos c.env
      exact h.opening (by omega) hr.linv hn hw (by rw [e1]; rfl)
    · have hx := h.exitFree hn
      have eq : (ledger c (fills s.log)).qty = s.pos.quantity := by rw [← Duo.book hr]; rfl
      have ew : (ledger c (fills s.log)).owed = s.pos.outstandingFees := by rw [← Duo.book hr]; rfl
      rw [eq, hx] at w
      have ho : o.remaining = opposing s.pos.quantity o.side := by
        rcases (h.pair.held hn).2.2 with he | ⟨o', he, ho⟩
        · rw [he] at eo; cases eo
        · rw [he] at eo; cases eo; exact ho
      obtain ⟨p1, p2, _⟩ := h.pair.orders o (by simp [eo])
      obtain ⟨r1, r2⟩ := fee_range (c := c) (f := ⟨true, o.side, o.price, o.remaining⟩) h0 h1 rfl
        (by simp only; omega) (by simp only; omega)
      obtain ⟨b0, b1, b2, b3, b4⟩ := close_book (c := c) (l := ledger c (fills s.log))
        (f := ⟨true, o.side, o.price, o.remaining⟩) (by rw [eq]; exact hb) (by rw [eq]; exact ho) p2
        (by omega) r1
      simp only [walletAfter, e1, e2, List.foldl_cons, List.foldl_nil, hi, share_one, b1, b3, b4,
        marginReq_nil]
      rw [show Spec.abs 0 = 0 from rfl, value_zero]
      rw [eq] at b0
      simp only at b0 r2
      rw [b0] at w
      omega

/-- The fees owed after the fills of one update are in the wallet. -/
theorem Funded.filled {c : Cfg} {s s' : State} {a : UpdateArg}
    (hi : c.spec.initMarginReq = c.env.scale)
    (h0 : 0 ≤ c.spec.feeMaker) (h1 : c.spec.feeMaker ≤ c.env.scale) (hr : Reachable c s)
    (hr' : Reachable c s') (h : Duo c s) (h' : Duo c s') (hf : Funded s)
    (hb : boundedLoss c.env s.pos.quantity) (hw : wholeFills a s.active) (hs : feesAside c s)
    (he : fills s'.log = (makerFills a s.active).reverse ++ fills s.log) : Funded s' := by
  have hf0 := hf
  obtain ⟨f1, f2⟩ := hf
  have w := h.wallet hi hr
  have w' := h'.wallet hi hr'
  have eq : (ledger c (fills s.log)).qty = s.pos.quantity := by rw [← Duo.book hr]; rfl
  have ew : (ledger c (fills s.log)).owed = s.pos.outstandingFees := by rw [← Duo.book hr]; rfl
  have eq' : (ledger c (fills s'.log)).qty = s'.pos.quantity := by rw [← Duo.book hr']; rfl
  have ew' : (ledger c (fills s'.log)).owed = s'.pos.outstandingFees := by
    rw [← Duo.book hr']; rfl
  have hsc := scale_pos c.env
  rcases h.oneFill hw hs with ⟨e1, e2⟩ | ⟨o, eo, e1, e2⟩
  · refine Funded.keep hi hr hr' h h' hf0 ?_
    rw [Duo.book hr', Duo.book hr, he, e1]; rfl
  · rw [e1] at he
    have hl : ledger c (fills s'.log) =
        (ledger c (fills s.log)).fill c ⟨true, o.side, o.price, o.remaining⟩ := by rw [he]; rfl
    obtain ⟨p1, p2, _⟩ := h.pair.orders o (by simp [eo])
    obtain ⟨r1, r2⟩ := fee_range (c := c) (f := ⟨true, o.side, o.price, o.remaining⟩) h0 h1 rfl
      (by simp only; omega) (by simp only; omega)
    unfold Funded
    by_cases hn : s.pos = .neutral
    · have z : s.pos.quantity = 0 := by rw [hn]; rfl
      rw [eq, z] at w
      rw [show Spec.abs 0 = 0 from rfl, value_zero] at w
      have hm := marginReq_member (c := c) h.pair.good (by omega) (show o ∈ s.active by simp [eo])
      rw [hi, share_one] at hm
      have hfee := (hs hn o (by simp [eo])).2
      have hl2 : ledger c (fills s'.log) = { ledger c (fills s.log) with
          qty := Fill.signed ⟨true, o.side, o.price, o.remaining⟩, entry := o.price,
          owed := Fill.fee c ⟨true, o.side, o.price, o.remaining⟩ } := by
        rw [hl, Ledger.fill, if_pos (by rw [eq, z])]
      have hab : Spec.abs (Fill.signed ⟨true, o.side, o.price, o.remaining⟩) = o.remaining := by
        have : ∀ x : Int, 0 < x → Spec.abs x = x ∧ Spec.abs (-x) = x := fun x hx => by
          unfold Spec.abs; constructor <;> split <;> omega
        cases hs : o.side
        · exact (this _ p2).1
        · exact (this _ p2).2
      have hn' : s'.pos ≠ .neutral := by
        intro hx
        have q0 : s'.pos.quantity = 0 := by rw [hx]; rfl
        rw [hl2] at eq'
        simp only [q0] at eq'
        rw [eq'] at hab
        have : Spec.abs 0 = 0 := rfl
        omega
      have hx := h'.exitFree hn'
      rw [eq', hx, ← eq', hl2] at w'
      simp only [hab] at w'
      rw [← ew', hl2]
      simp only
      refine ⟨r1, ?_⟩
      have : Fill.fee c ⟨true, o.side, o.price, o.remaining⟩ =
        share c.env (value c.env o.remaining o.price) c.spec.feeMaker := by simp [Fill.fee]
      omega
    · have hx := h.exitFree hn
      rw [eq, hx] at w
      have ho : o.remaining = opposing s.pos.quantity o.side := by
        rcases (h.pair.held hn).2.2 with he | ⟨o', he, ho⟩
        · rw [he] at eo; cases eo
        · rw [he] at eo; cases eo; exact ho
      obtain ⟨b0, b1, b2, b3, b4⟩ := close_book (c := c) (l := ledger c (fills s.log))
        (f := ⟨true, o.side, o.price, o.remaining⟩) (by rw [eq]; exact hb) (by rw [eq]; exact ho) p2
        (by omega) r1
      rw [← hl] at b1 b2 b3 b4
      rw [← ew', b2]
      refine ⟨Int.le_refl 0, ?_⟩
      by_cases ha : s'.active = []
      · rw [eq] at b0
        simp only at b0 r2 b4
        rw [b1, b3, b4, ha, marginReq_nil, show Spec.abs 0 = 0 from rfl, value_zero] at w'
        rw [b0] at w
        omega
      · exact h'.funds ha

theorem Ref.limitOrder_book (c : Cfg) (x : Ref.Exchange) (side : Side) (p q : Int) (uid : Nat) :
    (x.limitOrder c side p q uid).1.book = x.book := by
  simp only [Ref.Exchange.limitOrder]
  repeat' split
  all_goals rfl

theorem Ref.cancel_book (c : Cfg) (x : Ref.Exchange) (b : CancelBy) :
    (x.cancel c b).1.book = x.book := by
  unfold Ref.Exchange.cancel
  split <;> rfl

theorem Funded.bracketStep {c : Cfg} {s s' : State} {op : Op} {r : Resp} (hc : soundConfig c)
    (hi : c.spec.initMarginReq = c.env.scale) (m0 : 0 ≤ c.spec.feeMaker)
    (m1 : c.spec.feeMaker ≤ c.env.scale) (h0 : 0 ≤ c.spec.feeTaker)
    (h1 : c.spec.feeTaker ≤ c.env.scale) (hr : Reachable c s) (h : Duo c s) (h' : Duo c s')
    (hf : Funded s) (hb : boundedLoss c.env s.pos.quantity) (hs : feesAside c s)
    (hb' : boundedLoss c.env s'.pos.quantity)
    (k : bracket c s op) (hst : Lfest.step c s op = .ok (s', r)) : Funded s' := by
  have e := C65_every_call c s s' op r hc.2.2.2.2 hr hst
  have eb : ((Ref.view c s).call c op).1.book = (Ref.view c s').book := by rw [e]
  have hr' := hr.step hst
  have hsolo := fun ha => h.solo ha (hr.inv.sync hc.2.2.2.2)
  have hkeep := Funded.keep hi hr hr' h h' hf
  cases op with
  | update a =>
    by_cases ha : s.active = []
    · exact hf.step hc hi h0 h1 hr (hsolo ha) hb hb' k.1 hst
    · obtain ⟨_, _, hw, hbr⟩ := k
      simp only [Ref.Exchange.call, Prod.mk.injEq] at e
      obtain ⟨_, er⟩ := e
      cases hx : ((Ref.view c s).update c a).2 with
      | error err =>
        rw [hx] at er
        rw [← er] at hst
        have hl := C29_liquidation_iff_breach c s s' a _ hr hst
        have := hl.2 err rfl
        subst this
        exact absurd (hbr (hl.1.1 rfl)) ha
      | ok ups =>
        rw [hx] at er
        rw [← er] at hst
        exact Funded.filled hi m0 m1 hr hr' h h' hf hb hw hs (update_spec hr.inv hst).2.2.2.1
  | checkActive a =>
    obtain ⟨_, _, _, hw⟩ := k
    simp only [Lfest.step, bind_ok, ok_inj, Prod.mk.injEq] at hst
    obtain ⟨u, hbu, s2, h2, rfl, _⟩ := hst
    exact Funded.filled hi m0 m1 hr hr' h h' hf hb hw hs (checkActive_spec hbu hr.inv h2).2.2.1
  | market side q uid => exact hf.step hc hi h0 h1 hr (hsolo k.1) hb hb' k.2 hst
  | limit side p q uid =>
    refine hkeep ?_
    rw [← eb]
    simp only [Ref.Exchange.call]
    by_cases a1 : p ≤ 0
    · rw [if_pos a1]
    by_cases a2 : q ≤ 0
    · rw [if_neg a1, if_pos a2]
    rw [if_neg a1, if_neg a2]
    exact Ref.limitOrder_book ..
  | amend id side p q uid =>
    refine hkeep ?_
    rw [← eb]
    simp only [Ref.Exchange.call]
    by_cases a1 : p ≤ 0
    · rw [if_pos a1]
    by_cases a2 : q ≤ 0
    · rw [if_neg a1, if_pos a2]
    rw [if_neg a1, if_neg a2]
    simp only [Ref.Exchange.amend]
    split
    · rfl
    · split
      · exact Ref.cancel_book ..
      · rw [Ref.limitOrder_book, Ref.cancel_book]
  | cancel b =>
    refine hkeep ?_
    rw [← eb]
    exact Ref.cancel_book ..

/-- C122: a strategy that holds one position at a time and enters and leaves it with limit or market
orders, without leverage (initial margin rate 1, fee rates between 0 and 1), only on the side on which
it cannot lose more than it paid, and that keeps the fee of an entry order in the wallet while the
order rests, never panics and never owes money, whatever the market does. -/
theorem C122_own_money (c : Cfg) (ops : List Op) (hc : soundConfig c) (hstart : 0 ≤ c.start)
    (hi : c.spec.initMarginReq = c.env.scale) (m0 : 0 ≤ c.spec.feeMaker)
    (m1 : c.spec.feeMaker ≤ c.env.scale) (h0 : 0 ≤ c.spec.feeTaker)
    (h1 : c.spec.feeTaker ≤ c.env.scale) (hf : bracketed c (State.init c) ops)
    (hb : ∀ pre suf s, ops = pre ++ suf → run c (State.init c) pre = .ok s →
      boundedLoss c.env s.pos.quantity ∧ feesAside c s) :
    ∃ s, run c (State.init c) ops = .ok s ∧ 0 ≤ s.acct.balance .wallet ∧
      s.pos.outstandingFees ≤ s.acct.balance .wallet := by
  suffices h : ∀ (ops : List Op) (s : State), Reachable c s → Duo c s → Funded s →
      bracketed c s ops →
      (∀ pre suf s', ops = pre ++ suf → run c s pre = .ok s' →
        boundedLoss c.env s'.pos.quantity ∧ feesAside c s') →
      ∃ s', run c s ops = .ok s' ∧ Funded s' by
    obtain ⟨s, h1, h2, h3⟩ := h ops _ ⟨[], rfl⟩ (Duo.init c) (by
      simp [Funded, State.init, Position.outstandingFees, Accounts.new, Accounts.balance,
        Accounts.get, TAccount.net, hstart]) hf hb
    exact ⟨s, h1, by omega, h3⟩
  intro ops
  induction ops with
  | nil => intro s _ _ hfu _ _; exact ⟨s, rfl, hfu⟩
  | cons op ops ih =>
    intro s hr hs hfu hf hb
    obtain ⟨hb0, hs0⟩ := hb [] (op :: ops) s rfl rfl
    rcases hs.step hc hr hf.1 with ⟨⟨s1, r, e1, hs1⟩, _⟩ | ⟨_, a, _, hw, hop⟩
    · obtain ⟨hb1, _⟩ := hb [op] ops s1 rfl (by simp only [run, e1, bind, Except.bind])
      have hf1 := hfu.bracketStep hc hi m0 m1 h0 h1 hr hs hs1 hb0 hs0 hb1 hf.1 e1
      obtain ⟨s', h', hf'⟩ := ih s1 (hr.step e1) hs1 hf1 (hf.2 s1 r e1) (fun pre suf s' e h =>
        hb (op :: pre) suf s' (by simp [e]) (by simp only [run, e1, bind, Except.bind, h]))
      exact ⟨s', by simp only [run, e1, bind, Except.bind, h'], hf'⟩
    · exfalso
      have hk := hf.1
      have hwf : wholeFills a s.active := by
        rcases hop with rfl | ⟨rfl, _⟩
        · exact hk.2.2.2
        · exact hk.2.2.1
      have := hfu.after hi m0 m1 hr hs hb0 hwf hs0
      omega

/-- All but the fee is bid for contracts twice. The first position is sold by a limit order at a
profit, the second is bought by an amended order, loses nine tenths and is liquidated. What is left
buys some more at market. -/
def Ex.restingIn : List Op :=
  [.update (.bba ⟨Ex.d 99, Ex.d 100, 1⟩), .limit .buy (Ex.d 99) (Ex.d 10) 1,
   .update (.trade ⟨2, Ex.d 98, Ex.d 10, .sell⟩), .limit .sell (Ex.d 120) (Ex.d 10) 2,
   .update (.candle ⟨Ex.d 110, Ex.d 111, Ex.d 95, Ex.d 125, 3⟩),
   .limit .buy (Ex.d 100) (Ex.d 12) 3, .amend 2 .buy (Ex.d 110) (Ex.d 10) 3,
   .checkActive (.trade ⟨4, Ex.d 105, Ex.d 10, .sell⟩), .update (.bba ⟨Ex.d 11, Ex.d 12, 5⟩),
   .update (.trade ⟨6, Ex.d 11, Ex.d 1, .sell⟩), .market .buy (Ex.d 7) 0]

example : soundConfig Ex.lin ∧ Ex.lin.spec.initMarginReq = Ex.lin.env.scale ∧
    bracketed Ex.lin (State.init Ex.lin) Ex.restingIn ∧
    (∀ pre suf s, Ex.restingIn = pre ++ suf → run Ex.lin (State.init Ex.lin) pre = .ok s →
      boundedLoss Ex.lin.env s.pos.quantity ∧ feesAside Ex.lin s) ∧
    Ex.after Ex.lin Ex.restingIn (fun s => decide (
      (fills s.log).map (fun f => (f.maker, f.side)) = [(false, .buy), (false, .sell), (true, .buy),
        (true, .sell), (true, .buy)] ∧ s.pos.quantity = Ex.d 7)) = true :=
  ⟨by unfold soundConfig; decide, by decide +kernel, Ex.brackets_sound (by decide +kernel),
    fun pre suf s e h => of_decide_eq_true (Ex.stays_sound
      (p := fun s => decide (boundedLoss Ex.lin.env s.pos.quantity ∧ feesAside Ex.lin s))
      (by decide +kernel) pre suf s e h),
    by decide +kernel⟩

/-- C122 is false if the fee of the order is not kept in the wallet, which the exchange does not ask
for: an order for everything there is opens a position whose fee is owed, the price collapses, the
liquidation does not pay for the fee, and the next trade panics. -/
theorem C122_fee_can_panic : ∃ (c : Cfg) (ops : List Op), soundConfig c ∧ 0 ≤ c.start ∧
    c.spec.initMarginReq = c.env.scale ∧ 0 ≤ c.spec.feeMaker ∧ c.spec.feeMaker ≤ c.env.scale ∧
    0 ≤ c.spec.feeTaker ∧ c.spec.feeTaker ≤ c.env.scale ∧ bracketed c (State.init c) ops ∧
    (∀ pre suf s, ops = pre ++ suf → run c (State.init c) pre = .ok s →
      0 ≤ s.pos.quantity ∧ ∀ o ∈ s.active, o.side = .buy) ∧
    run c (State.init c) ops = .error .walletNegative :=
  ⟨Ex.fine, [.update (.bba ⟨Ex.d 100, Ex.d 101, 1⟩), .limit .buy (Ex.d 100) (Ex.d 10) 1,
      .update (.trade ⟨2, Ex.d 99, Ex.d 10, .sell⟩), .update (.bba ⟨1, 2, 3⟩),
      .update (.trade ⟨4, 1, 1, .sell⟩)],
    by unfold soundConfig; decide, by decide, by decide +kernel, by decide, by decide +kernel,
    by decide, by decide +kernel, Ex.brackets_sound (by decide +kernel),
    fun pre suf s e h => of_decide_eq_true (Ex.stays_sound
      (p := fun s => decide (0 ≤ s.pos.quantity ∧ ∀ o ∈ s.active, o.side = .buy))
      (by decide +kernel) pre suf s e h),
    by rfl⟩

end Lfest
