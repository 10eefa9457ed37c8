import Verif.Lemmas.Solo
import Verif.Lemmas.Panics

/-! Strategies with one position and the order that closes it, or an order on each side. -/

namespace Lfest

open Spec

/-- Margins and orders of such a strategy, also while the matching loop runs. -/
structure Pair (c : Cfg) (a : Accounts) (pos : Position) (os : List Limit) : Prop where
  sums : a.debitSum = a.creditSum
  wf : PosWF pos
  entry : 0 ≤ pos.entryPrice
  orders : ∀ o ∈ os, 0 < o.price ∧ 0 < o.remaining ∧ o.fq = .unfilled ∧
    quantityOk c.spec.quantityFilter o.remaining
  line : a.balance .orderMargin = marginReq c os pos.quantity
  exact : a.balance .positionMargin =
    share c.env (value c.env (Spec.abs pos.quantity) pos.entryPrice) c.spec.initMarginReq
  flat : pos = .neutral → os.length ≤ 2 ∧
    os.Pairwise (fun x y => x.side ≠ y.side ∧ x.remaining = y.remaining) ∧
    ∀ o ∈ os, 0 < share c.env (value c.env o.remaining o.price) c.spec.initMarginReq
  held : pos ≠ .neutral → quantityOk c.spec.quantityFilter (Spec.abs pos.quantity) ∧
    0 < a.balance .positionMargin ∧
    (os = [] ∨ ∃ o, os = [o] ∧ o.remaining = opposing pos.quantity o.side)

theorem Pair.good {c : Cfg} {a : Accounts} {pos : Position} {os : List Limit}
    (h : Pair c a pos os) : GoodOrders os := fun o ho =>
  ⟨(h.orders o ho).1, Int.le_of_lt (h.orders o ho).2.1⟩

theorem sideValue_one (e : Env) (side : Side) (k : Int) (o : Limit) :
    sideValue e side k [o] =
      if o.side = side then value e (clip (o.remaining - k) o.remaining) o.price else 0 := by
  unfold sideValue
  by_cases h : o.side = side
  · simp [h, uncovered, before_irrefl, qtyOf]
  · simp [h]

/-- The order that closes the position needs no margin. -/
theorem marginReq_exit {c : Cfg} {pos : Int} {o : Limit} (h : o.remaining = opposing pos o.side) :
    marginReq c [o] pos = 0 := by
  have hz : ∀ p, value c.env (clip 0 o.remaining) p = 0 := by
    intro p
    have : clip 0 o.remaining = 0 := by simp [clip]
    rw [this, value_zero]
  unfold marginReq
  rw [sideValue_one, sideValue_one]
  cases hs : o.side <;> rw [hs] at h <;> simp only [opposing] at h <;> rw [← h, Int.sub_self, hz] <;>
    simp [larger, share]

theorem filled_total {d : Bool} {a : UpdateArg} {u : Update} {o : Limit} (hb : a.build d = .ok u)
    (hf : u.canFill = true) (hq : badQuantity a = false) (ho : 0 < o.remaining) :
    u.filled d o = .ok (fillRule a o) := by
  have : ∃ x, u.filled d o = .ok x := by
    cases u with
    | bba b => simp [Update.canFill] at hf
    | trade t =>
      have ht : 0 < t.qty := by
        cases a with
        | trade t' =>
          simp only [UpdateArg.build, ok_inj, Update.trade.injEq] at hb; subst hb
          simp only [badQuantity, decide_eq_false_iff_not] at hq; omega
        | smart ts b f =>
          simp only [UpdateArg.build, bind_ok, ok_inj] at hb
          obtain ⟨_, _, hb⟩ := hb
          simp at hb
        | _ => simp [UpdateArg.build] at hb
      have h1 : debugP d (t.qty > 0) .tradeQty = .ok () := debugP_ok.2 fun _ => ht
      have h2 : debugP d (o.remaining > 0) .orderRemaining = .ok () := debugP_ok.2 fun _ => ho
      simp only [Update.filled, Trade.filled, h1, h2, bind, Except.bind]
      cases o.side <;> simp only <;> split <;> exact ⟨_, rfl⟩
    | candle t =>
      have h2 : debugP d (o.remaining > 0) .orderRemaining = .ok () := debugP_ok.2 fun _ => ho
      simp only [Update.filled, Candle.filled, h2, bind, Except.bind]
      cases o.side <;> simp only <;> split <;> exact ⟨_, rfl⟩
    | smart t => exact ⟨_, rfl⟩
    | custom k => exact ⟨_, rfl⟩
  obtain ⟨x, hx⟩ := this
  rw [hx, filled_eq hb hx]

theorem short_cases {α} {xs ys : List α} (h : xs.length + ys.length ≤ 1) :
    (xs = [] ∧ ys = []) ∨ (∃ y, xs = [] ∧ ys = [y]) ∨ (∃ x, xs = [x] ∧ ys = []) := by
  match xs, ys with
  | [], [] => exact .inl ⟨rfl, rfl⟩
  | [], [y] => exact .inr (.inl ⟨y, rfl, rfl⟩)
  | [x], [] => exact .inr (.inr ⟨x, rfl, rfl⟩)
  | [], _ :: _ :: _ => simp at h
  | _ :: _, _ :: _ => simp at h; omega
  | _ :: _ :: _, [] => simp at h

/-- Removing an order from a book of at most two. -/
theorem remove_short {xs ys : List Limit} {o : Limit} (h : xs.length + ys.length ≤ 1)
    (hn : IdsNodup (xs ++ o :: ys)) (o' : Limit) (ho : o'.id = o.id) :
    Book.removeById (xs ++ o' :: ys) o.id = some (o', xs ++ ys) := by
  have hs := hn.split.1
  rcases short_cases h with ⟨rfl, rfl⟩ | ⟨y, rfl, rfl⟩ | ⟨x, rfl, rfl⟩
  · simp [Book.removeById, Book.removeBy, position, swapRemove, ho]
  · simp [Book.removeById, Book.removeBy, position, swapRemove, ho]
  · have := hs x (by simp)
    simp [Book.removeById, Book.removeBy, position, swapRemove, ho, this]

theorem pos_neutral {pos : Position} (hw : PosWF pos) (h : Spec.abs pos.quantity = 0) :
    pos = .neutral := by
  cases pos with
  | neutral => rfl
  | long i => rw [abs_long hw] at h; have : 0 < i.qty := hw; omega
  | short i => rw [abs_short hw] at h; have : 0 < i.qty := hw; omega

/-- One order, filled whole: the loop goes on with the margins exact. -/
theorem Pair.fill {c : Cfg} {a : UpdateArg} {u : Update} {l : Loop} {o : Limit}
    {xs ys : List Limit} (h0 : 0 ≤ c.spec.initMarginReq) (hi : c.spec.initMarginReq ≤ c.env.scale)
    (hb : a.build c.env.debug = .ok u) (hf : u.canFill = true) (hq : badQuantity a = false)
    (hlen : xs.length + ys.length ≤ 1) (hn : IdsNodup (xs ++ o :: ys)) (hom : l.om = xs ++ o :: ys)
    (h : Pair c l.acct l.pos (xs ++ o :: ys)) (hr : fillRule a o = some o.remaining) :
    ∃ l' o', matchOrder c u l o = .ok (l', o') ∧ o'.id = o.id ∧ l'.om = xs ++ ys ∧
      l'.ids = l.ids ++ [o.id] ∧ Pair c l'.acct l'.pos (xs ++ ys) := by
  have hmem : o ∈ xs ++ o :: ys := by simp
  obtain ⟨hp, hrem, hfq, hqo⟩ := h.orders o hmem
  have hdb : c.env.debug = true → c.spec.initMarginReq ≤ c.scale := fun _ => hi
  have hfill : u.filled c.env.debug o = .ok (some o.remaining) := by
    rw [filled_total hb hf hq hrem, hr]
  have hop : l.pos = .neutral ∧ opposing l.pos.quantity o.side = 0 ∨
      (xs = [] ∧ ys = [] ∧ l.pos ≠ .neutral ∧ o.remaining = opposing l.pos.quantity o.side) := by
    by_cases hne : l.pos = .neutral
    · exact .inl ⟨hne, by rw [hne]; exact opposing_neutral _⟩
    · refine .inr ?_
      rcases (h.held hne).2.2 with he | ⟨x, hx, hr⟩
      · simp at he
      · rcases short_cases hlen with ⟨rfl, rfl⟩ | ⟨y, rfl, rfl⟩ | ⟨x', rfl, rfl⟩
        · simp only [List.nil_append, List.cons.injEq, and_true] at hx
          subst hx; exact ⟨rfl, rfl, hne, hr⟩
        · simp at hx
        · simp at hx
  let o1 : Limit := { o with fq := .filled o.remaining o.price, remaining := o.remaining - o.remaining }
  let f1 : FilledLimit := ⟨o.uid, o.side, o.price, 0, o.id, o.ts, u.ts, o.price, o.remaining⟩
  let l1 : Loop := { l with ids := l.ids ++ [o.id], log := .limitFill true o.remaining :: l.log,
                            om := xs ++ ys, updates := l.updates ++ [.fullyFilled f1] }
  have hap : applyFill c u.ts l o o.remaining = .ok (l1, o1) := by
    have h1 : o.fill c.scale o.remaining u.ts = .ok (o1, some f1) := by
      simp only [Limit.fill, assertP, hfq, bind, Except.bind]
      rw [if_pos (Int.le_refl _), if_pos hrem]
      simp [o1, f1]
    have h2 : omRemove l.om (.orderId o.id) = .ok (xs ++ ys) := by
      simp only [omRemove, Book.removeCancel, hom, remove_short hlen hn o rfl, expectSome, bind,
        Except.bind]
    simp only [applyFill, h1, bind, Except.bind]
    have h2' : omRemove l.om (.orderId o1.id) = .ok (xs ++ ys) := h2
    simp only [h2']
    rfl
  have hle : opposing l.pos.quantity o.side ≤ o.remaining := by
    rcases hop with ⟨_, h⟩ | ⟨_, _, _, h⟩ <;> omega
  have hag : l.pos = .neutral ∨ 0 < opposing l.pos.quantity o.side := by
    rcases hop with ⟨h, _⟩ | ⟨_, _, _, h⟩
    · exact .inl h
    · exact .inr (by omega)
  have habs : 0 < opposing l.pos.quantity o.side →
      Spec.abs l.pos.quantity = opposing l.pos.quantity o.side := opposing_abs h.wf
  -- the position
  obtain ⟨⟨pos', a'⟩, hcp⟩ : ∃ r, changePosition c.env c.spec.initMarginReq l.acct l.pos o.remaining
      o.price o.side (Spec.Fill.fee c ⟨true, o.side, o.price, o.remaining⟩) = .ok r := by
    refine changePosition_total h.wf h.sums h.entry hrem hp (fun _ hn => ?_) (fun hlt => ?_)
      (fun ho => ?_) (fun ho _ => ?_)
    · have := h.exact
      rwa [hn, show Spec.abs (Position.quantity .neutral) = 0 from rfl, value_zero, share_zero] at this
    · rcases hop with ⟨hn, hz⟩ | ⟨_, _, _, he⟩
      · rw [hz, Int.sub_zero]; exact (h.flat hn).2.2 o hmem
      · omega
    · rcases hop with ⟨_, hz⟩ | ⟨_, _, hne, he⟩
      · omega
      · have := (h.held hne).2.1
        rw [h.exact, habs ho] at this
        have hs : smaller o.remaining (opposing l.pos.quantity o.side) =
            opposing l.pos.quantity o.side := by unfold smaller; split <;> omega
        rw [hs]; exact this
    · rw [h.exact, habs ho]
  obtain ⟨_, hw', _, hbal, hsm, _⟩ := changePosition_ledger
    (f := ⟨true, o.side, o.price, o.remaining⟩) (k := 0) h.wf hcp
  obtain ⟨q1, q2, q3, q4⟩ := changePosition_over h.wf hag hle h.exact hcp
  have hqty := (changePosition_qty h.wf hcp).2.2.1
  have hsums' : a'.debitSum = a'.creditSum := by have := h.sums; omega
  have hset : settleLimit c l1 o1 o.remaining = .ok { l1 with
      pos := pos', acct := a', log := .trade o.side o.price o.remaining :: l1.log } := by
    simp only [settleLimit, convert_pos (e := c.env) (q := o.remaining)
      (show o1.price ≠ 0 by simp only [o1]; omega), bind, Except.bind]
    have : changePosition c.env c.spec.initMarginReq l1.acct l1.pos o.remaining o1.price o1.side
        (dmul c.scale (value c.env o.remaining o1.price) c.spec.feeMaker) = .ok (pos', a') := hcp
    simp only [this]
    rfl
  -- margin of what is left
  have hg' : GoodOrders (xs ++ ys) := fun x hx => h.good x (by
    simp only [List.mem_append, List.mem_cons] at hx ⊢
    rcases hx with hx | hx
    · exact .inl hx
    · exact .inr (.inr hx))
  have hrest : (xs ++ ys = [] ∨ ∃ y, xs ++ ys = [y] ∧ pos' ≠ .neutral ∧
      y.remaining = opposing pos'.quantity y.side) := by
    rcases hop with ⟨hn, hz⟩ | ⟨rfl, rfl, _, _⟩
    · rw [hz, Int.sub_zero] at q1
      have hne : pos' ≠ .neutral := by
        intro e; rw [e] at q1
        rw [show Spec.abs (Position.quantity .neutral) = 0 from rfl] at q1; omega
      have hpw := (h.flat hn).2.1
      have key : ∀ y : Limit, (o.side ≠ y.side ∧ o.remaining = y.remaining) →
          y.remaining = opposing pos'.quantity y.side := by
        rintro y ⟨hs, he⟩
        rw [hqty, hn]
        cases h1 : o.side <;> cases h2 : y.side <;> rw [h1, h2] at hs <;>
          simp only [signed, opposing, Position.quantity, larger, ne_eq, not_true_eq_false,
            reduceCtorEq, not_false_eq_true] at hs ⊢ <;> omega
      rcases short_cases hlen with ⟨rfl, rfl⟩ | ⟨y, rfl, rfl⟩ | ⟨x, rfl, rfl⟩
      · exact .inl rfl
      · simp only [List.nil_append, List.pairwise_cons] at hpw
        exact .inr ⟨y, rfl, hne, key y (hpw.1 y (by simp))⟩
      · simp only [List.cons_append, List.nil_append, List.pairwise_cons] at hpw
        have := hpw.1 o (by simp)
        exact .inr ⟨x, rfl, hne, key x ⟨fun e => this.1 e.symm, this.2.symm⟩⟩
    · exact .inl rfl
  have hreq : marginReq c (xs ++ ys) pos'.quantity = 0 := by
    rcases hrest with e | ⟨y, e, _, hy⟩
    · rw [e, marginReq_nil]
    · rw [e, marginReq_exit hy]
  have hm0 : 0 ≤ l.acct.balance .orderMargin := by
    rw [h.line]; exact marginReq_nonneg h.good h0
  obtain ⟨a2, ha2, hb2, hs2, hp2⟩ : ∃ a2, refund c.env a' (l.acct.balance .orderMargin) 0 = .ok a2 ∧
      a2.balance .orderMargin = 0 ∧ a2.debitSum = a2.creditSum ∧
      a2.balance .positionMargin = a'.balance .positionMargin := by
    unfold refund
    by_cases hlt : 0 < l.acct.balance .orderMargin
    · rw [if_pos hlt]
      obtain ⟨a2, ht⟩ := transfer_total (e := c.env) (d := .wallet) (c := .orderMargin)
        (x := l.acct.balance .orderMargin - 0) hsums' (by omega) (by simp)
      refine ⟨a2, ht, ?_, ?_, ?_⟩
      · have := transfer_balance ht .orderMargin
        simp at this; omega
      · have := transfer_sums ht; omega
      · have := transfer_balance ht .positionMargin
        simpa using this
    · rw [if_neg hlt]
      exact ⟨a', rfl, by omega, hsums', rfl⟩
  refine ⟨{ l1 with
    pos := pos', acct := a2, log := .trade o.side o.price o.remaining :: l1.log }, o1, ?_, rfl, rfl,
    rfl, ?_⟩
  · have hdq : debugP c.env.debug (o.remaining > 0) .matchQty = .ok () := debugP_ok.2 fun _ => hrem
    have hme : debugMarginEq c l.acct l.om l.pos .matchMarginMismatch = .ok () := by
      simp only [debugMarginEq, hom]
      split
      · simp only [orderMargin_total c h.wf h.good hdb, bind, Except.bind]
        rw [assertP_ok]; exact h.line
      · rfl
    have hrel : ∀ l2 : Loop, l2.om = xs ++ ys → l2.pos = pos' → l2.acct = a' →
        releaseMargin c l2 (l.acct.balance .orderMargin) = .ok { l2 with acct := a2 } := by
      intro l2 e1 e2 e3
      have hd0 : debugP c.env.debug ((0 : Int) ≤ l.acct.balance .orderMargin)
          .matchMarginIncrease = .ok () := debugP_ok.2 fun _ => hm0
      simp only [releaseMargin, e1, e2, e3, orderMargin_total c hw' hg' hdb, hreq, bind, Except.bind,
        hd0, ha2]
    simp only [matchOrder, hfill, hdq, hme, hap, hset, bind, Except.bind]
    rw [hrel _ rfl rfl rfl]
  · refine ⟨hs2, hw', ?_, fun x hx => h.orders x ?_, by rw [hb2, hreq], by rw [hp2]; exact q2,
      fun hn => ?_, fun hn => ?_⟩
    · by_cases hn : pos' = .neutral
      · rw [hn]; exact Int.le_refl _
      · rw [(q4 hn).2]; omega
    · simp only [List.mem_append, List.mem_cons] at hx ⊢
      rcases hx with hx | hx
      · exact .inl hx
      · exact .inr (.inr hx)
    · rcases hrest with e | ⟨y, _, hne, _⟩
      · rw [e]; simp
      · exact absurd hn hne
    · obtain ⟨q5, q6⟩ := q4 hn
      rw [hp2, q2, q1, q6]
      rcases hop with ⟨hne, hz⟩ | ⟨_, _, _, he⟩
      · rw [hz, Int.sub_zero]
        refine ⟨hqo, (h.flat hne).2.2 o hmem, ?_⟩
        rcases hrest with e | ⟨y, e, _, hy⟩
        · exact .inl e
        · exact .inr ⟨y, e, hy⟩
      · omega

theorem Pair.skip {c : Cfg} {a : UpdateArg} {u : Update} {l : Loop} {o : Limit}
    (hb : a.build c.env.debug = .ok u) (hf : u.canFill = true) (hq : badQuantity a = false)
    (hrem : 0 < o.remaining) (hr : fillRule a o = none) : matchOrder c u l o = .ok (l, o) := by
  simp only [matchOrder, filled_total hb hf hq hrem, hr, bind, Except.bind]

theorem Pair.length {c : Cfg} {a : Accounts} {pos : Position} {os : List Limit}
    (h : Pair c a pos os) : os.length ≤ 2 := by
  by_cases hn : pos = .neutral
  · exact (h.flat hn).1
  · rcases (h.held hn).2.2 with rfl | ⟨o, rfl, _⟩ <;> simp

/-- The whole loop. -/
theorem Pair.loop {c : Cfg} {a : UpdateArg} {u : Update} {l : Loop} {os : List Limit}
    (h0 : 0 ≤ c.spec.initMarginReq) (hi : c.spec.initMarginReq ≤ c.env.scale)
    (hb : a.build c.env.debug = .ok u) (hf : u.canFill = true) (hq : badQuantity a = false)
    (hn : IdsNodup os) (hom : l.om = os) (hids : l.ids = [])
    (h : Pair c l.acct l.pos os) (hw : wholeFills a os) :
    ∃ l' os', matchLoop c u l os = .ok (l', os') ∧
      removeExecuted os' l'.ids = .ok (os.filter (fun o => decide (fillRule a o = none))) ∧
      l'.om = os.filter (fun o => decide (fillRule a o = none)) ∧ l'.ids.length ≤ os.length ∧
      Pair c l'.acct l'.pos (os.filter (fun o => decide (fillRule a o = none))) := by
  have hlen := h.length
  match os, hlen with
  | [], _ => exact ⟨l, [], rfl, by simp [hids, removeExecuted], by simpa using hom, by simp [hids], by simpa using h⟩
  | [x], _ =>
    have hx := (h.orders x (by simp)).2.1
    rcases hw x (by simp) with hr | hr
    · refine ⟨l, [x], ?_, ?_, ?_, ?_, ?_⟩
      · simp only [matchLoop, Pair.skip hb hf hq hx hr, bind, Except.bind]
      · simp [hids, removeExecuted, hr]
      · simp [hom, hr]
      · simp [hids]
      · simpa [hr] using h
    · obtain ⟨l', o', h1, h2, h3, h4, h5⟩ := Pair.fill (xs := []) (ys := []) h0 hi hb hf hq (by simp) hn hom h hr
      refine ⟨l', [o'], ?_, ?_, ?_, ?_, ?_⟩
      · simp only [matchLoop, h1, bind, Except.bind]
      · have := remove_short (xs := []) (ys := []) (by simp) hn o' h2
        simp only [List.nil_append] at this
        simp [h4, hids, removeExecuted, this, expectSome, bind, Except.bind, hr]
      · simpa [hr] using h3
      · simp [h4, hids]
      · simpa [hr] using h5
  | [x, y], _ =>
    have hx := (h.orders x (by simp)).2.1
    have hy := (h.orders y (by simp)).2.1
    have hne : y.id ≠ x.id := (hn.split (xs := []) (ys := [y]) (o := x)).1 y (by simp)
    rcases hw x (by simp) with hr | hr
    · have e1 := Pair.skip (l := l) hb hf hq hx hr
      rcases hw y (by simp) with hs | hs
      · have e2 := Pair.skip (l := l) hb hf hq hy hs
        refine ⟨l, [x, y], ?_, ?_, ?_, ?_, ?_⟩
        · simp only [matchLoop, e1, e2, bind, Except.bind]
        · simp [hids, removeExecuted, hr, hs]
        · simp [hom, hr, hs]
        · simp [hids]
        · simpa [hr, hs] using h
      · obtain ⟨l', o', h1, h2, h3, h4, h5⟩ := Pair.fill (xs := [x]) (ys := []) h0 hi hb hf hq (by simp) hn hom h hs
        refine ⟨l', [x, o'], ?_, ?_, ?_, ?_, ?_⟩
        · simp only [matchLoop, e1, h1, bind, Except.bind]
        · have := remove_short (xs := [x]) (ys := []) (by simp) hn o' h2
          simp only [List.cons_append, List.nil_append] at this
          simp [h4, hids, removeExecuted, this, expectSome, bind, Except.bind, hr, hs]
        · simpa [hr, hs] using h3
        · simp [h4, hids]
        · simpa [hr, hs] using h5
    · obtain ⟨l1, x', h1, h2, h3, h4, h5⟩ := Pair.fill (xs := []) (ys := [y]) h0 hi hb hf hq (by simp) hn hom h hr
      simp only [List.nil_append] at h3 h5
      rcases hw y (by simp) with hs | hs
      · have e2 := Pair.skip (l := l1) hb hf hq hy hs
        refine ⟨l1, [x', y], ?_, ?_, ?_, ?_, ?_⟩
        · simp only [matchLoop, h1, e2, bind, Except.bind]
        · have := remove_short (xs := []) (ys := [y]) (by simp) hn x' h2
          simp only [List.nil_append] at this
          simp [h4, hids, removeExecuted, this, expectSome, bind, Except.bind, hr, hs]
        · simpa [hr, hs] using h3
        · simp [h4, hids]
        · simpa [hr, hs] using h5
      · have hn2 : IdsNodup ([] ++ y :: []) := (hn.split (xs := []) (ys := [y]) (o := x)).2
        obtain ⟨l2, y', k1, k2, k3, k4, k5⟩ := Pair.fill (xs := []) (ys := []) h0 hi hb hf hq (by simp) hn2 h3 h5 hs
        refine ⟨l2, [x', y'], ?_, ?_, ?_, ?_, ?_⟩
        · simp only [matchLoop, h1, k1, bind, Except.bind]
        · have hn3 : IdsNodup ([] ++ x :: [y']) := by
            have : ([x, y].map Limit.id).Nodup := hn
            simp only [IdsNodup, List.map_cons, List.map_nil, List.nil_append, k2] at this ⊢; exact this
          have r1 := remove_short (xs := []) (ys := [y']) (by simp) hn3 x' h2
          have r2 := remove_short (xs := []) (ys := []) (by simp) hn2 y' k2
          simp only [List.nil_append] at r1 r2
          simp [k4, h4, hids, removeExecuted, r1, r2, expectSome, bind, Except.bind, hr, hs]
        · simpa [hr, hs] using k3
        · simp [k4, h4, hids]
        · simpa [hr, hs] using k5

theorem ledger_foldl (c : Cfg) (fs gs : List Fill) :
    ledger c (fs.reverse ++ gs) = fs.foldl (Ledger.fill c) (ledger c gs) := by
  induction fs generalizing gs with
  | nil => rfl
  | cons f fs ih =>
    rw [List.reverse_cons, List.append_assoc, ih, List.foldl_cons]
    rfl

/-- What holds between the calls. -/
structure Duo (c : Cfg) (s : State) : Prop where
  pair : Pair c s.acct s.pos s.active
  quotes : 0 < s.ms.bid ↔ 0 < s.ms.ask
  live : s.pos ≠ .neutral ∨ s.active ≠ [] → 0 < s.ms.bid ∧ 0 < s.ms.ask
  funds : s.active ≠ [] → 0 ≤ s.acct.balance .wallet

theorem Duo.of_solo {c : Cfg} {s : State} (h : Solo c s) (hl : LInv c s.core)
    (he : 0 ≤ s.pos.entryPrice) : Duo c s := by
  have ha := h.active
  refine ⟨⟨hl.sums, hl.wf, he, by simp [ha], ?_, h.exact, fun _ => by simp [ha], fun hn => ?_⟩, h.quotes,
    fun hx => ?_, fun hx => absurd ha hx⟩
  · rw [h.noMargin, ha, marginReq_nil]
  · obtain ⟨h1, _, _, h2⟩ := h.held hn
    exact ⟨h1, h2, .inl ha⟩
  · rcases hx with hx | hx
    · exact ⟨(h.held hx).2.1, (h.held hx).2.2.1⟩
    · exact absurd ha hx

theorem Duo.solo {c : Cfg} {s : State} (h : Duo c s) (ha : s.active = []) (ho : s.om = s.active) :
    Solo c s := by
  refine ⟨ha, ho.trans ha, ?_, h.pair.exact, fun hn => ?_, h.quotes⟩
  · rw [h.pair.line, ha, marginReq_nil]
  · obtain ⟨h1, h2, _⟩ := h.pair.held hn
    obtain ⟨h3, h4⟩ := h.live (.inl hn)
    exact ⟨h1, h3, h4, h2⟩

theorem Duo.init (c : Cfg) : Duo c (State.init c) :=
  Duo.of_solo (Solo.init c) (LInv.init c) (by simp [State.init, Position.entryPrice])

/-- The balances according to the ledger. -/
theorem LInv.wallet {c : Cfg} {x : Core} (h : LInv c x) :
    x.acct.balance .wallet = c.start + (Spec.ledger c (fills x.log)).realised -
      (Spec.ledger c (fills x.log)).paid - x.acct.balance .positionMargin -
      x.acct.balance .orderMargin := by
  rw [← h.ledger]
  have hs := h.sums
  have hb := h.broker
  simp only [ledgerOf, Accounts.balance, Accounts.get, TAccount.net, Accounts.debitSum,
    Accounts.creditSum] at *
  rw [hb] at hs
  simp only at hs
  omega

/-- The matching step of such a strategy: it ends with exact margins, and panics exactly when the
wallet is negative then. -/
theorem Duo.matching {c : Cfg} {s : State} {a : UpdateArg} {u : Update} (hc : soundConfig c)
    (hI : Inv c s) (hl : LInv c s.core) (h : Duo c s)
    (hb : a.build c.env.debug = .ok u) (hq : badQuantity a = false) (hw : wholeFills a s.active) :
    (u.canFill = false ∨ 0 ≤ walletAfter c s a → ∃ s', checkActive c s u = .ok s' ∧ Duo c s') ∧
    (u.canFill = true → walletAfter c s a < 0 → checkActive c s u = .error .walletNegative) := by
  obtain ⟨hc1, hc2, hc3, hc4, hc5⟩ := hc
  have hom := hI.sync hc5
  cases hf : u.canFill with
  | false =>
    refine ⟨fun _ => ⟨{ s with updates := [] }, by simp only [checkActive, hf, if_true],
      ⟨h.pair, h.quotes, h.live, h.funds⟩⟩, fun h => by simp at h⟩
  | true =>
    obtain ⟨l, os', h1, h2, h3, h4, h5⟩ := Pair.loop (l := s.loop) hc3 hc4 hb hf hq hI.nodup hom rfl h.pair hw
    have hLl : LInv c l.core :=
      (matchLoop_core (st := false) (by simp) h1).inv (fun _ _ => LInv.step) hl
    obtain ⟨xs, hxs, _, e2, _⟩ := matchLoop_out h1
    have hfl : fills l.log = (makerFills a s.active).reverse ++ fills s.log := by
      rw [e2]; exact (hxs.spec hb).2.2.1 _
    have hwal : l.acct.balance .wallet = walletAfter c s a := by
      have hled := hLl.ledger
      have h6 : (ledger c (fills l.log)).qty = l.pos.quantity := by
        exact (congrArg Ledger.qty hled).symm
      have h7 : (ledger c (fills l.log)).entry = l.pos.entryPrice := by
        exact (congrArg Ledger.entry hled).symm
      have := hLl.wallet
      simp only [Loop.core] at this
      rw [h5.exact, h5.line, ← h6, ← h7, hfl, ledger_foldl] at this
      simp only [walletAfter]
      exact this
    have hd1 : debugP c.env.debug (s.om = s.active) .booksDiffer = .ok () := debugP_ok.2 fun _ => hom
    have hd2 : debugP c.env.debug (l.ids.length ≤ c.maxOpen) .idsCapacity = .ok () :=
      debugP_ok.2 fun _ => by have := hI.len; omega
    have hd3 : debugP c.env.debug (l.om = s.active.filter (fun o => decide (fillRule a o = none)))
        .booksDiffer = .ok () := debugP_ok.2 fun _ => h3
    have hd4 : debugP c.env.debug (s.active.filter (fun o => decide (fillRule a o = none)) = [] →
        l.acct.balance .orderMargin = 0) .emptyButMargin = .ok () := debugP_ok.2 fun _ he => by
      rw [h5.line, he, marginReq_nil]
    have hd5 : debugMarginEq c l.acct l.om l.pos .finalMarginMismatch = .ok () := by
      simp only [debugMarginEq, h3]
      split
      · simp only [orderMargin_total c h5.wf h5.good (fun _ => hc4), bind, Except.bind]
        rw [assertP_ok]; exact h5.line
      · rfl
    have h1' : matchLoop c u
        { acct := s.acct, pos := s.pos, om := s.om, log := s.log, updates := [], ids := [] }
        s.active = .ok (l, os') := h1
    have heq : checkActive c s u = (do
        assertP (l.acct.balance .wallet ≥ 0) .walletNegative
        .ok { s with
          acct := l.acct, pos := l.pos, om := l.om, log := l.log, updates := l.updates,
          active := s.active.filter (fun o => decide (fillRule a o = none)) }) := by
      simp only [checkActive, hf, hd1, h1', h2, hd2, hd3, hd4, hd5, bind, Except.bind,
        Bool.true_eq_false, if_false]
    rw [heq]
    refine ⟨fun hx => ?_, fun _ hx => ?_⟩
    · have hx' : 0 ≤ walletAfter c s a := by
        rcases hx with hx | hx
        · simp at hx
        · exact hx
      rw [← hwal] at hx'
      have : assertP (l.acct.balance .wallet ≥ 0) .walletNegative = .ok () := (assertP_ok).2 hx'
      refine ⟨{ s with
          acct := l.acct, pos := l.pos, om := l.om, log := l.log, updates := l.updates,
          active := s.active.filter (fun o => decide (fillRule a o = none)) },
        by simp only [this, bind, Except.bind], ⟨h5, h.quotes, fun hy => ?_, fun _ => hx'⟩⟩
      refine h.live ?_
      by_cases hp : s.pos = .neutral
      · refine .inr fun he => ?_
        rcases hy with hy | hy
        · have h8 : l = s.loop := by
            have := h1
            rw [he] at this
            simp only [matchLoop, ok_inj, Prod.mk.injEq] at this
            exact this.1.symm
          rw [h8] at hy
          exact hy hp
        · exact hy (by simp only [he, List.filter_nil])
      · exact .inl hp
    · rw [← hwal] at hx
      have : assertP (l.acct.balance .wallet ≥ 0) .walletNegative = .error .walletNegative := by
        unfold assertP; rw [if_neg (by omega)]
      simp only [this, bind, Except.bind]

end Lfest
