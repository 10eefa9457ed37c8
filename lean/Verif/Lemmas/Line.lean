import Verif.Lemmas.MarginStep
import Verif.Props.Ledger

/-!
The calls that keep the order margin balance equal to the requirement.
-/

namespace Lfest

open Spec

theorem submitLimit_line {c : Cfg} {s s' : State} {o : NewLimit} {r}
    (hp : 0 < o.price) (hq : 0 < o.qty) (hI : Inv c s) (hw : PosWF s.pos)
    (hcap : c.maxOpen ≤ 10000) (hi : 0 ≤ c.spec.initMarginReq) (hl : inLine c s)
    (h : submitLimit c s o = .ok (s', r)) : inLine c s' := by
  cases r with
  | ok p =>
    have hI' := submitLimit_inv hp hq hI h
    obtain ⟨_, h1, h2, h3, _⟩ := submitLimit_margin hp hq hI hw hcap h
    have := marginReq_append (c := c) (os := s.active) (o := p) (pos := s.pos.quantity)
      (fun x hx => by
        rw [← h1] at hx
        have := hI'.orders x hx; exact ⟨this.price, Int.le_of_lt this.rem⟩) hi
    rw [← h1] at this
    unfold inLine at *
    rw [h2, h3]
    unfold Spec.abs
    split <;> omega
  | error err =>
    obtain ⟨_, _, _, _, hpos, _, h5⟩ := submitLimit_arenas (fun x hx => (hI.orders x hx).fresh) h
    rcases h5 with ⟨_, _, ha, hac, _⟩ | ⟨he, _⟩
    · unfold inLine at *; rw [ha, hac, hpos]; exact hl
    · simp at he

theorem cancelLimit_line {c : Cfg} {s s' : State} {b : CancelBy} {r} (hI : Inv c s)
    (hw : PosWF s.pos) (hl : inLine c s) (h : cancelLimit c s b = .ok (s', r)) : inLine c s' := by
  rcases cancelLimit_margin hI hw h with ⟨_, _, rfl⟩ | ⟨_, _, hh⟩
  · exact hl
  · exact hh

theorem checkActive_nofill {c : Cfg} {s s' : State} {a : UpdateArg} {u : Update}
    (hb : a.build c.env.debug = .ok u) (hf : ∀ o ∈ s.active, fillRule a o = none)
    (h : checkActive c s u = .ok s') :
    s'.acct = s.acct ∧ s'.pos = s.pos ∧ s'.active = s.active := by
  cases hcf : u.canFill with
  | false => rw [checkActive_bba h hcf]; exact ⟨rfl, rfl, rfl⟩
  | true =>
    have key : ∀ os : List Limit, (∀ o ∈ os, fillRule a o = none) → ∀ {l l' : Loop} {os'},
        matchLoop c u l os = .ok (l', os') → l' = l ∧ os' = os := by
      intro os
      induction os with
      | nil =>
        intro _ l l' os' h
        simp only [matchLoop, ok_inj, Prod.mk.injEq] at h
        exact ⟨h.1.symm, h.2.symm⟩
      | cons o os ih =>
        intro hf l l' os' h
        simp only [matchLoop, bind_ok, ok_inj, Prod.mk.injEq] at h
        obtain ⟨⟨l1, o1⟩, h1, ⟨l2, os2⟩, h2, rfl, rfl⟩ := h
        simp only [matchOrder, bind_ok] at h1
        obtain ⟨r, hr, h1⟩ := h1
        have := filled_eq hb hr
        rw [hf o (by simp)] at this
        subst this
        simp only [ok_inj, Prod.mk.injEq] at h1
        obtain ⟨rfl, rfl⟩ := h1
        obtain ⟨e1, e2⟩ := ih (fun x hx => hf x (by simp [hx])) h2
        exact ⟨e1, by rw [e2]⟩
    obtain ⟨l, orders, active', h1, h2, _, _, rfl⟩ := checkActive_ok h hcf
    obtain ⟨rfl, rfl⟩ := key _ hf h1
    simp only [State.loop, removeExecuted, ok_inj] at h2 ⊢
    exact ⟨trivial, trivial, h2.symm⟩

theorem checkActive_orderly {c : Cfg} {s s' : State} {a : UpdateArg} {u : Update}
    (hb : a.build c.env.debug = .ok u) (hI : Inv c s) (hw : PosWF s.pos)
    (hcap : c.maxOpen ≤ 10000) (hi : 0 ≤ c.spec.initMarginReq) (hl : inLine c s)
    (ho : c.env.debug = true ∨ (∀ o ∈ s.active, fillRule a o = none) ∨
      (distinctPrices s.active ∧ cleanFills a s))
    (h : checkActive c s u = .ok s') (hw' : PosWF s'.pos) : inLine c s' := by
  cases hcf : u.canFill with
  | false => rw [checkActive_bba h hcf]; exact hl
  | true =>
    rcases ho with hdb | hf | ⟨hd, hcl⟩
    · exact checkActive_line_debug hdb hI hw' h hcf
    · obtain ⟨e1, e2, e3⟩ := checkActive_nofill hb hf h
      unfold inLine at *; rw [e1, e2, e3]; exact hl
    · refine checkActive_line hi hI hw (hI.sync hcap) hd hl ?_ h
      rcases hcl with ⟨side, hs, hx⟩ | hx
      · refine .inl ⟨side, hs, fun o ho q hq => hx o ho ?_⟩
        rw [← filled_eq hb hq]; simp
      · refine .inr (fun o ho q hq => hx o ho ?_)
        rw [← filled_eq hb hq]; simp

theorem orderMargin_total (c : Cfg) {b : Book} {pos : Position} (hw : PosWF pos)
    (hg : GoodOrders b) (hdb : c.env.debug = true → c.spec.initMarginReq ≤ c.scale) :
    orderMargin c.env c.spec.initMarginReq b pos = .ok (marginReq c b pos.quantity) := by
  have hs : ∀ (l : List (Int × Int)) acc, (∀ x ∈ l, x.1 ≠ 0) → ∃ v, sumValue c.env acc l = .ok v := by
    intro l
    induction l with
    | nil => intro acc _; exact ⟨acc, rfl⟩
    | cons x l ih =>
      intro acc h
      simp only [sumValue, convert_pos (h x (by simp))]
      exact ih _ (fun y hy => h y (by simp [hy]))
  have ho : ∀ (l : List (Int × Int)) k, (∀ x ∈ l, x.1 ≠ 0) → ∀ x ∈ offsetOrders k l, x.1 ≠ 0 := by
    intro l
    induction l with
    | nil => intro k _ x hx; simp [offsetOrders] at hx
    | cons y l ih =>
      intro k h x hx
      simp only [offsetOrders] at hx
      split at hx
      · simp only [List.mem_cons] at hx
        rcases hx with rfl | hx
        · exact h y (by simp)
        · exact ih _ (fun z hz => h z (by simp [hz])) x hx
      · exact h x hx
  have hk : ∀ side key, ∀ x ∈ sortBy key (sideOrders side b none), x.1 ≠ 0 := by
    intro side key x hx
    rw [(sortBy_perm _ _).mem_iff] at hx
    simp only [sideOrders, List.append_nil, List.mem_map, List.mem_filter] at hx
    obtain ⟨o, ⟨hob, _⟩, rfl⟩ := hx
    have := (hg o hob).1
    simp only; omega
  have : ∃ m, orderMargin c.env c.spec.initMarginReq b pos = .ok m := by
    simp only [orderMargin, orderMarginInternal, bind_ok, debugP_ok]
    cases pos with
    | neutral =>
      obtain ⟨v1, h1⟩ := hs _ 0 (hk .buy _)
      obtain ⟨v2, h2⟩ := hs _ 0 (hk .sell _)
      exact ⟨_, (), hdb, v1, h1, v2, h2, rfl⟩
    | long p =>
      obtain ⟨v1, h1⟩ := hs _ 0 (hk .buy _)
      obtain ⟨v2, h2⟩ := hs _ 0 (ho _ p.qty (hk .sell _))
      exact ⟨_, (), hdb, v1, h1, v2, h2, rfl⟩
    | short p =>
      obtain ⟨v1, h1⟩ := hs _ 0 (ho _ p.qty (hk .buy _))
      obtain ⟨v2, h2⟩ := hs _ 0 (hk .sell _)
      exact ⟨_, (), hdb, v1, h1, v2, h2, rfl⟩
  obtain ⟨m, hm⟩ := this
  rw [hm, orderMargin_ok hw (fun o ho => (hg o ho).2) hm]

/-- Orders that only reduce the position need no margin. -/
theorem covered_free (c : Cfg) (os : List Limit) (pos : Int)
    (hg : ∀ o ∈ os, 0 ≤ o.remaining)
    (hs : ∀ o ∈ os, 0 < opposing pos o.side)
    (hq : (os.map Limit.remaining).sum ≤ Spec.abs pos) :
    marginReq c os pos = 0 := by
  have key : ∀ side, sideValue c.env side (opposing pos side) os = 0 := by
    intro side
    unfold sideValue
    have hle : qtyOf (os.filter (fun o => o.side == side)).zipIdx ≤ (os.map Limit.remaining).sum := by
      have h1 := qtyOf_zipIdx (fun _ => true) (os.filter (fun o => o.side == side)) 0
      have hft : ∀ {α} (l : List α), l.filter (fun _ => true) = l := by
        intro α l; rw [List.filter_eq_self]; simp
      rw [hft, hft] at h1
      rw [h1]
      clear h1 hq hs
      unfold qsum
      induction os with
      | nil => simp
      | cons x xs ih =>
        have := ih (fun o ho => hg o (by simp [ho]))
        have hx := hg x (by simp)
        simp only [List.filter_cons]
        split <;> simp only [List.map_cons, List.sum_cons] <;> omega
    have hz : ∀ x ∈ (os.filter (fun o => o.side == side)).zipIdx,
        uncovered side (opposing pos side) (os.filter (fun o => o.side == side)).zipIdx x = 0 := by
      intro x hx
      have hmem := List.mem_filter.1 (List.fst_mem_of_mem_zipIdx hx)
      have hside : x.1.side = side := by simpa using hmem.2
      have hop := hs x.1 hmem.1
      have hnn : ∀ y ∈ (os.filter (fun o => o.side == side)).zipIdx, 0 ≤ y.1.remaining :=
        fun y hy => hg _ (List.mem_filter.1 (List.fst_mem_of_mem_zipIdx hy)).1
      have hb : ∀ l : List (Limit × Nat), x ∈ l → (∀ y ∈ l, 0 ≤ y.1.remaining) →
          qtyOf (l.filter (fun y => before side y x)) + x.1.remaining ≤ qtyOf l := by
        have hxx : before side x x = false := by cases side <;> simp [before, better]
        have hf : ∀ l : List (Limit × Nat), (∀ y ∈ l, 0 ≤ y.1.remaining) →
            qtyOf (l.filter (fun y => before side y x)) ≤ qtyOf l := by
          intro l
          induction l with
          | nil => intro _; simp [qtyOf]
          | cons y l ih =>
            intro h
            have := ih (fun z hz => h z (by simp [hz]))
            have hy := h y (by simp)
            simp only [List.filter_cons]
            split <;> simp only [qtyOf, List.map_cons, List.sum_cons] at * <;> omega
        intro l
        induction l with
        | nil => intro h; simp at h
        | cons y l ih =>
          intro hm h
          simp only [List.mem_cons] at hm
          have hl := fun z hz => h z (List.mem_cons_of_mem y hz)
          have hy := h y (by simp)
          rcases hm with rfl | hm
          · have := hf l hl
            simp only [List.filter_cons, hxx, Bool.false_eq_true, if_false]
            simp only [qtyOf, List.map_cons, List.sum_cons] at *
            omega
          · have := ih hm hl
            simp only [List.filter_cons]
            split <;> simp only [qtyOf, List.map_cons, List.sum_cons] at * <;> omega
      have := hb _ hx hnn
      have habs : opposing pos side = Spec.abs pos := by
        rw [hside] at hop
        cases side <;> simp only [opposing, larger, Spec.abs] at * <;> split at hop <;> split <;>
          omega
      unfold uncovered clip
      rw [if_pos (by omega)]
    have : ∀ l : List (Limit × Nat), (∀ x ∈ l, uncovered side (opposing pos side)
        (os.filter (fun o => o.side == side)).zipIdx x = 0) →
        (l.map (fun x => value c.env (uncovered side (opposing pos side)
          (os.filter (fun o => o.side == side)).zipIdx x) x.1.price)).sum = 0 := by
      intro l
      induction l with
      | nil => intro _; rfl
      | cons y l ih =>
        intro h
        simp only [List.map_cons, List.sum_cons, h y (by simp), value_zero,
          ih (fun z hz => h z (by simp [hz]))]
        rfl
    exact this _ hz
  have k1 := key .buy
  have k2 := key .sell
  simp only [opposing] at k1 k2
  unfold marginReq
  rw [k1, k2]
  simp [larger, share]

end Lfest
