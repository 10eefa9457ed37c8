import Verif.Lemmas.Bound
import Verif.Lemmas.Risk

/-!
# How far the amounts can grow over a history
-/

namespace Lfest

open Spec

/-- An order within the limits. -/
structure OrderFit (P Q : Int) (o : Limit) : Prop where
  price : 0 < o.price
  top : o.price ≤ P
  rem : 0 < o.remaining
  fq : ∀ x a, o.fq = .filled x a → 0 < x ∧ 0 ≤ a ∧ a ≤ P
  total : o.filledQuantity + o.remaining ≤ Q

theorem OrderFit.filled {P Q : Int} {o : Limit} (h : OrderFit P Q o) : 0 ≤ o.filledQuantity := by
  unfold Limit.filledQuantity
  split
  · omega
  · next hx => have := (h.fq _ _ hx).1; omega

/-- Both fee rates are at most one. -/
structure FeeFit (c : Cfg) : Prop where
  maker1 : c.spec.feeMaker ≤ c.env.scale
  maker2 : -c.env.scale ≤ c.spec.feeMaker
  taker1 : c.spec.feeTaker ≤ c.env.scale
  taker2 : -c.env.scale ≤ c.spec.feeTaker

/-- Accounts, position and orders after trading `T` contracts, when `Q` contracts have been asked
for in total. -/
structure Exposure (c : Cfg) (P K X : Int) (a : Accounts) (pos : Position) (b : Book)
    (T m Q : Int) : Prop where
  cash : Cash c K X a pos T m
  wf : PosWF pos
  entry0 : 0 ≤ pos.entryPrice
  entry : pos.entryPrice ≤ P
  hold : Spec.abs pos.quantity ≤ T
  room : 2 * qsum b + T + Spec.abs pos.quantity ≤ 2 * Q
  nodup : IdsNodup b
  orders : ∀ o ∈ b, OrderFit P Q o
  done : ∀ o ∈ b, o.filledQuantity ≤ T

theorem abs_nonneg' (x : Int) : 0 ≤ Spec.abs x := by unfold Spec.abs; split <;> omega

theorem Exposure.fair {c : Cfg} {P K X : Int} {a : Accounts} {pos : Position} {b : Book}
    {T m Q : Int} (h : Exposure c P K X a pos b T m Q) : FairBook P b := fun o ho => by
  have := h.orders o ho
  have h1 := this.rem
  exact ⟨this.price, this.top, by omega⟩

theorem Exposure.bounds {c : Cfg} {P K X : Int} {a : Accounts} {pos : Position} {b : Book}
    {T m Q : Int} (h : Exposure c P K X a pos b T m Q) :
    0 ≤ qsum b ∧ qsum b ≤ Q ∧ 0 ≤ T ∧ T ≤ 2 * Q ∧ Spec.abs pos.quantity ≤ Q ∧
      0 ≤ Spec.abs pos.quantity := by
  have h1 := qsum_nonneg fun o ho => (h.fair o ho).2.2
  have h2 := abs_nonneg' pos.quantity
  have h3 := h.hold
  have h4 := h.room
  omega

theorem fee_bound {c : Cfg} {P K q p : Int} {m : Bool} {side : Side}
    (hR : Rates c.env c.spec.initMarginReq P K) (hf : FeeFit c) (hp : 0 < p) (hP : p ≤ P)
    (hq : 0 ≤ q) :
    Fill.fee c ⟨m, side, p, q⟩ * c.env.scale ≤ q * K ∧
      -(q * K) ≤ Fill.fee c ⟨m, side, p, q⟩ * c.env.scale := by
  have hs := scale_pos c.env
  have h1 := value_nonneg c.env hq (by omega : 0 ≤ p)
  have h2 := (value_bound hR.toRate hp hP (Int.le_refl q) (by omega)).1
  have h3 : Fill.fee c ⟨m, side, p, q⟩ ≤ value c.env q p ∧
      -value c.env q p ≤ Fill.fee c ⟨m, side, p, q⟩ := by
    simp only [Fill.fee]
    split
    · exact share_bound h1 hf.maker1 hf.maker2
    · exact share_bound h1 hf.taker1 hf.taker2
  have h4 := Int.mul_le_mul_of_nonneg_right h3.1 (by omega : 0 ≤ c.env.scale)
  have h5 := Int.mul_le_mul_of_nonneg_right h3.2 (by omega : 0 ≤ c.env.scale)
  rw [Int.neg_mul] at h5
  omega

theorem abs_signed {x q : Int} {side : Side} (hq : 0 ≤ q) :
    Spec.abs (x + signed side q) ≤ Spec.abs x + q := by
  cases side <;> simp only [signed] <;> unfold Spec.abs <;> repeat' split
  all_goals omega

/-- A fill of `q` contracts; the book afterwards leaves room for it. -/
theorem Exposure.fill {c : Cfg} {P K X : Int} {a a' : Accounts} {pos pos' : Position} {b b' : Book}
    {T m Q Q' q p : Int} {side : Side} {mk : Bool} (h : Exposure c P K X a pos b T m Q)
    (hR : Rates c.env c.spec.initMarginReq P K) (hf : FeeFit c) (hp : 0 < p) (hP : p ≤ P)
    (hc : changePosition c.env c.spec.initMarginReq a pos q p side
      (Fill.fee c ⟨mk, side, p, q⟩) = .ok (pos', a'))
    (hr : 2 * qsum b' + T + q + Spec.abs pos'.quantity ≤ 2 * Q') (hn : IdsNodup b')
    (ho : ∀ o ∈ b', OrderFit P Q' o) (hd : ∀ o ∈ b', o.filledQuantity ≤ T + q) :
    Exposure c P K X a' pos' b' (T + q) m Q' := by
  obtain ⟨hq, hw, hpos, _⟩ := changePosition_qty h.wf hc
  have hK : 0 ≤ K := by have := hR.price; have := hR.pos; omega
  have hfee := fee_bound (m := mk) (side := side) hR hf hp hP (by omega : 0 ≤ q)
  have g := changePosition_grow hR h.wf h.entry0 h.entry (by omega) hP hfee.1 hfee.2 hc
  refine ⟨h.cash.fill g (Int.mul_nonneg (by omega) hK), hw, g.entry.1, g.entry.2, ?_, by omega, hn,
    ho, hd⟩
  rw [hpos]
  have := abs_signed (x := pos.quantity) (side := side) (by omega : 0 ≤ q)
  have := h.hold
  omega

theorem Exposure.grow {c : Cfg} {P K X : Int} {a : Accounts} {pos : Position} {b : Book}
    {T m n Q Q' : Int} (h : Exposure c P K X a pos b T m Q) (hQ : Q ≤ Q') (hX : 0 ≤ X)
    (hm : m ≤ n) : Exposure c P K X a pos b T n Q' :=
  { h with
    cash := h.cash.mono hX hm
    room := by have := h.room; omega
    orders := fun o ho => { h.orders o ho with total := by have := (h.orders o ho).total; omega } }

/-! ## Filling a resting order -/

theorem fill_fit {c : Cfg} {P Q : Int} {o o' : Limit} {q ts : Int} {r} (h : OrderFit P Q o)
    (hf : o.fill c.scale q ts = .ok (o', r)) (hr : 0 < o'.remaining) : OrderFit P Q o' := by
  obtain ⟨_, _, h3, _, _, h6, h7, _⟩ := fill_fixed hf
  have hw : OrderWF (o.id + 1) o := ⟨by omega, h.price, h.rem, h.filled, fun x a hx =>
    (h.fq x a hx).1⟩
  obtain ⟨_, _, ht⟩ := fill_wf hw hf
  refine ⟨by rw [h3]; exact h.price, by rw [h3]; exact h.top, hr, ?_, by rw [ht]; exact h.total⟩
  intro x a hx
  have hp := h.price
  have hP := h.top
  simp only [Limit.fill, bind_ok, assertP_ok] at hf
  obtain ⟨_, _, _, _, hf⟩ := hf
  cases hfq : o.fq with
  | unfilled =>
    simp only [hfq] at hf
    have : o'.fq = .filled q o.price := by
      split at hf <;> simp only [ok_inj, Prod.mk.injEq] at hf <;> obtain ⟨rfl, _⟩ := hf <;> rfl
    rw [this] at hx; cases hx
    exact ⟨h7, by omega, hP⟩
  | filled y avg =>
    obtain ⟨f1, f2, f3⟩ := h.fq y avg hfq
    simp only [hfq, bind_ok] at hf
    obtain ⟨z, hz, hf⟩ := hf
    have hz' := newWeightedPrice_ok (e := c.env) hz
    have : o'.fq = .filled (y + q) z := by
      split at hf <;> simp only [ok_inj, Prod.mk.injEq] at hf <;> obtain ⟨rfl, _⟩ := hf <;> rfl
    rw [this] at hx; cases hx
    refine ⟨by omega, ?_, ?_⟩
    · rw [hz']
      exact (weighted_bounds c.env f2 (by omega) (by omega) (by omega) (by omega)).1
    · rw [hz']
      exact weighted_le c.env f2 (by omega) (by omega) (by omega) (by omega) f3 hP

/-- What a fill does to the order margin book. -/
theorem applyFill_kept {c : Cfg} {ts : Int} {l l' : Loop} {o o' : Limit} {q : Int}
    (hn : IdsNodup l.om) (ho : o ∈ l.om) (h : applyFill c ts l o q = .ok (l', o')) :
    ∃ xs ys, l.om = xs ++ o :: ys ∧ IdsNodup l'.om ∧
      ((o'.remaining = 0 ∧ l'.om.Perm (xs ++ ys)) ∨
        (0 < o'.remaining ∧ l'.om = xs ++ o' :: ys)) := by
  obtain ⟨r, hf, _, _, _, hm⟩ := applyFill_ok h
  obtain ⟨f1, f2, f3, _, _, f6, f7, f8⟩ := fill_fixed hf
  obtain ⟨xs, ys, hxy⟩ := List.append_of_mem ho
  have hnd : IdsNodup (xs ++ o :: ys) := hxy ▸ hn
  have hsplit := hnd.split.1
  refine ⟨xs, ys, hxy, ?_⟩
  cases r with
  | some f =>
    have h0 : o'.remaining = 0 := by
      simp only [Limit.fill, bind_ok, assertP_ok] at hf
      obtain ⟨_, _, _, _, hf⟩ := hf
      split at hf
      · split at hf <;> simp at hf
        obtain ⟨rfl, _⟩ := hf; simp_all
      · simp only [bind_ok] at hf
        obtain ⟨_, _, hf⟩ := hf
        split at hf <;> simp at hf
        obtain ⟨rfl, _⟩ := hf; assumption
    obtain ⟨y, hy⟩ := omRemove_ok hm.1
    simp only [Book.removeCancel, f1] at hy
    have hr := removeById_some hn hy
    refine ⟨hr.2.2.2.1, .inl ⟨h0, hr.2.2.1.trans (List.Perm.of_eq ?_)⟩⟩
    rw [hxy]
    simp only [List.filter_append, List.filter_cons, ne_eq, not_true_eq_false, decide_false,
      Bool.false_eq_true, if_false]
    congr 1 <;> rw [List.filter_eq_self] <;> intro x hx <;> simp [hsplit x (by simp [hx])]
  | none =>
    obtain ⟨hpos, h5⟩ := omUpdate_ok hm.1
    have h6 : l'.om = xs ++ o' :: ys := by
      rcases h5 with ⟨h5, _⟩ | ⟨old, h5, _, h6⟩
      · exact absurd f1.symm (getById_none.1 h5 o ho)
      · rw [h6, replaceFirst_eq_map hn, hxy]
        exact put_mid hnd f1
    refine ⟨?_, .inr ⟨hpos, h6⟩⟩
    rw [h6, ← put_mid hnd f1]
    exact hnd.map_put _

theorem qsum_append (xs ys : Book) : qsum (xs ++ ys) = qsum xs + qsum ys := by
  simp [qsum]

theorem qsum_cons (o : Limit) (b : Book) : qsum (o :: b) = o.remaining + qsum b := by
  simp [qsum]

theorem qsum_perm {b b' : Book} (h : b.Perm b') : qsum b = qsum b' := sum_perm (h.map _)

/-- After the fill of an order the book leaves room for the contracts. -/
theorem applyFill_room {c : Cfg} {P Q ts : Int} {l l' : Loop} {o o' : Limit} {q : Int}
    (hn : IdsNodup l.om) (ho : o ∈ l.om) (hfit : ∀ x ∈ l.om, OrderFit P Q x)
    (h : applyFill c ts l o q = .ok (l', o')) :
    qsum l'.om = qsum l.om - q ∧ IdsNodup l'.om ∧ (∀ x ∈ l'.om, OrderFit P Q x) ∧ 0 < q ∧
      q ≤ o.remaining ∧ o'.price = o.price ∧ o'.side = o.side ∧ l'.acct = l.acct ∧ l'.pos = l.pos ∧
      (∀ x ∈ l.om, x.id ≠ o.id → x ∈ l'.om) := by
  obtain ⟨xs, ys, hxy, hnd, hcase⟩ := applyFill_kept hn ho h
  obtain ⟨r, hf, ha, hp, _, _⟩ := applyFill_ok h
  obtain ⟨f1, f2, f3, _, _, f6, f7, f8⟩ := fill_fixed hf
  have hq : qsum l.om = qsum xs + (o.remaining + qsum ys) := by
    rw [hxy, qsum_append, qsum_cons]
  refine ⟨?_, hnd, ?_, f7, f8, f3, f2, ha, hp, ?_⟩
  · rcases hcase with ⟨h0, h1⟩ | ⟨_, h1⟩
    · rw [qsum_perm h1, qsum_append]; omega
    · rw [h1, qsum_append, qsum_cons]; omega
  · intro x hx
    rcases hcase with ⟨h0, h1⟩ | ⟨h0, h1⟩
    · rw [h1.mem_iff] at hx
      refine hfit x ?_
      rw [hxy]
      simp only [List.mem_append, List.mem_cons] at hx ⊢
      rcases hx with hx | hx <;> simp [hx]
    · rw [h1] at hx
      simp only [List.mem_append, List.mem_cons] at hx
      rcases hx with hx | rfl | hx
      · exact hfit x (by rw [hxy]; simp [hx])
      · exact fill_fit (hfit o ho) hf h0
      · exact hfit x (by rw [hxy]; simp [hx])
  · intro x hx hne
    rw [hxy] at hx
    simp only [List.mem_append, List.mem_cons] at hx
    rcases hcase with ⟨h0, h1⟩ | ⟨h0, h1⟩
    · rw [h1.mem_iff]
      rcases hx with hx | rfl | hx
      · simp [hx]
      · exact absurd rfl hne
      · simp [hx]
    · rw [h1]
      rcases hx with hx | rfl | hx
      · simp [hx]
      · exact absurd rfl hne
      · simp [hx]

/-- After the fill of an order. -/
theorem applyFill_done {c : Cfg} {T P Q ts : Int} {l l' : Loop} {o o' : Limit} {q : Int}
    (hn : IdsNodup l.om) (ho : o ∈ l.om) (hfit : ∀ x ∈ l.om, OrderFit P Q x)
    (hd : ∀ x ∈ l.om, x.filledQuantity ≤ T) (h : applyFill c ts l o q = .ok (l', o')) :
    ∀ x ∈ l'.om, x.filledQuantity ≤ T + q := by
  obtain ⟨xs, ys, hxy, hnd, hcase⟩ := applyFill_kept hn ho h
  obtain ⟨r, hf, ha, hp, _, _⟩ := applyFill_ok h
  obtain ⟨f1, f2, f3, _, _, f6, f7, f8⟩ := fill_fixed hf
  have hof := hfit o ho
  have hw : OrderWF (o.id + 1) o := ⟨by omega, hof.price, hof.rem, hof.filled, fun x a hx =>
    (hof.fq x a hx).1⟩
  obtain ⟨_, _, ht⟩ := fill_wf hw hf
  have hdo := hd o ho
  have hold : ∀ x ∈ l.om, x.filledQuantity ≤ T + q := fun x hx => by have := hd x hx; omega
  intro x hx
  rcases hcase with ⟨h0, h1⟩ | ⟨h0, h1⟩
  · rw [h1.mem_iff] at hx
    refine hold x ?_
    rw [hxy]
    simp only [List.mem_append, List.mem_cons] at hx ⊢
    rcases hx with hx | hx <;> simp [hx]
  · rw [h1] at hx
    simp only [List.mem_append, List.mem_cons] at hx
    rcases hx with hx | rfl | hx
    · exact hold x (by rw [hxy]; simp [hx])
    · omega
    · exact hold x (by rw [hxy]; simp [hx])

/-- After `applyFill` and `settleLimit`. -/
theorem Exposure.limitFill {c : Cfg} {P K X T m Q ts : Int} {l l1 l2 : Loop} {o o' : Limit} {q : Int}
    (h : Exposure c P K X l.acct l.pos l.om T m Q) (hR : Rates c.env c.spec.initMarginReq P K)
    (hf : FeeFit c) (ho : o ∈ l.om) (h1 : applyFill c ts l o q = .ok (l1, o'))
    (h2 : settleLimit c l1 o' q = .ok l2) :
    Exposure c P K X l2.acct l2.pos l2.om (T + q) m Q ∧
      l2.acct.balance .orderMargin = l.acct.balance .orderMargin := by
  obtain ⟨e1, e2, e3, e4, e5, e6, e7, e8, e9, _⟩ := applyFill_room h.nodup ho h.orders h1
  obtain ⟨hcp, ho2, _⟩ := settleLimit_ok h2
  rw [e8, e9, e6, e7] at hcp
  have hof := h.orders o ho
  obtain ⟨_, _, hq, hb⟩ := changePosition_qty h.wf hcp
  refine ⟨h.fill hR hf hof.price hof.top hcp ?_ (by rw [ho2]; exact e2) (by rw [ho2]; exact e3)
    (by rw [ho2]; exact applyFill_done h.nodup ho h.orders h.done h1), hb⟩
  rw [ho2, e1, hq]
  have := abs_signed (x := l.pos.quantity) (side := o.side) (by omega : 0 ≤ q)
  have := h.room
  omega

/-- Returning surplus order margin. -/
theorem Exposure.refund {c : Cfg} {P K X : Int} {a a' : Accounts} {pos : Position} {b : Book}
    {T m Q n : Int} (h : Exposure c P K X a pos b T m Q) (hn : 0 ≤ n)
    (hr : refund c.env a (a.balance .orderMargin) n = .ok a') :
    Exposure c P K X a' pos b T m Q := by
  rcases refund_ok hr with ⟨_, h1⟩ | ⟨_, rfl⟩
  · exact { h with cash := h.cash.release (by omega) h1 }
  · exact h

theorem Exposure.match {c : Cfg} {P K X T m Q : Int} {u : Update} {l l' : Loop} {o o' : Limit}
    (h : Exposure c P K X l.acct l.pos l.om T m Q) (hR : Rates c.env c.spec.initMarginReq P K)
    (hf : FeeFit c) (ho : o ∈ l.om) (hm : matchOrder c u l o = .ok (l', o')) :
    (∃ T', Exposure c P K X l'.acct l'.pos l'.om T' m Q ∧
      T' + fillSum (fills l.log) = T + fillSum (fills l'.log)) ∧
      (∀ x ∈ l.om, x.id ≠ o.id → x ∈ l'.om) := by
  simp only [matchOrder, bind_ok] at hm
  obtain ⟨r, hr, hm⟩ := hm
  cases r with
  | none =>
    simp only [ok_inj, Prod.mk.injEq] at hm; obtain ⟨rfl, rfl⟩ := hm
    exact ⟨⟨T, h, rfl⟩, fun x hx _ => hx⟩
  | some q =>
    simp only [bind_ok, debugP_ok, ok_inj, Prod.mk.injEq] at hm
    obtain ⟨_, _, _, _, ⟨l1, o1⟩, h1, l2, h2, l3, h3, rfl, rfl⟩ := hm
    obtain ⟨g1, g2⟩ := h.limitFill hR hf ho h1 h2
    have hmem := (applyFill_room h.nodup ho h.orders h1).2.2.2.2.2.2.2.2.2
    have hom := (settleLimit_ok h2).2.1
    simp only [releaseMargin, bind_ok, debugP_ok, ok_inj] at h3
    obtain ⟨n, hn, _, _, a, ha, rfl⟩ := h3
    rw [← g2] at ha
    have hn0 := (orderMargin_bound (new := none) hR g1.fair (by simp) hn).1
    have e1 := (settleLimit_ok h2).2.2.1
    obtain ⟨_, _, _, _, e2, _⟩ := applyFill_ok h1
    refine ⟨⟨_, g1.refund hn0 ha, ?_⟩, fun x hx hne => ?_⟩
    · simp only [e1, e2, fills, fillSum]; omega
    simp only
    rw [hom]
    exact hmem x hx hne

theorem Exposure.loop {c : Cfg} {P K X m Q : Int} {u : Update}
    (hR : Rates c.env c.spec.initMarginReq P K) (hf : FeeFit c) : ∀ {os : List Limit} {l l' : Loop}
    {os' : List Limit} {T : Int}, Exposure c P K X l.acct l.pos l.om T m Q → IdsNodup os →
      (∀ o ∈ os, o ∈ l.om) → matchLoop c u l os = .ok (l', os') →
      ∃ T', Exposure c P K X l'.acct l'.pos l'.om T' m Q ∧
        T' + fillSum (fills l.log) = T + fillSum (fills l'.log) := by
  intro os
  induction os with
  | nil =>
    intro l l' os' T h _ _ hm
    simp only [matchLoop, ok_inj, Prod.mk.injEq] at hm; obtain ⟨rfl, rfl⟩ := hm
    exact ⟨T, h, rfl⟩
  | cons o os ih =>
    intro l l' os' T h hn ho hm
    simp only [matchLoop, bind_ok, ok_inj, Prod.mk.injEq] at hm
    obtain ⟨⟨l1, o1⟩, h1, ⟨l2, os2⟩, h2, rfl, rfl⟩ := hm
    have hno := (IdsNodup.split (xs := []) hn).1
    have hn' := (IdsNodup.split (xs := []) hn).2
    simp only [List.nil_append] at hno hn'
    obtain ⟨⟨T1, g1, e1⟩, g2⟩ := h.match hR hf (ho o (by simp)) h1
    obtain ⟨T2, g3, e2⟩ := ih g1 hn' (fun x hx => g2 x (ho x (by simp [hx])) (hno x hx)) h2
    exact ⟨T2, g3, by simp only at e2 ⊢; omega⟩

end Lfest
