import Verif.Lemmas.Exposure

/-!
# How far the amounts can grow: calls
-/

namespace Lfest

open Spec

/-- The state after `m` limit order submissions, where `Q` covers the contracts traded and open. -/
structure Held (c : Cfg) (P K X : Int) (s : State) (m Q : Int) : Prop where
  exact : Exposure c P K X s.acct s.pos s.om (fillSum (fills s.log)) m Q
  inv : Inv c s
  bid0 : 0 ≤ s.ms.bid
  bid : s.ms.bid ≤ P
  ask0 : 0 ≤ s.ms.ask
  ask : s.ms.ask ≤ P

theorem Held.exp {c : Cfg} {P K X : Int} {s : State} {m Q : Int} (h : Held c P K X s m Q) :
    ∃ T, Exposure c P K X s.acct s.pos s.om T m Q := ⟨_, h.exact⟩

theorem Held.init {c : Cfg} {P K X : Int} (hP : 0 ≤ P) (hst : 0 ≤ c.start) :
    Held c P K X (State.init c) 0 0 := by
  refine ⟨⟨.init hst, trivial, ?_, ?_, ?_, ?_, ?_, ?_, ?_⟩, .init c, ?_, ?_, ?_, ?_⟩ <;>
    simp [fills, fillSum, State.init, Position.entryPrice, Position.quantity, Spec.abs, qsum, IdsNodup,
      MarketState.init] <;> omega

theorem Held.touch {c : Cfg} {P K X : Int} {s : State} {m Q : Int} (h : Held c P K X s m Q)
    (side : Side) : 0 ≤ touchPrice s.ms side ∧ touchPrice s.ms side ≤ P := by
  cases side
  · exact ⟨h.ask0, h.ask⟩
  · exact ⟨h.bid0, h.bid⟩

theorem Held.grow {c : Cfg} {P K X : Int} {s : State} {m n Q Q' : Int} (h : Held c P K X s m Q)
    (hQ : Q ≤ Q') (hX : 0 ≤ X) (hm : m ≤ n) : Held c P K X s n Q' := by
  exact { h with exact := h.exact.grow hQ hX hm }

theorem Held.congr {c : Cfg} {P K X : Int} {s s' : State} {m Q : Int} (h : Held c P K X s m Q)
    (h1 : s'.acct = s.acct) (h2 : s'.pos = s.pos) (h3 : s'.om = s.om) (h4 : s'.ms = s.ms)
    (hi : Inv c s') (h5 : fills s'.log = fills s.log := by rfl) : Held c P K X s' m Q := by
  exact ⟨by rw [h1, h2, h3, h5]; exact h.exact, hi, by rw [h4]; exact h.bid0, by rw [h4]; exact h.bid,
    by rw [h4]; exact h.ask0, by rw [h4]; exact h.ask⟩

theorem Held.market {c : Cfg} {P K X : Int} {s s' : State} {m Q Q' : Int} {o : NewMarket} {r}
    (hs : Held c P K X s m Q) (hR : Rates c.env c.spec.initMarginReq P K) (hf : FeeFit c)
    (hX : 0 ≤ X) (hQ : Q ≤ Q')
    (hroom : ∀ T, Exposure c P K X s.acct s.pos s.om T m Q →
      2 * qsum s.om + T + o.qty + Spec.abs (s.pos.quantity + signed o.side o.qty) ≤ 2 * Q')
    (h : submitMarket c s o = .ok (s', r)) : Held c P K X s' m Q' := by
  obtain ⟨f1, f2, f3, f4, _⟩ := submitMarket_fields h
  have hi : Inv c s' := hs.inv.congr f3 f4 f2
  have hT := hs.exact
  rcases submitMarket_cases h with ⟨_, _, rfl, _⟩ | ⟨_, ⟨_, _, rfl, _⟩ | ⟨_, _, hp, pos', a', hc, rfl, _⟩⟩
  · exact (hs.grow hQ hX (Int.le_refl m)).congr rfl rfl rfl rfl hi
  · exact (hs.grow hQ hX (Int.le_refl m)).congr rfl rfl rfl rfl hi
  · have hg := hT.grow hQ hX (Int.le_refl m)
    have hlt : ∀ x ∈ s.om, x.filledQuantity ≤ fillSum (fills s.log) + o.qty := fun x hx => by
      have := hg.done x hx; omega
    have hf' := hg.fill hR hf hp (hs.touch _).2 hc ?_ hg.nodup hg.orders hlt
    · refine ⟨?_, hi, hs.bid0, hs.bid, hs.ask0, hs.ask⟩
      simp only [fills, fillSum]
      rw [Int.add_comm]
      exact hf'
    rw [(changePosition_qty hT.wf hc).2.2.1]
    exact hroom _ hT

/-- A market order sent by the user. -/
theorem Held.order {c : Cfg} {P K X : Int} {s s' : State} {m Q : Int} {o : NewMarket} {r}
    (hs : Held c P K X s m Q) (hR : Rates c.env c.spec.initMarginReq P K) (hf : FeeFit c)
    (hX : 0 ≤ X) (hq : 0 < o.qty) (h : submitMarket c s o = .ok (s', r)) :
    Held c P K X s' m (Q + o.qty) := by
  refine hs.market hR hf hX (by omega) (fun T hT => ?_) h
  have h1 := abs_signed (x := s.pos.quantity) (side := o.side) (by omega : 0 ≤ o.qty)
  have h2 := hT.room
  omega

theorem liquidationOrder_ok {pos : Position} {o : NewMarket} (hw : PosWF pos)
    (h : liquidationOrder pos = .ok o) :
    0 < o.qty ∧ o.qty = Spec.abs pos.quantity ∧ pos.quantity + signed o.side o.qty = 0 := by
  cases pos with
  | neutral => simp [liquidationOrder] at h
  | long i =>
    have hw : 0 < i.qty := hw
    simp only [liquidationOrder] at h
    split at h
    · next x hx =>
      simp only [ok_inj] at h; subst h
      simp only [NewMarket.new] at hx
      split at hx <;> simp at hx
      subst hx
      simp [Position.quantity, signed, Spec.abs]; omega
    · cases h
  | short i =>
    have hw : 0 < i.qty := hw
    simp only [liquidationOrder] at h
    split at h
    · next x hx =>
      simp only [ok_inj] at h; subst h
      simp only [NewMarket.new] at hx
      split at hx <;> simp at hx
      subst hx
      simp [Position.quantity, signed, Spec.abs]; omega
    · cases h

/-- The market order of a liquidation needs no further room. -/
theorem Exposure.liquidation {c : Cfg} {P K X : Int} {a : Accounts} {pos : Position} {b : Book}
    {T m Q : Int} {o : NewMarket} (hT : Exposure c P K X a pos b T m Q)
    (ho : liquidationOrder pos = .ok o) :
    2 * qsum b + T + o.qty + Spec.abs (pos.quantity + signed o.side o.qty) ≤ 2 * Q := by
  obtain ⟨_, h2, h3⟩ := liquidationOrder_ok hT.wf ho
  have := hT.room
  rw [h3]; simp [Spec.abs] at *; omega

theorem Held.liquidate {c : Cfg} {P K X : Int} {s s' : State} {m Q : Int}
    (hs : Held c P K X s m Q) (hR : Rates c.env c.spec.initMarginReq P K) (hf : FeeFit c)
    (hX : 0 ≤ X) (h : liquidate c s = .ok s') : Held c P K X s' m Q := by
  simp only [Lfest.liquidate, bind_ok] at h
  obtain ⟨o, ho, ⟨s1, r⟩, h1, h⟩ := h
  cases r with
  | error e => simp at h
  | ok x =>
    simp only [ok_inj] at h; subst h
    exact hs.market hR hf hX (Int.le_refl Q) (fun T hT => hT.liquidation ho) h1

theorem Held.active {c : Cfg} {P K X : Int} {s s' : State} {m Q : Int} {u : Update}
    (hs : Held c P K X s m Q) (hR : Rates c.env c.spec.initMarginReq P K) (hf : FeeFit c)
    (hcap : c.maxOpen ≤ 10000) (h : checkActive c s u = .ok s') : Held c P K X s' m Q := by
  have hi := checkActive_inv hs.inv h
  cases hcf : u.canFill with
  | false =>
    have := checkActive_bba h hcf
    subst this
    exact hs.congr rfl rfl rfl rfl hi
  | true =>
    obtain ⟨l, orders, active', h1, h2, _, _, rfl⟩ := checkActive_ok h hcf
    obtain ⟨T, hT, e⟩ := Exposure.loop (l := s.loop) hR hf hs.exact hs.inv.nodup
      (fun o ho => by simp only [State.loop]; rw [hs.inv.sync hcap]; exact ho) h1
    have e : T = fillSum (fills l.log) := by simp only [State.loop] at e; omega
    subst e
    exact ⟨hT, hi, hs.bid0, hs.bid, hs.ask0, hs.ask⟩

theorem Held.cancel {c : Cfg} {P K X : Int} {s s' : State} {m Q : Int} {b : CancelBy} {r}
    (hs : Held c P K X s m Q) (hR : Rates c.env c.spec.initMarginReq P K)
    (hcap : c.maxOpen ≤ 10000) (h : cancelLimit c s b = .ok (s', r)) : Held c P K X s' m Q := by
  have hi := cancelLimit_inv hs.inv h
  have hT := hs.exact
  obtain ⟨_, ⟨_, rfl, _⟩ | ⟨removed, active', a, m', h1, _, hm', _, hre, _, rfl, _⟩⟩ :=
    cancelLimit_ok h
  · exact hs
  · obtain ⟨xs, ys, he, hp⟩ := removeCancel_some h1
    have hsub : ∀ x ∈ active', x ∈ s.om := by
      intro x hx
      rw [hp.mem_iff] at hx
      rw [hs.inv.sync hcap, he]
      simp only [List.mem_append, List.mem_cons] at hx ⊢
      rcases hx with hx | hx <;> simp [hx]
    have ho : ∀ x ∈ active', OrderFit P Q x := fun x hx => hT.orders x (hsub x hx)
    have hq : qsum active' ≤ qsum s.om := by
      rw [qsum_perm hp, hs.inv.sync hcap, he, qsum_append, qsum_append, qsum_cons]
      have := (hT.orders removed (by rw [hs.inv.sync hcap, he]; simp)).rem
      omega
    have hT' : Exposure c P K X s.acct s.pos active' (fillSum (fills s.log)) m Q :=
      { hT with room := by have := hT.room; omega, nodup := hi.nodup, orders := ho,
                done := fun x hx => hT.done x (hsub x hx) }
    have hn := (orderMargin_bound (new := none) hR hT'.fair (by simp) hm').1
    exact ⟨hT'.refund hn hre, hi, hs.bid0, hs.bid, hs.ask0, hs.ask⟩

/-! ## Submitting a limit order -/

theorem appendLimit_acct {c : Cfg} {s s' : State} {o : Limit} {r}
    (h : appendLimit c s o = .ok (s', r)) :
    s'.acct = s.acct ∨
      ∃ n, orderMargin c.env c.spec.initMarginReq s'.om s.pos = .ok n ∧
        transfer c.env s.acct .orderMargin .wallet (Spec.abs (n - s.acct.balance .orderMargin)) =
          .ok s'.acct ∧ 0 ≤ s'.acct.balance .wallet := by
  simp only [appendLimit, bind_ok] at h
  obtain ⟨r1, hr1, h⟩ := h
  split at h
  · simp only [ok_inj, Prod.mk.injEq] at h; obtain ⟨rfl, _⟩ := h; exact .inl rfl
  · next om' =>
    split at h
    · simp only [ok_inj, Prod.mk.injEq] at h; obtain ⟨rfl, _⟩ := h; exact .inl rfl
    · simp only [bind_ok] at h
      obtain ⟨n, hn, h⟩ := h
      split at h
      · next hlt =>
        simp only [bind_ok, ok_inj, Prod.mk.injEq] at h
        obtain ⟨a, ha, s3, hs, rfl, _⟩ := h
        obtain ⟨rfl, _, _, hw⟩ := appendChecks_ok hs
        refine .inr ⟨n, hn, ?_, hw⟩
        have e : Spec.abs (n - s.acct.balance .orderMargin) = n - s.acct.balance .orderMargin := by
          unfold Spec.abs; split <;> omega
        rw [e]; exact ha
      · split at h
        · next hlt =>
          simp only [bind_ok, ok_inj, Prod.mk.injEq] at h
          obtain ⟨a, ha, s3, hs, rfl, _⟩ := h
          obtain ⟨rfl, _, _, hw⟩ := appendChecks_ok hs
          refine .inr ⟨n, hn, ?_, hw⟩
          have e : Spec.abs (n - s.acct.balance .orderMargin) =
              s.acct.balance .orderMargin - n := by
            unfold Spec.abs; split <;> omega
          rw [e]; exact ha
        · simp only [ok_inj, Prod.mk.injEq] at h; obtain ⟨rfl, _⟩ := h; exact .inl rfl

/-- The amount reserved for an order is bounded. -/
theorem Exposure.reserveAmount {c : Cfg} {P K X QQ : Int} {a : Accounts} {pos : Position} {b : Book}
    {T m Q n : Int} (hT : Exposure c P K X a pos b T m Q)
    (hR : Rates c.env c.spec.initMarginReq P K) (hst : 0 ≤ c.start) (hQ : Q ≤ QQ)
    (hX : X = c.start * c.env.scale + 4 * (QQ * K))
    (hn : orderMargin c.env c.spec.initMarginReq b pos = .ok n) :
    Spec.abs (n - a.balance .orderMargin) * c.env.scale ≤ X := by
  have hs := scale_pos c.env
  have hK : 0 ≤ K := by have := hR.price; have := hR.pos; omega
  obtain ⟨n0, n1⟩ := orderMargin_bound (new := none) hR hT.fair (by simp) hn
  simp only [optQty, Option.map_none, Option.getD_none, Int.add_zero] at n1
  obtain ⟨q0, q1, t0, t1, _, _⟩ := hT.bounds
  have e1 := Int.mul_le_mul_of_nonneg_right (by omega : qsum b ≤ QQ) hK
  have e2 := Int.mul_le_mul_of_nonneg_right (by omega : T ≤ 2 * QQ) hK
  rw [Int.mul_assoc] at e2
  have e3 := hT.cash.ombal
  have e4 := Int.mul_nonneg (by have := hT.cash.omle; omega :
    0 ≤ a.orderMargin.debits - a.orderMargin.credits) (by omega : 0 ≤ c.env.scale)
  have e5 := Int.mul_nonneg n0 (by omega : 0 ≤ c.env.scale)
  have e6 := Int.mul_nonneg hst (by omega : 0 ≤ c.env.scale)
  have e7 := Int.mul_nonneg (by omega : 0 ≤ QQ) hK
  have hb : a.balance .orderMargin = a.orderMargin.debits - a.orderMargin.credits := rfl
  unfold Spec.abs
  split
  · rw [hb, Int.sub_mul]; omega
  · rw [hb, Int.neg_mul, Int.sub_mul]; omega

theorem Held.limit {c : Cfg} {P K X QQ : Int} {s s' : State} {m Q : Int} {o : NewLimit} {r}
    (hs : Held c P K X s m Q) (hR : Rates c.env c.spec.initMarginReq P K) (hX : 0 ≤ X)
    (hcap : c.maxOpen ≤ 10000) (hst : 0 ≤ c.start) (hp : 0 < o.price) (hP : o.price ≤ P)
    (hq : 0 < o.qty) (hXe : X = c.start * c.env.scale + 4 * (QQ * K)) (hQ : Q + o.qty ≤ QQ)
    (h : submitLimit c s o = .ok (s', r)) : Held c P K X s' (m + 1) (Q + o.qty) := by
  have hi := submitLimit_inv hp hq hs.inv h
  have hgr : Held c P K X s (m + 1) (Q + o.qty) := hs.grow (by omega) hX (by omega)
  rcases submitLimit_cases h with ⟨_, _, rfl, _⟩ | ⟨_, ⟨_, _, rfl, _⟩ | ⟨_, ⟨_, _, rfl, _⟩ |
    ⟨_, ⟨_, rfl, _⟩ | ⟨_, ra, ha, _⟩⟩⟩⟩
  · exact hgr.congr rfl rfl rfl rfl hi
  · exact hgr.congr rfl rfl rfl rfl hi
  · exact hgr.congr rfl rfl rfl rfl hi
  · exact hgr.congr rfl rfl rfl rfl hi
  · have hfresh : ∀ x ∈ s.active, x.id ≠ s.nextId := fun x hx => by
      have := (hs.inv.orders x hx).fresh; omega
    obtain ⟨⟨a, e⟩, hcase⟩ := appendLimit_arenas hfresh ha
    have hpos : s'.pos = s.pos := by rw [e]
    have hms : s'.ms = s.ms := by rw [e]
    rcases hcase with ⟨_, rfl, _⟩ | ⟨om', hom, rfl, _⟩
    · exact hgr.congr rfl rfl rfl rfl hi
    · have hT := hs.exact
      obtain ⟨hrem, hcase⟩ := omUpdate_ok hom
      have hom' : s'.om = s.om ++ [o.intoPending s.nextId s.ms.ts] := by
        rcases hcase with ⟨_, _, h1⟩ | ⟨old, h1, _⟩
        · exact h1
        · exfalso
          obtain ⟨h2, h3⟩ := getById_some h1
          simp only at h2
          rw [hs.inv.sync hcap] at h2
          exact hfresh old h2 h3
      have hT2 : Exposure c P K X s.acct s'.pos s'.om (fillSum (fills s.log)) m (Q + o.qty) := by
        have hg := hT.grow (by omega : Q ≤ Q + o.qty) hX (Int.le_refl m)
        have hq0 := hT.bounds.2.2.1
        have hb := hT.bounds
        rw [hpos]
        refine { hg with room := ?_, nodup := ?_, orders := ?_, done := ?_ }
        · rw [hom', qsum_append, qsum_cons]
          have := hT.room
          simp [NewLimit.intoPending, qsum] at *
          omega
        · rw [hi.sync hcap]; exact hi.nodup
        · intro x hx
          rw [hom'] at hx
          simp only [List.mem_append, List.mem_singleton] at hx
          rcases hx with hx | rfl
          · exact hg.orders x hx
          · refine ⟨hp, hP, hq, by simp [NewLimit.intoPending], ?_⟩
            simp [NewLimit.intoPending, Limit.filledQuantity]
            omega
        · intro x hx
          rw [hom'] at hx
          simp only [List.mem_append, List.mem_singleton] at hx
          rcases hx with hx | rfl
          · exact hg.done x hx
          · simpa [NewLimit.intoPending, Limit.filledQuantity] using hb.2.2.1
      have hlog : fills s'.log = fills s.log := by rw [e]; rfl
      refine ⟨?_, hi, by rw [hms]; exact hs.bid0, by rw [hms]; exact hs.bid,
        by rw [hms]; exact hs.ask0, by rw [hms]; exact hs.ask⟩
      rw [hlog]
      rcases appendLimit_acct ha with h1 | ⟨n, hn, ht, hw⟩
      · rw [h1]
        exact hT2.grow (Int.le_refl _) hX (by omega)
      · simp only at hn ht
        rw [← hpos] at hn
        exact { hT2 with cash := hT2.cash.reserve (hT2.reserveAmount hR hst hQ hXe hn) ht hw }

theorem Held.amend {c : Cfg} {P K X QQ : Int} {s s' : State} {m Q : Int} {id : Nat} {o : NewLimit}
    {r} (hs : Held c P K X s m Q) (hR : Rates c.env c.spec.initMarginReq P K) (hX : 0 ≤ X)
    (hcap : c.maxOpen ≤ 10000) (hst : 0 ≤ c.start) (hp : 0 < o.price) (hP : o.price ≤ P)
    (hq : 0 < o.qty) (hXe : X = c.start * c.env.scale + 4 * (QQ * K)) (hQ : Q + o.qty ≤ QQ)
    (h : amendLimit c s id o = .ok (s', r)) : Held c P K X s' (m + 1) (Q + o.qty) := by
  have hgr : ∀ {x}, Held c P K X x m Q → Held c P K X x (m + 1) (Q + o.qty) :=
    fun hx => hx.grow (by omega) hX (by omega)
  rcases amendLimit_cases h with ⟨_, rfl, _⟩ | ⟨old, total, hold, htot, ⟨_, _, x, hc⟩ |
    ⟨hpos, ⟨err, hc, _⟩ | ⟨s1, x, hc, hsub⟩⟩⟩
  · exact hgr hs
  · exact hgr (hs.cancel hR hcap hc)
  · exact hgr (hs.cancel hR hcap hc)
  · have h1 := hs.cancel hR hcap hc
    obtain ⟨hmem, _⟩ := getById_some hold
    have hle : old.remaining ≤ total := by
      have := (hs.inv.orders old hmem).cum
      have hfq := (hs.inv.orders old hmem).fq
      simp only [Limit.totalQuantity, bind_ok, assertP_ok, ok_inj] at htot
      obtain ⟨_, _, rfl⟩ := htot
      split
      · omega
      · next hx => have := hfq _ _ hx; omega
    have h2 := h1.limit (o := { o with qty := old.remaining + (o.qty - total) }) hR hX hcap hst hp hP
      hpos hXe (by simp only; omega) hsub
    exact h2.grow (by simp only; omega) hX (Int.le_refl _)

end Lfest
