import Verif.Lemmas.Line
import Verif.Props.Ledger

/-!
# Margin of the active orders (C24–C27, C57)
-/

namespace Lfest

open Spec

/-! ## C25 -/

/-- C25: `order_margin` computes the requirement of the specification for every list of orders
with non-negative remaining quantities, and every position. -/
theorem C25_order_margin_formula (c : Cfg) (os : List Limit) (pos : Position) (m : Int)
    (hp : ∀ p, pos = .long p ∨ pos = .short p → 0 < p.qty) (hos : ∀ o ∈ os, 0 ≤ o.remaining)
    (h : orderMargin c.env c.spec.initMarginReq os pos = .ok m) :
    m = marginReq c os pos.quantity := by
  refine orderMargin_ok ?_ hos h
  cases pos with
  | neutral => trivial
  | long p => exact hp p (.inl rfl)
  | short p => exact hp p (.inr rfl)

/-- C25: the same for `order_margin_with_order`, with the new order in the last place. -/
theorem C25_order_margin_with_order (c : Cfg) (os : List Limit) (o : Limit) (pos : Position)
    (m : Int) (hp : ∀ p, pos = .long p ∨ pos = .short p → 0 < p.qty)
    (hos : ∀ x ∈ os ++ [o], 0 ≤ x.remaining)
    (h : orderMarginWithOrder c.env c.spec.initMarginReq os pos o = .ok m) :
    m = marginReq c (os ++ [o]) pos.quantity := by
  refine orderMarginInternal_ok (new := some o) ?_ hos h
  cases pos with
  | neutral => trivial
  | long p => exact hp p (.inl rfl)
  | short p => exact hp p (.inr rfl)

/-- C25: after every successful cancellation the order margin balance is the requirement of
the orders that are left. -/
theorem C25_after_cancel (c : Cfg) (s s' : State) (b : CancelBy) (o : Limit)
    (hr : Reachable c s) (h : step c s (.cancel b) = .ok (s', .limit (.ok o))) :
    s'.acct.balance .orderMargin = marginReq c s'.active s'.pos.quantity := by
  rcases step_cases h with ⟨_, _, _, he, _⟩ | ⟨_, _, he, _⟩ | ⟨err, _, he⟩ |
    ⟨_, _, _, _, he, _⟩ | ⟨_, _, _, _, x, he, _⟩ | ⟨_, _, _, _, _, _, he, _⟩ | ⟨_, _, he, h, hx⟩
  all_goals try (cases he)
  cases hx
  rcases cancelLimit_margin hr.inv hr.linv.wf h with ⟨_, hh, _⟩ | ⟨_, _, hh⟩
  · simp at hh
  · exact hh

/-- C25: an accepted limit order moves the distance between the order margin balance and the
new requirement from the wallet to the order margin account. (If the balance was above the
requirement, this is the wrong direction, see `C24_submit_moves_wrong_way`.) -/
theorem C25_after_limit (c : Cfg) (s s' : State) (side : Side) (price qty : Int) (uid : Nat)
    (o : Limit) (hr : Reachable c s) (hcap : c.maxOpen ≤ 10000)
    (h : step c s (.limit side price qty uid) = .ok (s', .limit (.ok o))) :
    s'.active = s.active ++ [o] ∧ s'.pos = s.pos ∧
    (let moved := Spec.abs (marginReq c s'.active s.pos.quantity - s.acct.balance .orderMargin)
     s'.acct.balance .orderMargin = s.acct.balance .orderMargin + moved ∧
     s'.acct.balance .wallet = s.acct.balance .wallet - moved) := by
  rcases step_cases h with ⟨_, _, _, he, _⟩ | ⟨_, _, he, _⟩ | ⟨err, _, he⟩ |
    ⟨_, _, _, _, he, _⟩ | ⟨_, _, _, _, x, he, hp, hq, h, hx⟩ | ⟨_, _, _, _, _, _, he, _⟩ |
    ⟨_, _, he, _⟩
  all_goals try (cases he)
  cases hx
  exact (submitLimit_margin hp hq hr.inv hr.linv.wf hcap h).2

/-- The formula on a long position of 5 with sells 3 @ 110, 4 @ 105 and a buy 2 @ 95: the
position covers the four at 105 and one at 110, 2 @ 110 remain; the buy side is worth 190. -/
example : orderMargin Ex.lin.env Ex.lin.spec.initMarginReq
    [⟨0, .sell, Ex.d 110, Ex.d 3, 1, 0, .unfilled⟩, ⟨0, .sell, Ex.d 105, Ex.d 4, 2, 0, .unfilled⟩,
     ⟨0, .buy, Ex.d 95, Ex.d 2, 3, 0, .unfilled⟩] (.long ⟨Ex.d 5, Ex.d 101, 0⟩) = .ok (Ex.d 220) ∧
  marginReq Ex.lin
    [⟨0, .sell, Ex.d 110, Ex.d 3, 1, 0, .unfilled⟩, ⟨0, .sell, Ex.d 105, Ex.d 4, 2, 0, .unfilled⟩,
     ⟨0, .buy, Ex.d 95, Ex.d 2, 3, 0, .unfilled⟩] (Ex.d 5) = Ex.d 220 := by decide +kernel

/-- A cancellation and a submission on a reachable state with resting orders. -/
example : Ex.last Ex.lin Ex.ops2 (.cancel (.orderId 1))
    (fun s s' r => decide (s.active.length = 2 ∧ s'.active.length = 1 ∧
      s'.acct.balance .orderMargin = Ex.d 190 ∧
      Ex.isOk r = true)) = true := by decide +kernel

example : Ex.last Ex.lin Ex.ops2 (.limit .buy (Ex.d 90) (Ex.d 1) 0)
    (fun s s' r => decide (s.acct.balance .orderMargin = Ex.d 190 ∧
      s'.acct.balance .orderMargin = Ex.d 280 ∧
      Ex.isOk r = true)) = true := by decide +kernel

/-! ## C26 -/

/-- C26: one more order never lowers the requirement. -/
theorem C26_adding_never_lowers (c : Cfg) (os : List Limit) (o : Limit) (pos : Int)
    (hi : 0 ≤ c.spec.initMarginReq)
    (hg : ∀ x ∈ os ++ [o], 0 < x.price ∧ 0 ≤ x.remaining) :
    marginReq c os pos ≤ marginReq c (os ++ [o]) pos :=
  marginReq_append hg hi

/-- C26 for the API: when the order margin balance is not above the requirement, an accepted
limit order brings it exactly to the new requirement and never lowers it. -/
theorem C26_submission_reserves (c : Cfg) (s s' : State) (side : Side) (price qty : Int)
    (uid : Nat) (o : Limit) (hr : Reachable c s) (hcap : c.maxOpen ≤ 10000)
    (hi : 0 ≤ c.spec.initMarginReq)
    (hle : s.acct.balance .orderMargin ≤ marginReq c s.active s.pos.quantity)
    (h : step c s (.limit side price qty uid) = .ok (s', .limit (.ok o))) :
    s'.acct.balance .orderMargin = marginReq c s'.active s'.pos.quantity ∧
    s.acct.balance .orderMargin ≤ s'.acct.balance .orderMargin := by
  obtain ⟨h1, h2, h3, _⟩ := C25_after_limit c s s' side price qty uid o hr hcap h
  have hI' := (hr.step h).inv
  have := marginReq_append (c := c) (os := s.active) (o := o) (pos := s.pos.quantity)
    (fun x hx => by
      rw [← h1] at hx
      have := hI'.orders x hx; exact ⟨this.price, Int.le_of_lt this.rem⟩) hi
  rw [← h1] at this
  rw [h2, h3]
  unfold Spec.abs
  split <;> omega

/-- The hypotheses hold after `ops2`, where a submission raises the balance. -/
example : Ex.last Ex.lin Ex.ops2 (.limit .buy (Ex.d 90) (Ex.d 1) 0)
    (fun s s' _ => decide (s.acct.balance .orderMargin = marginReq Ex.lin s.active s.pos.quantity ∧
      s'.acct.balance .orderMargin = marginReq Ex.lin s'.active s'.pos.quantity ∧
      s.acct.balance .orderMargin < s'.acct.balance .orderMargin)) = true := by decide +kernel

/-! ## C27 -/

/-- C27: cancelling an order never raises the requirement, provided the orders that would
reduce the position have distinct prices. (In particular when the account is flat or all
orders are on the side of the position.) `os'` is any arrangement of the remaining orders. -/
theorem C27_cancel_never_raises (c : Cfg) (xs ys os' : List Limit) (o : Limit) (pos : Int)
    (hi : 0 ≤ c.spec.initMarginReq)
    (hg : ∀ x ∈ xs ++ o :: ys, 0 < x.price ∧ 0 ≤ x.remaining)
    (hd : distinctPrices ((xs ++ o :: ys).filter (fun o => decide (0 < opposing pos o.side))))
    (hp : os'.Perm (xs ++ ys)) :
    marginReq c os' pos ≤ marginReq c (xs ++ o :: ys) pos :=
  marginReq_remove hi hg hd hp

/-- C27 for the API: when the order margin balance is in line and the orders that would reduce
the position have distinct prices, a cancellation that names an active order succeeds: no
assertion of `cancel_limit_order` fails. -/
theorem C27_cancel_succeeds (c : Cfg) (s : State) (b : CancelBy) (hr : Reachable c s)
    (hcap : c.maxOpen ≤ 10000) (hi : 0 ≤ c.spec.initMarginReq ∧ c.spec.initMarginReq ≤ c.scale)
    (hline : inLine c s)
    (hd : distinctPrices (s.active.filter (fun o => decide (0 < opposing s.pos.quantity o.side))))
    (hex : ∃ o ∈ s.active, named b o) :
    ∃ s' o, step c s (.cancel b) = .ok (s', .limit (.ok o)) := by
  have hI := hr.inv
  have hg : GoodOrders s.active := fun x hx => by
    have := hI.orders x hx; exact ⟨this.price, Int.le_of_lt this.rem⟩
  have hw := hr.linv.wf
  have hrem : ∃ o b', s.active.removeCancel b = some (o, b') := by
    obtain ⟨o, ho, hn⟩ := hex
    cases hx : s.active.removeCancel b with
    | some r => exact ⟨r.1, r.2, rfl⟩
    | none =>
      exfalso
      cases b with
      | orderId id =>
        have := removeBy_none.1 (hx : Book.removeBy _ _ = none) o ho
        simp [named] at hn; simp [hn] at this
      | userOrderId id =>
        have := removeBy_none.1 (hx : Book.removeBy _ _ = none) o ho
        simp [named] at hn; simp [hn] at this
  obtain ⟨o, b', hb'⟩ := hrem
  obtain ⟨xs, ys, hxy, hp⟩ := removeCancel_some hb'
  have hgb : GoodOrders b' := by
    refine GoodOrders.perm (fun x hx => hg x ?_) hp.symm
    rw [hxy]
    simp only [List.mem_append, List.mem_cons] at hx ⊢
    rcases hx with h | h <;> simp [h]
  have hle : marginReq c b' s.pos.quantity ≤ marginReq c s.active s.pos.quantity := by
    rw [hxy] at hd hg ⊢
    exact marginReq_remove hi.1 hg hd hp
  have hsums : s.acct.debitSum = s.acct.creditSum := hr.linv.sums
  unfold inLine at hline
  have href : ∃ a, refund c.env s.acct (s.acct.balance .orderMargin)
      (marginReq c b' s.pos.quantity) = .ok a ∧
      a.balance .orderMargin = marginReq c b' s.pos.quantity := by
    unfold refund
    split
    · next hlt =>
      obtain ⟨a, ha⟩ := transfer_total (e := c.env) (d := .wallet) (c := .orderMargin) hsums
        (x := s.acct.balance .orderMargin - marginReq c b' s.pos.quantity) (by omega) (by simp)
      refine ⟨a, ha, ?_⟩
      rw [transfer_balance ha]; simp; omega
    · exact ⟨_, rfl, by omega⟩
  obtain ⟨a, ha, hab⟩ := href
  have hsync := hI.sync hcap
  refine ⟨{ s with active := b', om := b', acct := a, log := .limitCancel :: s.log }, o, ?_⟩
  have : cancelLimit c s b =
      .ok ({ s with active := b', om := b', acct := a, log := .limitCancel :: s.log }, .ok o) := by
    simp only [cancelLimit, bind_ok, assertP_ok]
    refine ⟨_, by rw [hsync]; exact orderMargin_total c hw hg (fun _ => hi.2), (), hline, ?_⟩
    simp only [hb', bind_ok, assertP_ok]
    refine ⟨b', ?_, _, orderMargin_total c hw hgb (fun _ => hi.2), (), by omega, a, ha, (), rfl, (),
      ?_, rfl⟩
    · simp only [omRemove, bind_ok, expectSome_ok, hsync, ok_inj]
      exact ⟨_, hb', rfl⟩
    · rintro rfl
      rw [hab]
      simp [marginReq, sideValue, larger, share]
  simp only [step, this]
  rfl

/-- Both resting orders of `ops2` are covered by the theorem. -/
example : Ex.after Ex.lin Ex.ops2 (fun s =>
    decide (s.active.length = 2 ∧ s.acct.balance .orderMargin =
      marginReq Ex.lin s.active s.pos.quantity ∧ distinctPrices (s.active.filter
        (fun o => decide (0 < opposing s.pos.quantity o.side))) ∧
      (∃ o ∈ s.active, 0 < opposing s.pos.quantity o.side) ∧
      (∃ o ∈ s.active, o.id = 1))) = true := by
  decide +kernel


/-- One decimal place, no fees, steps of one unit in the last place. -/
def Ex.tick : Cfg :=
  ⟨⟨.linear, 1, true⟩, 10000, 10, ⟨10, 5, ⟨none, none, 1, 0, 0⟩, ⟨none, none, 1⟩, 0, 0⟩, 3600⟩

/-- Buy 0.7 at 0.3, rest sells of 0.1, 1.0 and 1.4 at 0.2. -/
def Ex.tickOps : List Op :=
  [.update (.bba ⟨1, 3, 1⟩), .market .buy 7 0, .limit .sell 2 1 0, .limit .sell 2 10 0,
   .limit .sell 2 14 0]

/-- C27 fails with equal prices: the removal moves the last order to the front, the position
then covers other orders, and because of rounding the requirement rises from 0.2 to 0.3. The
cancellation panics although the order margin was in line. -/
theorem C27_cancel_raises : ∃ c s, Reachable c s ∧ inLine c s ∧ c.maxOpen ≤ 10000 ∧
    0 ≤ c.spec.initMarginReq ∧ c.spec.initMarginReq ≤ c.scale ∧
    (∃ o ∈ s.active, o.id = 1) ∧
    step c s (.cancel (.orderId 1)) = .error .cancelMarginIncrease := by
  obtain ⟨s, hr, hp, h⟩ := Ex.crash_reach (c := Ex.tick) (ops := Ex.tickOps)
    (op := .cancel (.orderId 1)) (p := .cancelMarginIncrease)
    (f := fun s => decide (s.acct.balance .orderMargin =
      marginReq Ex.tick s.active s.pos.quantity ∧ ∃ o ∈ s.active, o.id = 1)) (by decide +kernel)
  simp only [decide_eq_true_eq] at hp
  exact ⟨Ex.tick, s, hr, hp.1, by decide, by decide, by decide, hp.2, h⟩

/-! ## C57 -/

/-- C57: if all orders are on the side that reduces the position and together do not exceed
it, the margin computed for them is zero. -/
theorem C57_covered_orders_are_free (c : Cfg) (os : List Limit) (pos : Position) (m : Int)
    (hp : ∀ p, pos = .long p ∨ pos = .short p → 0 < p.qty) (hg : ∀ o ∈ os, 0 ≤ o.remaining)
    (hs : ∀ o ∈ os, 0 < opposing pos.quantity o.side)
    (hq : (os.map Limit.remaining).sum ≤ Spec.abs pos.quantity)
    (h : orderMargin c.env c.spec.initMarginReq os pos = .ok m) : m = 0 := by
  rw [C25_order_margin_formula c os pos m hp hg h]
  exact covered_free c os pos.quantity hg hs hq

/-- C57: a limit order that is accepted next to nothing but covered orders, itself included,
takes nothing from the wallet. -/
theorem C57_covered_submission (c : Cfg) (s s' : State) (side : Side) (price qty : Int)
    (uid : Nat) (o : Limit) (hr : Reachable c s) (hcap : c.maxOpen ≤ 10000)
    (h : step c s (.limit side price qty uid) = .ok (s', .limit (.ok o)))
    (h0 : s.acct.balance .orderMargin = 0)
    (hs : ∀ o ∈ s'.active, 0 < opposing s.pos.quantity o.side)
    (hq : (s'.active.map Limit.remaining).sum ≤ Spec.abs s.pos.quantity) :
    s'.acct.balance .orderMargin = 0 ∧ s'.acct.balance .wallet = s.acct.balance .wallet := by
  obtain ⟨_, hp, h1, h2⟩ := C25_after_limit c s s' side price qty uid o hr hcap h
  have hg : ∀ o ∈ s'.active, 0 ≤ o.remaining :=
    fun o ho => Int.le_of_lt ((hr.step h).inv.orders o ho).rem
  have := covered_free c s'.active s.pos.quantity hg hs hq
  rw [this, h0] at h1 h2
  simp [Spec.abs] at h1 h2
  exact ⟨h1, h2⟩

/-- Two sells within a long position of 5. -/
example : orderMargin Ex.lin.env Ex.lin.spec.initMarginReq
    [⟨0, .sell, Ex.d 110, Ex.d 3, 1, 0, .unfilled⟩, ⟨0, .sell, Ex.d 105, Ex.d 2, 2, 0, .unfilled⟩]
    (.long ⟨Ex.d 5, Ex.d 100, 0⟩) = .ok 0 := by decide +kernel

/-- One unit more needs margin. -/
example : orderMargin Ex.lin.env Ex.lin.spec.initMarginReq
    [⟨0, .sell, Ex.d 110, Ex.d 3, 1, 0, .unfilled⟩, ⟨0, .sell, Ex.d 105, Ex.d 3, 2, 0, .unfilled⟩]
    (.long ⟨Ex.d 5, Ex.d 100, 0⟩) = .ok (Ex.d 110) := by decide +kernel

/-- A sell of 3 at 110 within a long position of 5 is accepted for free. -/
example : Ex.last Ex.lin [.update (.bba ⟨Ex.d 100, Ex.d 101, 1⟩), .market .buy (Ex.d 5) 0]
    (.limit .sell (Ex.d 110) (Ex.d 3) 1)
    (fun s s' r => Ex.isOk r && decide (s.acct.balance .orderMargin = 0 ∧
      (∀ o ∈ s'.active, 0 < opposing s.pos.quantity o.side) ∧
      (s'.active.map Limit.remaining).sum ≤ Spec.abs s.pos.quantity ∧ s'.active ≠ [])) = true := by
  decide +kernel

/-! ## C24 -/

/-- C24, one call: the order margin balance stays equal to the requirement under every call
that does not execute a market order, in debug builds without exception (otherwise the call
panics), in release builds if the fills of the update are orderly: they enlarge the position,
or hit only the best priced order of a side, and no two active orders of a side have the same
price. -/
theorem C24_order_margin_in_line (c : Cfg) (s s' : State) (op : Op) (r : Resp)
    (hr : Reachable c s) (hcap : c.maxOpen ≤ 10000) (hi : 0 ≤ c.spec.initMarginReq)
    (hl : inLine c s) (ht : ¬ taker op r) (ho : c.env.debug = true ∨ orderly s op)
    (hst : step c s op = .ok (s', r)) : inLine c s' := by
  have hI := hr.inv
  have hw := hr.linv.wf
  have hw' : PosWF s'.pos := (hr.step hst).linv.wf
  rcases step_cases hst with ⟨a, u, x, rfl, hb, h, rfl⟩ | ⟨a, u, rfl, hb, h, rfl⟩ | ⟨err, rfl, _⟩ |
    ⟨_, _, _, x, rfl, _, h, rfl⟩ | ⟨_, _, _, _, x, rfl, hp, hq, h, rfl⟩ |
    ⟨_, _, _, _, _, x, rfl, hp, hq, h, rfl⟩ | ⟨_, x, rfl, h, rfl⟩
  · simp only [updateState, bind_ok] at h
    obtain ⟨s1, h1, h⟩ := h
    obtain ⟨e1, e2, e3, e4, e5, _⟩ := observe_fields h1
    have hI1 : Inv c s1 := hI.congr e3 e4 (by omega)
    split at h
    · simp only [bind_ok, ok_inj, Prod.mk.injEq] at h
      obtain ⟨_, _, _, rfl⟩ := h
      exact absurd trivial ht
    · simp only [bind_ok, ok_inj, Prod.mk.injEq] at h
      obtain ⟨s2, h2, rfl, rfl⟩ := h
      refine checkActive_orderly hb hI1 (e2 ▸ hw) hcap hi ?_ ?_ h2 hw'
      · unfold inLine at *; rw [e1, e2, e3]; exact hl
      · rcases ho with h | h
        · exact .inl h
        · right; simp only [orderly, cleanFills] at h ⊢; rw [e2, e3]; exact h
  · exact checkActive_orderly hb hI hw hcap hi hl ho h hw'
  · exact hl
  · cases x with
    | ok f => exact absurd trivial ht
    | error err =>
      rcases submitMarket_cases h with ⟨_, _, rfl, _⟩ | ⟨_, ⟨_, _, rfl, _⟩ | ⟨_, _, _, _, _, _, _, he⟩⟩
      · exact hl
      · exact hl
      · simp at he
  · exact submitLimit_line (o := ⟨_, _, _, _⟩) hp hq hI hw hcap hi hl h
  · rcases amendLimit_cases h with ⟨_, rfl, _⟩ | ⟨old, total, _, _, ⟨_, _, x, hc⟩ | ⟨hq', h⟩⟩
    · exact hl
    · exact cancelLimit_line hI hw hl hc
    · rcases h with ⟨err, hc, _⟩ | ⟨s1, x, hc, hs⟩
      · exact cancelLimit_line hI hw hl hc
      · have hpos := (cancelLimit_fields hc).2.2.1
        exact submitLimit_line (o := ⟨_, _, _, _⟩) hp hq' (cancelLimit_inv hI hc) (hpos ▸ hw) hcap hi
          (cancelLimit_line hI hw hl hc) hs
  · exact cancelLimit_line hI hw hl h

/-- C24, the other calls: a market order and a liquidation leave the active orders and the order
margin balance as they are, although they change the position and with it the requirement. The
balance is in line afterwards only if the requirement happens to be the same. -/
theorem C24_taker (c : Cfg) (s s' : State) (op : Op) (r : Resp) (hr : Reachable c s)
    (ht : taker op r) (hst : step c s op = .ok (s', r)) :
    s'.active = s.active ∧ s'.acct.balance .orderMargin = s.acct.balance .orderMargin ∧
    (inLine c s → (inLine c s' ↔
      marginReq c s.active s'.pos.quantity = marginReq c s.active s.pos.quantity)) := by
  have hw : PosWF s.pos := hr.linv.wf
  have key : s'.active = s.active ∧
      s'.acct.balance .orderMargin = s.acct.balance .orderMargin := by
    rcases step_cases hst with ⟨a, u, x, rfl, hb, h, rfl⟩ | ⟨a, u, rfl, hb, h, rfl⟩ | ⟨err, rfl, rfl⟩ |
      ⟨_, _, _, x, rfl, _, h, rfl⟩ | ⟨_, _, _, _, x, rfl, hp, hq, h, rfl⟩ |
      ⟨_, _, _, _, _, x, rfl, _, _, h, rfl⟩ | ⟨_, x, rfl, h, rfl⟩
    · simp only [updateState, bind_ok] at h
      obtain ⟨s1, h1, h⟩ := h
      obtain ⟨e1, e2, e3, _⟩ := observe_fields h1
      split at h
      · simp only [bind_ok, ok_inj, Prod.mk.injEq] at h
        obtain ⟨s2, h2, rfl, _⟩ := h
        obtain ⟨_, _, e4, _⟩ := liquidate_fields h2
        refine ⟨by rw [e4, e3], ?_⟩
        simp only [liquidate, bind_ok] at h2
        obtain ⟨o, _, ⟨s3, r3⟩, h3, h4⟩ := h2
        have hm := submitMarket_reserved (by rw [e2]; exact hw) h3
        cases r3 with
        | error _ => simp at h4
        | ok _ => simp only [ok_inj] at h4; subst h4; rw [hm, e1]
      · simp only [bind_ok, ok_inj, Prod.mk.injEq] at h
        obtain ⟨s2, h2, rfl, rfl⟩ := h
        exact absurd ht (by simp [taker])
    · exact absurd ht (by simp [taker])
    · exact ⟨rfl, rfl⟩
    · exact ⟨(submitMarket_fields h).2.2.1, submitMarket_reserved hw h⟩
    · exact absurd ht (by simp [taker])
    · exact absurd ht (by simp [taker])
    · exact absurd ht (by simp [taker])
  refine ⟨key.1, key.2, fun hl => ?_⟩
  unfold inLine at *
  rw [key.1, key.2, hl]
  exact ⟨Eq.symm, Eq.symm⟩

/-- A market order that leaves the requirement out of line: long 3 covers the resting sale of 3. -/
example : Ex.last Ex.lin [.update (.bba ⟨Ex.d 100, Ex.d 101, 1⟩), .limit .sell (Ex.d 110) (Ex.d 3) 0]
    (.market .buy (Ex.d 3) 0) (fun s s' r => Ex.isOk r && decide (
      s.acct.balance .orderMargin = marginReq Ex.lin s.active s.pos.quantity ∧
      s'.acct.balance .orderMargin = 33000000 ∧
      marginReq Ex.lin s'.active s'.pos.quantity = 0)) = true := by decide +kernel

/-- C24, fills in every build: an update that does not liquidate either fills nothing and leaves
account and position as they are, or it leaves the order margin balance at most at the requirement
and does not increase it: fills only ever release order margin. -/
theorem C24_fills_release (c : Cfg) (s s' : State) (u : UpdateArg) (ups : List LimitUpdate)
    (hr : Reachable c s) (hcap : c.maxOpen ≤ 10000)
    (hst : step c s (.update u) = .ok (s', .update (.ok ups))) :
    (s'.acct = s.acct ∧ s'.pos = s.pos) ∨
    (s'.acct.balance .orderMargin ≤ marginReq c s'.active s'.pos.quantity ∧
      s'.acct.balance .orderMargin ≤ s.acct.balance .orderMargin) := by
  have hr' := hr.step hst
  have hw : PosWF s.pos := hr.linv.wf
  have hw' : PosWF s'.pos := hr'.linv.wf
  simp only [step, bind_ok] at hst
  obtain ⟨u', _, ⟨s1, r⟩, h, hst⟩ := hst
  simp only [ok_inj, Prod.mk.injEq, Resp.update.injEq] at hst
  obtain ⟨rfl, rfl⟩ := hst
  simp only [updateState, bind_ok] at h
  obtain ⟨s2, h1, h⟩ := h
  obtain ⟨e1, e2, _⟩ := observe_fields h1
  split at h
  · simp only [bind_ok, ok_inj, Prod.mk.injEq] at h
    obtain ⟨s3, _, _, h⟩ := h
    simp at h
  · simp only [bind_ok, ok_inj, Prod.mk.injEq] at h
    obtain ⟨s3, h2, rfl, _⟩ := h
    rcases checkActive_release (by rw [e2]; exact hw) h2 with ⟨a1, a2⟩ | ⟨n, a1, a2, a3⟩
    · exact .inl ⟨by rw [a1, e1], by rw [a2, e2]⟩
    · right
      rw [← hr'.inv.sync hcap]
      have hom : ∀ o ∈ s3.om, 0 ≤ o.remaining := by
        rw [hr'.inv.sync hcap]
        intro o ho
        have := (hr'.inv.orders o ho).rem
        omega
      rw [← orderMargin_ok hw' hom a1]
      exact ⟨a2, by rw [e1] at a3; exact a3⟩

/-- A trade that fills one of two resting orders. -/
example : Ex.last Ex.linR [.update (.bba ⟨Ex.d 100, Ex.d 101, 1⟩), .limit .buy (Ex.d 95) (Ex.d 2) 0,
      .limit .sell (Ex.d 110) (Ex.d 1) 0]
    (.update (.trade ⟨2, Ex.d 94, Ex.d 2, .sell⟩)) (fun s s' r => Ex.isOk r && decide (
      s.acct.balance .orderMargin = 19000000 ∧ s'.acct.balance .orderMargin = 0 ∧
      marginReq Ex.linR s'.active s'.pos.quantity = 0 ∧ s'.pos ≠ s.pos)) = true := by decide +kernel

/-- C24, histories in debug builds: as long as no market order is executed and nothing is
liquidated, the order margin balance equals the requirement. -/
theorem C24_debug_histories (c : Cfg) (ops : List Op) (s : State) (tr : List (Op × Resp))
    (hdb : c.env.debug = true) (hcap : c.maxOpen ≤ 10000) (hi : 0 ≤ c.spec.initMarginReq)
    (h : history c (State.init c) ops = .ok (s, tr)) (ht : ∀ x ∈ tr, ¬ taker x.1 x.2) :
    inLine c s := by
  have := history_induct (c := c)
    (P := fun s tr => Reachable c s ∧ ((∀ x ∈ tr, ¬ taker x.1 x.2) → inLine c s))
    (fun s s' op r tr hp hst => by
      refine ⟨hp.1.step hst, fun ht => ?_⟩
      exact C24_order_margin_in_line c s s' op r hp.1 hcap hi
        (hp.2 (fun x hx => ht x (by simp [hx]))) (ht (op, r) (by simp)) (.inl hdb) hst)
    ops _ _ [] tr ⟨⟨[], rfl⟩, fun _ => by
      simp [inLine, State.init, Accounts.new, Accounts.balance, Accounts.get, TAccount.net,
        marginReq, sideValue, larger, share]⟩ h
  exact this.2 (by simpa using ht)

/-- A history with submissions, fills on both sides and a cancellation but no market order. -/
example : (match history Ex.lin (State.init Ex.lin)
      [.update (.bba ⟨Ex.d 100, Ex.d 101, 1⟩), .limit .buy (Ex.d 95) (Ex.d 2) 0,
       .limit .sell (Ex.d 110) (Ex.d 3) 0, .update (.trade ⟨2, Ex.d 94, Ex.d 1, .sell⟩),
       .update (.trade ⟨3, Ex.d 111, Ex.d 2, .buy⟩), .cancel (.orderId 1)] with
    | .ok (s, tr) => decide (s.pos.quantity = -Ex.d 1 ∧ tr.length = 6 ∧
        s.acct.balance .orderMargin = marginReq Ex.lin s.active s.pos.quantity)
    | .error _ => false) = true := by decide +kernel

/-- The release build on the same kind of update: the hypotheses of the step theorem hold, and
the fill changes position and margin. -/
example : Ex.last Ex.linR [.update (.bba ⟨Ex.d 100, Ex.d 101, 1⟩), .limit .buy (Ex.d 95) (Ex.d 2) 0,
       .limit .sell (Ex.d 110) (Ex.d 3) 0] (.update (.trade ⟨2, Ex.d 94, Ex.d 1, .sell⟩))
    (fun s s' r => decide (s.acct.balance .orderMargin =
        marginReq Ex.linR s.active s.pos.quantity ∧ distinctPrices s.active ∧
        opposing s.pos.quantity .buy = 0 ∧
        (∀ o ∈ s.active, fillRule (.trade ⟨2, Ex.d 94, Ex.d 1, .sell⟩) o ≠ none → o.side = .buy) ∧
        s'.pos.quantity = Ex.d 1 ∧ Ex.isOk r = true)) = true := by decide +kernel

/-- C24 fails after a market order: the balance is not adjusted. The next cancellation
panics. -/
theorem C24_market_order_breaks : ∃ c s, Reachable c s ∧ ¬ inLine c s ∧
    (∃ o ∈ s.active, o.id = 0) ∧
    step c s (.cancel (.orderId 0)) = .error .cancelMarginMismatch := by
  obtain ⟨s, hr, hp, h⟩ := Ex.crash_reach (c := Ex.lin)
    (ops := [.update (.bba ⟨Ex.d 100, Ex.d 101, 1⟩), .limit .sell (Ex.d 110) (Ex.d 3) 0,
      .market .buy (Ex.d 2) 0])
    (op := .cancel (.orderId 0)) (p := .cancelMarginMismatch)
    (f := fun s => decide (s.acct.balance .orderMargin ≠
      marginReq Ex.lin s.active s.pos.quantity ∧ ∃ o ∈ s.active, o.id = 0)) (by decide +kernel)
  simp only [decide_eq_true_eq] at hp
  exact ⟨Ex.lin, s, hr, hp.1, hp.2, h⟩

/-- … and the next submission moves money in the wrong direction: the requirement is 110, the
balance 330 before and 550 after the submission of a covered order. -/
theorem C24_submit_moves_wrong_way : ∃ c s s' op o, Reachable c s ∧
    step c s op = .ok (s', .limit (.ok o)) ∧
    marginReq c s'.active s'.pos.quantity < s.acct.balance .orderMargin ∧
    s.acct.balance .orderMargin < s'.acct.balance .orderMargin := by
  obtain ⟨s, s', r, hr, hs, hp⟩ := Ex.last_reach (c := Ex.lin)
    (ops := [.update (.bba ⟨Ex.d 100, Ex.d 101, 1⟩), .limit .sell (Ex.d 110) (Ex.d 3) 0,
      .market .buy (Ex.d 2) 0])
    (op := .limit .buy (Ex.d 95) (Ex.d 1) 0)
    (p := fun s s' r => decide (marginReq Ex.lin s'.active s'.pos.quantity = Ex.d 110 ∧
      s.acct.balance .orderMargin = Ex.d 330 ∧ s'.acct.balance .orderMargin = Ex.d 550) &&
      match r with | .limit (.ok _) => true | _ => false)
    (by decide +kernel)
  simp only [Bool.and_eq_true, decide_eq_true_eq] at hp
  obtain ⟨⟨h1, h2, h3⟩, h4⟩ := hp
  split at h4
  · exact ⟨Ex.lin, s, s', _, _, hr, hs, by rw [h1, h2]; decide, by rw [h2, h3]; decide⟩
  · simp at h4

/-- C24 fails in release builds when an update fills orders of a side in an order other than
best price first: here a short position of 5 is covered by a buy at 100, but the buy at 90 is
filled first. -/
theorem C24_fill_order_breaks : ∃ c s s' op r, Reachable c s ∧ inLine c s ∧
    distinctPrices s.active ∧ step c s op = .ok (s', .update (.ok r)) ∧ ¬ inLine c s' := by
  obtain ⟨s, s', r, hr, hs, hp⟩ := Ex.last_reach (c := Ex.linR)
    (ops := [.update (.bba ⟨Ex.d 100, Ex.d 101, 1⟩), .market .sell (Ex.d 5) 0,
      .limit .buy (Ex.d 90) (Ex.d 1) 0, .limit .buy (Ex.d 99) (Ex.d 5) 0])
    (op := .update (.trade ⟨2, Ex.d 89, Ex.d 1, .sell⟩))
    (p := fun s s' r => decide (s.acct.balance .orderMargin =
        marginReq Ex.linR s.active s.pos.quantity ∧ distinctPrices s.active ∧
        s'.acct.balance .orderMargin ≠ marginReq Ex.linR s'.active s'.pos.quantity) &&
      match r with | .update (.ok _) => true | _ => false)
    (by decide +kernel)
  simp only [Bool.and_eq_true, decide_eq_true_eq] at hp
  obtain ⟨⟨h1, h2, h3⟩, h4⟩ := hp
  split at h4
  · exact ⟨Ex.linR, s, s', _, _, hr, h1, h2, hs, h3⟩
  · simp at h4

end Lfest
