import Verif.Lemmas.Roundtrip
import Verif.Props.Reference
import Verif.Props.Margin
import Verif.Props.Orders
import Verif.Props.Matching
import Verif.Props.Tracker
import Verif.Props.Panics

/-!
# Calls that undo or repeat each other (C70, C71)
-/

namespace Lfest

open Spec

/-! ## C70 -/

/-- C70: an accepted limit order can be cancelled right away, by its order id or by a user order id
that no other active order has. The cancellation returns the order, and afterwards the exchange
shows what it showed before, except that one order id is used up. -/
theorem C70_submit_cancel (c : Cfg) (s s1 : State) (side : Side) (price q : Int) (uid : Nat)
    (o : Limit) (b : CancelBy) (hr : Reachable c s) (hcap : c.maxOpen ≤ 10000)
    (hi : 0 ≤ c.spec.initMarginReq ∧ c.spec.initMarginReq ≤ c.scale) (hline : inLine c s)
    (hst : step c s (.limit side price q uid) = .ok (s1, .limit (.ok o)))
    (hb : b = .orderId o.id ∨ (b = .userOrderId uid ∧ ∀ x ∈ s.active, x.uid ≠ uid)) :
    ∃ s2, step c s1 (.cancel b) = .ok (s2, .limit (.ok o)) ∧
      Ref.view c s2 = { Ref.view c s with next := s.nextId + 1 } ∧
      (∀ id, s2.acct.balance id = s.acct.balance id) := by
  obtain ⟨ho, ha, hn, hms, hpos, hfee, hpm, htr, _⟩ := C18_accepted_limit c s s1 hr side price q uid o hst
  have hr1 := hr.step hst
  have hl1 : inLine c s1 := C24_order_margin_in_line c s s1 _ _ hr hcap hi.1 hline (by simp [taker])
    (.inr (by simp [orderly])) hst
  have hI := hr.inv
  have hfind : s1.active.removeCancel b = some (o, s.active) := by
    rw [ha]
    rcases hb with rfl | ⟨rfl, hu⟩
    · refine removeBy_last (fun y hy => ?_) (by simp)
      have h1 := (hI.orders y hy).fresh
      have h2 : o.id = s.nextId := by rw [ho]
      simp; omega
    · refine removeBy_last (fun y hy => ?_) (by simp [ho])
      simpa using hu y hy
  have hg : GoodOrders (s.active ++ [o]) := by
    rw [← ha]
    exact fun x hx => ⟨(hr1.inv.orders x hx).price, Int.le_of_lt (hr1.inv.orders x hx).rem⟩
  obtain ⟨s2, h2, a1, a2, a3, a4, a5⟩ := cancel_total hr1 hcap hi hl1 hfind (by
    rw [ha]; exact marginReq_append hg hi.1)
  have hr2 := hr1.step h2
  obtain ⟨_, _, _, _, b4, b5, b6, _, b7⟩ := C19_cancel_removes c s1 s2 b o h2
  have hom : s2.acct.balance .orderMargin = s.acct.balance .orderMargin := by
    unfold inLine at a5 hline
    rw [a5, a1, a2, hpos, hline]
  have hview : Ref.view c s2 = { Ref.view c s with next := s.nextId + 1 } := by
    simp only [Ref.view, a1, a2, a3, a4, b4, b5, b6, hom, hn, hms, hpos, hfee, hpm, htr]
  exact ⟨s2, h2, hview, view_balances hr2 hr (by rw [hview]) (by rw [hview]) (by rw [hview])⟩

/-- A resting order on one side, then an order on the other side that is accepted and cancelled. -/
example : Ex.last Ex.lin Ex.ops2 (.limit .sell (Ex.d 120) (Ex.d 5) 7) (fun s s' r =>
    Ex.isOk r && decide (s.acct.balance .orderMargin = marginReq Ex.lin s.active s.pos.quantity ∧ s.active ≠ [] ∧ (∀ x ∈ s.active, x.uid ≠ 7) ∧
      s'.acct.balance .orderMargin ≠ s.acct.balance .orderMargin)) = true := by decide +kernel

/-! ## C71 -/

/-- C71: an update that reaches no resting order and does not liquidate only changes the market. -/
theorem C71_no_hit (c : Cfg) (s s' : State) (u : UpdateArg) (ups : List LimitUpdate)
    (hr : Reachable c s) (hcap : c.maxOpen ≤ 10000) (hn : ∀ o ∈ s.active, fillRule u o = none)
    (hst : step c s (.update u) = .ok (s', .update (.ok ups))) :
    ups = [] ∧ Ref.view c s' = { Ref.view c s with market := seen s.ms [.update u] } := by
  have hv := C65_every_call c s s' _ _ hcap hr hst
  simp only [Ref.Exchange.call, Ref.Exchange.update, Prod.mk.injEq, Resp.update.injEq] at hv
  split at hv
  · simp at hv
  · simp only [Except.ok.injEq] at hv
    obtain ⟨h1, h2⟩ := hv
    constructor
    · rw [← h2]
      simp only [reports, List.filterMap_eq_nil_iff]
      intro o ho
      rw [hn o ho]
    · rw [← h1]
      have key : ∀ (os : List Limit) (x : Ref.Exchange), (∀ o ∈ os, fillRule u o = none) →
          os.foldl (Ref.Exchange.matched c u) x = x := by
        intro os
        induction os with
        | nil => intro x _; rfl
        | cons o os ih =>
          intro x h
          simp only [List.foldl_cons, Ref.Exchange.matched, h o (by simp)]
          exact ih x (fun y hy => h y (by simp [hy]))
      exact key _ _ hn

/-- C71: when the same candle (or the same quotes) arrives a second time and the position is not
liquidated, nothing is filled and nothing but the number of updates seen changes. -/
theorem C71_repeat (c : Cfg) (s s1 s2 : State) (u : UpdateArg) (ups1 ups2 : List LimitUpdate)
    (hr : Reachable c s) (hcap : c.maxOpen ≤ 10000)
    (hu : (∃ k, u = .candle k) ∨ (∃ q, u = .bba q))
    (h1 : step c s (.update u) = .ok (s1, .update (.ok ups1)))
    (h2 : step c s1 (.update u) = .ok (s2, .update (.ok ups2))) :
    ups2 = [] ∧
    Ref.view c s2 = { Ref.view c s1 with market := { s1.ms with step := s1.ms.step + 1 } } ∧
    (∀ id, s2.acct.balance id = s1.acct.balance id) := by
  have hr1 := hr.step h1
  have hn : ∀ o ∈ s1.active, fillRule u o = none := by
    intro o ho
    rcases hu with ⟨k, rfl⟩ | ⟨q, rfl⟩
    · have := (C34_candle_rule c s s1 k ups1 hr h1).2 o ho
      simp only [fillRule]
      cases hs : o.side
      · have := this.1 hs; simp; omega
      · have := this.2 hs; simp; omega
    · rfl
  obtain ⟨g1, g2⟩ := C71_no_hit c s1 s2 u ups2 hr1 hcap hn h2
  have hm : s1.ms = seen s.ms [.update u] := by
    obtain ⟨m1, m2, m3⟩ := C43_update c s s1 u _ hr h1
    simp only [seen, m1, Option.getD_some, ← m3, ← m2]
  refine ⟨g1, ?_, ?_⟩
  · rw [g2]
    congr 1
    rw [hm]
    rcases hu with ⟨k, rfl⟩ | ⟨q, rfl⟩ <;> simp [seen, quotesAfter, updateTime, stepAfter]
  · intro id
    have hr2 := hr1.step h2
    exact view_balances hr2 hr1 (by rw [g2]) (by rw [g2]) (by rw [g2]) id

/-- A candle that fills a buy order and leaves a sell order, twice. -/
example : Ex.last Ex.linR [Ex.q 100 101 1, .limit .buy (Ex.d 95) (Ex.d 2) 0,
      .limit .sell (Ex.d 110) (Ex.d 1) 0, .update (.candle ⟨Ex.d 96, Ex.d 97, Ex.d 90, Ex.d 99, 3⟩)]
    (.update (.candle ⟨Ex.d 96, Ex.d 97, Ex.d 90, Ex.d 99, 3⟩)) (fun s s' r => Ex.isOk r && decide (
      s.active.length = 1 ∧ s'.active = s.active ∧ s.pos.quantity = Ex.d 2 ∧ s'.pos = s.pos)) =
    true := by decide +kernel

end Lfest
