import Verif.Lemmas.MarginStep
import Verif.Lemmas.Safety
import Verif.Lemmas.Reference

/-! Cancelling the order that was submitted last. -/

namespace Lfest

open Spec

/-- A cancellation that finds its order and does not raise the requirement goes through. -/
theorem cancel_total {c : Cfg} {s : State} {b : CancelBy} {o : Limit} {b' : Book}
    (hr : Reachable c s) (hcap : c.maxOpen ≤ 10000)
    (hi : 0 ≤ c.spec.initMarginReq ∧ c.spec.initMarginReq ≤ c.scale) (hline : inLine c s)
    (hb' : s.active.removeCancel b = some (o, b'))
    (hle : marginReq c b' s.pos.quantity ≤ marginReq c s.active s.pos.quantity) :
    ∃ s', step c s (.cancel b) = .ok (s', .limit (.ok o)) ∧ s'.active = b' ∧ s'.pos = s.pos ∧
      s'.ms = s.ms ∧ s'.nextId = s.nextId ∧ inLine c s' := by
  have hI := hr.inv
  have hg : GoodOrders s.active := fun x hx => by
    have := hI.orders x hx; exact ⟨this.price, Int.le_of_lt this.rem⟩
  have hw := hr.linv.wf
  obtain ⟨xs, ys, hxy, hp⟩ := removeCancel_some hb'
  have hgb : GoodOrders b' := by
    refine GoodOrders.perm (fun x hx => hg x ?_) hp.symm
    rw [hxy]
    simp only [List.mem_append, List.mem_cons] at hx ⊢
    rcases hx with h | h <;> simp [h]
  have hsums : s.acct.debitSum = s.acct.creditSum := hr.linv.sums
  have hsync := hI.sync hcap
  unfold inLine at hline
  have href : ∃ a, refund c.env s.acct (s.acct.balance .orderMargin)
      (marginReq c b' s.pos.quantity) = .ok a ∧
      a.balance .orderMargin = marginReq c b' s.pos.quantity := by
    unfold refund
    split
    · next hlt =>
      obtain ⟨a, ha⟩ := transfer_total (e := c.env) (d := .wallet) (c := .orderMargin) hsums
        (x := s.acct.balance .orderMargin - marginReq c b' s.pos.quantity) (by omega) (by simp)
      refine ⟨a, ha, ?_⟩
      rw [transfer_balance ha]; simp; omega
    · exact ⟨_, rfl, by omega⟩
  obtain ⟨a, ha, hab⟩ := href
  refine ⟨{ s with active := b', om := b', acct := a, log := .limitCancel :: s.log }, ?_, rfl, rfl,
    rfl, rfl, hab⟩
  have : cancelLimit c s b =
      .ok ({ s with active := b', om := b', acct := a, log := .limitCancel :: s.log }, .ok o) := by
    simp only [cancelLimit, bind_ok, assertP_ok]
    refine ⟨_, by rw [hsync]; exact orderMargin_total c hw hg (fun _ => hi.2), (), hline, ?_⟩
    simp only [hb', bind_ok, assertP_ok]
    refine ⟨b', ?_, _, orderMargin_total c hw hgb (fun _ => hi.2), (), by omega, a, ha, (), rfl,
      (), ?_, rfl⟩
    · simp only [omRemove, bind_ok, expectSome_ok, hsync, ok_inj]
      exact ⟨_, hb', rfl⟩
    · rintro rfl
      rw [hab]
      simp [marginReq, sideValue, larger, share]
  simp only [step, this]
  rfl

theorem position_append_last {α} {p : α → Bool} {l : List α} {x : α}
    (h : ∀ y ∈ l, p y = false) (hx : p x = true) : position p (l ++ [x]) = some l.length := by
  induction l with
  | nil => simp [position, hx]
  | cons y l ih =>
    have hy := h y (by simp)
    simp only [List.cons_append, position, hy]
    rw [if_neg (by simp), ih (fun z hz => h z (by simp [hz]))]
    rfl

/-- The order at the end of the book is found last and removed without moving any other. -/
theorem removeBy_last {p : Limit → Bool} {b : Book} {o : Limit}
    (h : ∀ y ∈ b, p y = false) (hx : p o = true) :
    Book.removeBy p (b ++ [o]) = some (o, b) := by
  unfold Book.removeBy
  rw [position_append_last h hx]
  simp [swapRemove_last]

/-- The view determines all balances. -/
theorem view_balances {c : Cfg} {s t : State} (hs : Reachable c s) (ht : Reachable c t)
    (h1 : (Ref.view c s).book = (Ref.view c t).book)
    (h2 : (Ref.view c s).reserved = (Ref.view c t).reserved)
    (h3 : (Ref.view c s).locked = (Ref.view c t).locked) (id : AccountId) :
    s.acct.balance id = t.acct.balance id := by
  have b1 := congrArg Ledger.paid h1
  have b2 := congrArg Ledger.realised h1
  cases id with
  | wallet =>
    rw [← view_wallet hs.linv, ← view_wallet ht.linv]
    simp only [Ref.Exchange.wallet, h1, h2, h3]
  | orderMargin => exact h2
  | positionMargin => exact h3
  | treasury => simp only [Ref.view] at b2; omega
  | exchangeFee => exact b1
  | broker =>
    have e1 := hs.linv.broker
    have e2 := ht.linv.broker
    simp only [State.core] at e1 e2
    simp [Accounts.balance, Accounts.get, e1, e2]

end Lfest
