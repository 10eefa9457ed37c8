import Verif.Props.Reference
import Verif.Props.Dust
import Verif.Props.Ledger
import Verif.Props.Matching

/-!
# The margin reserved for orders is never negative
-/

namespace Lfest

open Spec

theorem mem_takeOut {p : Limit → Bool} : ∀ {os : List Limit} {x : Limit},
    x ∈ Ref.takeOut p os → x ∈ os
  | [], x, h => h
  | o :: os, x, h => by
    unfold Ref.takeOut at h
    split at h
    · split at h
      · simp at h
      · next z hz =>
        rcases List.mem_cons.1 h with rfl | h
        · exact List.mem_cons_of_mem _ (List.mem_of_getLast? hz)
        · exact List.mem_cons_of_mem _ (List.dropLast_subset _ h)
    · rcases List.mem_cons.1 h with rfl | h
      · simp
      · exact List.mem_cons_of_mem _ (mem_takeOut h)

/-- Orders have positive prices and no negative quantity, and the reserved margin is not
negative. -/
def RefGood (x : Ref.Exchange) : Prop := GoodOrders x.orders ∧ 0 ≤ x.reserved

theorem RefGood.matched {c : Cfg} {u : UpdateArg} {x : Ref.Exchange} {o : Limit}
    (hi : 0 ≤ c.spec.initMarginReq) (ho : 0 < o.price ∧ 0 ≤ o.remaining)
    (hfit : ∀ q, fillRule u o = some q → q ≤ o.remaining) (h : RefGood x) :
    RefGood (x.matched c u o) := by
  unfold Ref.Exchange.matched
  split
  · exact h
  next q hq =>
  have hle := hfit q hq
  have hg : GoodOrders (if q = o.remaining then Ref.takeOut (fun y => y.id == o.id) x.orders
      else x.orders.map (fun y => if y.id = o.id then filledBy c.env o q else y)) := by
    split
    · exact fun y hy => h.1 y (mem_takeOut hy)
    · intro y hy
      obtain ⟨z, hz, rfl⟩ := List.mem_map.1 hy
      split
      · exact ⟨ho.1, by simp only [filledBy]; omega⟩
      · exact h.1 z hz
  refine ⟨hg, ?_⟩
  have h1 := marginReq_nonneg (c := c) (pos := (x.fill c ⟨true, o.side, o.price, q⟩).book.qty) hg hi
  have h2 := h.2
  have hs : ∀ a b : Int, 0 ≤ a → 0 ≤ b → 0 ≤ smaller a b := by
    intro a b; unfold smaller; split <;> omega
  exact hs _ _ h1 h2

theorem RefGood.matchAll {c : Cfg} {u : UpdateArg} {x : Ref.Exchange}
    (hi : 0 ≤ c.spec.initMarginReq)
    (hfit : ∀ o ∈ x.orders, ∀ q, fillRule u o = some q → q ≤ o.remaining) (h : RefGood x) :
    RefGood (x.matchAll c u) := by
  have key : ∀ (os : List Limit) (y : Ref.Exchange), GoodOrders os →
      (∀ o ∈ os, ∀ q, fillRule u o = some q → q ≤ o.remaining) → RefGood y →
      RefGood (os.foldl (Ref.Exchange.matched c u) y) := by
    intro os
    induction os with
    | nil => exact fun y _ _ hy => hy
    | cons o os ih =>
      intro y hg hf hy
      exact ih _ (fun z hz => hg z (List.mem_cons_of_mem _ hz))
        (fun z hz => hf z (List.mem_cons_of_mem _ hz))
        (hy.matched hi (hg o (by simp)) (hf o (by simp)))
  exact key x.orders x h.1 hfit h

theorem RefGood.limitOrder {c : Cfg} {x : Ref.Exchange} {side : Side} {p q : Int} {uid : Nat}
    (hp : 0 < p) (hq : 0 < q) (h : RefGood x) : RefGood (x.limitOrder c side p q uid).1 := by
  unfold Ref.Exchange.limitOrder
  split
  · exact h
  split
  · exact h
  simp only
  split
  · exact h
  split
  · exact h
  split
  · exact h
  refine ⟨?_, ?_⟩
  · intro y hy
    rcases List.mem_append.1 hy with hy | hy
    · exact h.1 y hy
    · simp only [List.mem_singleton] at hy
      subst hy
      exact ⟨hp, by simp only; omega⟩
  · have := h.2
    show 0 ≤ x.reserved + Spec.abs _
    unfold Spec.abs
    split <;> omega

theorem RefGood.cancel {c : Cfg} {x : Ref.Exchange} {b : CancelBy}
    (hi : 0 ≤ c.spec.initMarginReq) (h : RefGood x) : RefGood (x.cancel c b).1 := by
  unfold Ref.Exchange.cancel
  split
  · exact h
  · have hg : GoodOrders (Ref.takeOut (Ref.names b) x.orders) :=
      fun y hy => h.1 y (mem_takeOut hy)
    exact ⟨hg, marginReq_nonneg hg hi⟩

theorem RefGood.call {c : Cfg} {x : Ref.Exchange} {op : Op}
    (hi : 0 ≤ c.spec.initMarginReq)
    (hfit : ∀ u, (op = .update u ∧ ∃ ups, (x.call c op).2 = .update (.ok ups)) ∨
      op = .checkActive u → ∀ o ∈ x.orders, ∀ q, fillRule u o = some q → q ≤ o.remaining)
    (h : RefGood x) : RefGood (x.call c op).1 := by
  cases op with
  | update u =>
    have hf := hfit u
    simp only [Ref.Exchange.call, Ref.Exchange.update] at hf ⊢
    split
    · exact h
    · next hb =>
      rw [if_neg hb] at hf
      exact RefGood.matchAll hi (hf (.inl ⟨trivial, _, rfl⟩)) h
  | checkActive u => exact h.matchAll hi (hfit u (.inr rfl))
  | market side q uid =>
    simp only [Ref.Exchange.call]
    split
    · exact h
    · simp only [Ref.Exchange.marketOrder]
      split
      · exact h
      split <;> exact h
  | limit side p q uid =>
    simp only [Ref.Exchange.call]
    split
    · exact h
    split
    · exact h
    · exact h.limitOrder (by omega) (by omega)
  | amend id side p q uid =>
    simp only [Ref.Exchange.call]
    split
    · exact h
    split
    · exact h
    · simp only [Ref.Exchange.amend]
      split
      · exact h
      split
      · exact h.cancel hi
      · exact (h.cancel hi).limitOrder (by omega) (by omega)
  | cancel b => exact h.cancel hi

theorem Spec.Reachable.reserved {c : Cfg} {s : State} (hcap : c.maxOpen ≤ 10000)
    (hi : 0 ≤ c.spec.initMarginReq) (hr : Reachable c s) : RefGood (Ref.view c s) := by
  refine Reachable.induct (P := fun s => RefGood (Ref.view c s))
    ⟨fun _ h => absurd h (by simp [Ref.view, State.init]), by
      simp [Ref.view, State.init, Accounts.new, Accounts.balance, Accounts.get, TAccount.net]⟩
    (fun s s' op r hr' hp hst => ?_) hr
  have h := C65_every_call c s s' op r hcap hr' hst
  have h2 := hp.call (c := c) (op := op) hi (by
    rw [h]
    rintro u (⟨rfl, ups, hups⟩ | rfl) o ho q hq
    · simp only at hups; subst hups
      exact ((C38_every_order c s s' u ups hr' hst).2.1 o ho q hq).2.1
    · obtain ⟨a, hb, h2⟩ := bind_ok.1 hst
      obtain ⟨s2, h2, _⟩ := bind_ok.1 h2
      exact ((checkActive_spec hb hr'.inv h2).2.2.2.1 o ho q hq).2)
  rwa [h] at h2

end Lfest
