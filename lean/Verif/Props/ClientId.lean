import Verif.SpecClientId
import Verif.Props.Audit
import Verif.Props.Alone

/-!
# C151: cancelling by the client's own ids
-/

namespace Lfest

open Spec ClientId

theorem remove_first {b : Book} (hn : (b.map Limit.id).Nodup) {uid : Nat} {o : Limit}
    (h : b.find? (fun x => x.uid == uid) = some o) :
    Book.removeCancel b (.userOrderId uid) = Book.removeCancel b (.orderId o.id) := by
  obtain ⟨ho, xs, ys, rfl, hx⟩ := List.find?_eq_some_iff_append.1 h
  have h1 : Book.removeCancel (xs ++ o :: ys) (.userOrderId uid) =
      some (o, swapRemove (xs ++ o :: ys) xs.length) :=
    removeBy_append (by simpa using ho) (fun x hxs => by simpa using hx x hxs)
  have h2 : Book.removeCancel (xs ++ o :: ys) (.orderId o.id) =
      some (o, swapRemove (xs ++ o :: ys) xs.length) := by
    refine removeBy_append (by simp) (fun x hxs => ?_)
    simp only [List.map_append, List.map_cons, List.nodup_append, List.mem_map, List.mem_cons] at hn
    have := hn.2.2 x.id ⟨x, hxs, rfl⟩ o.id (.inl rfl)
    simpa using this
  rw [h1, h2]

/-- C151, one call: cancelling by user order id does exactly what cancelling by order id does to the
first active order with this user order id. -/
theorem C151_first (c : Cfg) (s : State) (hm : c.maxOpen ≤ 10000) (hr : Reachable c s) (uid : Nat)
    (o : Limit) (h : s.active.find? (fun x => x.uid == uid) = some o) :
    step c s (.cancel (.userOrderId uid)) = step c s (.cancel (.orderId o.id)) := by
  have hi := hr.inv
  have e := remove_first hi.nodup h
  have hs : s.om = s.active := hi.sync hm
  simp only [step, cancelLimit, omRemove, hs, e]
  have : s.active.removeCancel (.orderId o.id) ≠ none := by
    rw [Book.removeCancel, Book.removeById, ne_eq, removeBy_none]
    intro hall
    simpa using hall o (List.mem_of_find?_eq_some h)
  cases hrem : s.active.removeCancel (.orderId o.id) with
  | none => exact absurd hrem this
  | some x => rfl

/-- C151, ids of the client: if a user order id is used by one active order only, cancelling by it is
cancelling this order by its order id, with the same answer, the same effect and the same panics. -/
theorem C151_unique (c : Cfg) (s : State) (hm : c.maxOpen ≤ 10000) (hr : Reachable c s) (o : Limit)
    (ho : o ∈ s.active) (hu : ∀ x ∈ s.active, x.uid = o.uid → x.id = o.id) :
    step c s (.cancel (.userOrderId o.uid)) = step c s (.cancel (.orderId o.id)) := by
  cases h : s.active.find? (fun x => x.uid == o.uid) with
  | none => exact absurd (List.find?_eq_none.1 h o ho) (by simp)
  | some x =>
    have h1 := C151_first c s hm hr o.uid x h
    rw [h1, hu x (List.mem_of_find?_eq_some h) (by simpa using List.find?_some h)]

/-- C151, histories: in every history, whether or not user order ids are distinct, every cancellation by
user order id can be replaced by a cancellation of the order in its answer. All answers and the account
stay the same. -/
theorem C151_history (c : Cfg) (hm : c.maxOpen ≤ 10000) : ∀ (ops : List Op) (s s' : State)
    (tr : List (Op × Resp)), Reachable c s → history c s ops = .ok (s', tr) →
    history c s (tr.map byOrderId) = .ok (s', tr.map (fun x => (byOrderId x, x.2)))
  | [], s, s', tr, _, h => by
    simp only [history, ok_inj, Prod.mk.injEq] at h
    obtain ⟨rfl, rfl⟩ := h
    rfl
  | op :: ops, s, s', tr, hr, h => by
    simp only [history, bind_ok, ok_inj, Prod.mk.injEq] at h
    obtain ⟨⟨t, r⟩, hst, ⟨v, tr1⟩, hh, rfl, rfl⟩ := h
    have ih := C151_history c hm ops t v tr1 (hr.step hst) hh
    have hone : step c s (byOrderId (op, r)) = .ok (t, r) := by
      unfold byOrderId
      split
      · next uid o e =>
        simp only [Prod.mk.injEq] at e
        obtain ⟨rfl, rfl⟩ := e
        obtain ⟨⟨a, b, e, h1, h2, _⟩, _⟩ := C19_cancel_removes c s t _ o hst
        rw [← C151_first c s hm hr uid o, hst]
        rw [e, List.find?_append, List.find?_eq_none.2 (fun x hx => by simpa [named] using h2 x hx)]
        have : o.uid = uid := by simpa [named] using h1
        simp [this]
      · next e =>
        cases e
        exact hst
    simp only [List.map_cons, history, bind_ok, ok_inj, Prod.mk.injEq]
    exact ⟨(t, r), hone, (v, tr1.map (fun x => (byOrderId x, x.2))), ih, rfl, rfl⟩

namespace Ex

/-- Three orders, two of them with user order id 7. -/
def sevens (mid : List Op) : List Op :=
  [.update (.bba ⟨d 100, d 101, 1⟩), .limit .buy (d 90) (d 1) 5, .limit .buy (d 80) (d 1) 7,
    .limit .buy (d 70) (d 1) 7] ++ mid ++ [.cancel (.userOrderId 7)]

end Ex

/-- Which order is cancelled if several have the user order id: neither the oldest nor the newest in
general. It depends on whether an order that has nothing to do with it was cancelled before. -/
theorem C151_which_one : ∃ (c : Cfg) (ops : List Op) (other : Op) (s s' : State) (tr tr' : List (Op × Resp))
    (a b : Limit), soundConfig c ∧
    history c (State.init c) (ops ++ [.cancel (.userOrderId 7)]) = .ok (s, tr) ∧
    history c (State.init c) (ops ++ [other, .cancel (.userOrderId 7)]) = .ok (s', tr') ∧
    other = .cancel (.userOrderId 5) ∧
    tr.getLast? = some (.cancel (.userOrderId 7), .limit (.ok a)) ∧
    tr'.getLast? = some (.cancel (.userOrderId 7), .limit (.ok b)) ∧ a.id < b.id ∧
    a ∈ s'.active ∧ b ∈ s.active := by
  have h : Ex.beside Ex.lin (Ex.sevens []) (Ex.sevens [.cancel (.userOrderId 5)]) (fun s tr s' tr' =>
      match tr.getLast?, tr'.getLast? with
      | some (.cancel (.userOrderId 7), .limit (.ok a)), some (.cancel (.userOrderId 7), .limit (.ok b)) =>
        decide (a.id < b.id ∧ a ∈ s'.active ∧ b ∈ s.active)
      | _, _ => false) = true := by decide +kernel
  obtain ⟨s, tr, s', tr', h1, h2, h3⟩ := Ex.beside_reach h
  split at h3
  · next a b e1 e2 =>
    exact ⟨Ex.lin, [.update (.bba ⟨Ex.d 100, Ex.d 101, 1⟩), .limit .buy (Ex.d 90) (Ex.d 1) 5,
      .limit .buy (Ex.d 80) (Ex.d 1) 7, .limit .buy (Ex.d 70) (Ex.d 1) 7], .cancel (.userOrderId 5),
      s, s', tr, tr', a, b, by unfold soundConfig; decide, h1, h2, rfl, e1, e2, of_decide_eq_true h3⟩
  · cases h3

/-- The hypotheses of C151_unique and C151_first are met: order 0 has user order id 5, and the first with
user order id 7 is order 1. The history is not the same as with order ids. -/
example : Ex.after Ex.lin ((Ex.sevens []).dropLast) (fun s =>
      decide ((s.active.map fun o => (o.id, o.uid)) = [(0, 5), (1, 7), (2, 7)] ∧
        (s.active.find? (fun x => x.uid == 7)).map Limit.id = some 1 ∧ Ex.lin.maxOpen ≤ 10000)) = true ∧
    (match history Ex.lin (State.init Ex.lin) (Ex.sevens [.cancel (.userOrderId 5)]) with
    | .ok (_, tr) => decide ((tr.map byOrderId).drop 4 = [.cancel (.orderId 0), .cancel (.orderId 2)])
    | _ => false) = true := by decide +kernel

end Lfest
