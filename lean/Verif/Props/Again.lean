import Verif.SpecAgain
import Verif.Props.Amend
import Verif.Props.Batch
import Verif.Props.Roundtrip
import Verif.Props.NoPanic
import Verif.Lemmas.Leverage

/-!
# Amending an order more than once: C131
-/

namespace Lfest

open Spec Ref

theorem limitOrder_accepted {c : Cfg} {x x' : Exchange} {side : Side} {p q : Int} {uid : Nat}
    {o : Limit} (h : x.limitOrder c side p q uid = (x', .ok o)) :
    o = ⟨uid, side, p, q, x.next, x.market.ts, .unfilled⟩ ∧
    x' = { x with next := x.next + 1, orders := x.orders ++ [o],
                  reserved := x.reserved +
                    Spec.abs (marginReq c (x.orders ++ [o]) x.book.qty - x.reserved) } := by
  unfold Exchange.limitOrder at h
  split at h
  · simp at h
  · split at h
    · simp at h
    · simp only at h
      split at h
      · simp at h
      · split at h
        · simp at h
        · split at h
          · simp at h
          · simp only [Prod.mk.injEq, Except.ok.injEq] at h
            obtain ⟨h1, h2⟩ := h
            refine ⟨h2.symm, ?_⟩
            rw [← h1, ← h2]
            rfl

theorem marginReq_last_id (c : Cfg) (os : List Limit) (o : Limit) (n : Nat) (pos : Int) :
    marginReq c (os ++ [{ o with id := n }]) pos = marginReq c (os ++ [o]) pos := by
  rw [← marginReq_blank c (os ++ [o]), ← marginReq_blank c (os ++ [Limit.mk _ _ _ _ _ _ _])]
  simp only [List.map_append, List.map_cons, List.map_nil]
  rfl

/-- Whether an order is accepted does not depend on the id it gets. -/
theorem limitOrder_any_id {c : Cfg} {x x' : Exchange} {side : Side} {p q : Int} {uid : Nat}
    {o : Limit} (n : Nat) (h : x.limitOrder c side p q uid = (x', .ok o)) :
    ({ x with next := n }).limitOrder c side p q uid =
      ({ x' with next := n + 1, orders := x.orders ++ [{ o with id := n }] },
        .ok { o with id := n }) := by
  obtain ⟨h1, h2⟩ := limitOrder_accepted h
  have key := marginReq_last_id c x.orders ⟨uid, side, p, q, x.next, x.market.ts, .unfilled⟩ n x.book.qty
  unfold Exchange.limitOrder at h ⊢
  split at h
  · simp at h
  · rename_i e1
    split at h
    · simp at h
    · rename_i e2
      simp only at h
      split at h
      · simp at h
      · rename_i e3
        split at h
        · simp at h
        · rename_i e4
          split at h
          · simp at h
          · rename_i e5
            simp only [e2]
            rw [if_neg (by
              simp only [Exchange.wallet, Exchange.required] at e3 ⊢
              rw [key]; exact e3), if_neg e4, if_neg e5, h2, h1]
            simp only [Exchange.required, key]

/-- Amending the order that was just accepted: back to where it was accepted, with one id more. -/
theorem amend_last {c : Cfg} {y x : Exchange} {side sd : Side} {p q p' q' : Int} {uid ud : Nat}
    {o : Limit} (hy : y.reserved = y.required c) (hf : ∀ z ∈ y.orders, z.id < y.next)
    (h : y.limitOrder c side p q uid = (x, .ok o)) (hq : 0 < q') :
    x.amend c o.id sd p' q' ud = ({ y with next := y.next + 1 }).limitOrder c sd p' q' ud := by
  obtain ⟨h1, h2⟩ := limitOrder_accepted h
  have hid : o.id = y.next := by rw [h1]
  have hfill : o.filledQuantity = 0 := by rw [h1]; rfl
  have hne : ∀ z ∈ y.orders, (z.id == o.id) = false := by
    intro z hz
    have := hf z hz
    simp only [beq_eq_false_iff_ne]
    omega
  have hx : x.orders = y.orders ++ [o] := by rw [h2]
  have hfind : x.orders.find? (fun z => z.id == o.id) = some o := by
    rw [hx, List.find?_append, List.find?_eq_none.2 (by simpa using hne)]
    simp
  have hfind' : x.orders.find? (names (.orderId o.id)) = some o := hfind
  have hout : takeOut (names (.orderId o.id)) x.orders = y.orders := by
    rw [hx, takeOut_append (by simp [names]) (by simpa [names] using hne), swapRemove_last]
  unfold Exchange.amend
  rw [hfind]
  simp only
  rw [if_neg (by omega), hfill, Int.sub_zero]
  have hc : (x.cancel c (.orderId o.id)).1 = { y with next := y.next + 1 } := by
    unfold Exchange.cancel
    rw [hfind']
    simp only [hout, Exchange.required]
    rw [h2]
    simp only
    unfold Exchange.required at hy
    rw [← hy]
  rw [hc]

theorem limitOrder_back {c : Cfg} {x x' : Exchange} {side : Side} {p q : Int} {uid : Nat}
    {o : Limit} {m n : Nat} (h : ({ x with next := m }).limitOrder c side p q uid = (x', .ok o)) :
    ({ x with next := n }).limitOrder c side p q uid =
      ({ x' with next := n + 1, orders := x.orders ++ [{ o with id := n }] },
        .ok { o with id := n }) :=
  limitOrder_any_id (x := { x with next := m }) n h

theorem first_amendment {c : Cfg} {s s' : State} {id : Nat} {ws : List Wish} {o : Limit}
    (h : Amended c s id ws s' o) :
    ∃ (w : Wish) (s1 : State) (o1 : Limit), step c s (w.call id) = .ok (s1, .limit (.ok o1)) := by
  induction h with
  | once h => exact ⟨_, _, _, h⟩
  | again _ _ ih => exact ih

/-- An amendment that was accepted, as the reference exchange sees it. -/
theorem amend_accepted {c : Cfg} {s s' : State} {id : Nat} {w : Wish} {o : Limit}
    (hcap : c.maxOpen ≤ 10000) (hr : Reachable c s)
    (h : step c s (w.call id) = .ok (s', .limit (.ok o))) :
    0 < w.price ∧ 0 < w.qty ∧
      (view c s).amend c id w.side w.price w.qty w.uid = (view c s', .ok o) := by
  have hv := C65_every_call c s s' _ _ hcap hr h
  unfold Wish.call Exchange.call at hv
  simp only at hv
  split at hv
  · simp at hv
  · split at hv
    · simp at hv
    · simp only [Prod.mk.injEq, Resp.limit.injEq] at hv
      refine ⟨by omega, by omega, ?_⟩
      rw [Prod.ext_iff]
      exact hv

/-- The account without the order that is being amended. -/
def without (c : Cfg) (s : State) (id : Nat) : Exchange := ((view c s).cancel c (.orderId id)).1

theorem without_facts {c : Cfg} {s : State} {old : Limit} (hr : Reachable c s)
    (hold : old ∈ s.active) :
    (without c s old.id).reserved = (without c s old.id).required c ∧
    (∀ z ∈ (without c s old.id).orders, z.id < s.nextId) ∧
    (without c s old.id).next = s.nextId ∧ (without c s old.id).market = s.ms ∧
    s.active.find? (fun o => o.id == old.id) = some old := by
  have hi := hr.inv
  have hget : s.active.find? (fun o => o.id == old.id) = some old := getById_of_mem hi.nodup hold
  have hget' : (view c s).orders.find? (names (.orderId old.id)) = some old := hget
  unfold without Exchange.cancel
  rw [hget']
  refine ⟨rfl, ?_, rfl, rfl, hget⟩
  intro z hz
  exact (hi.orders z (mem_takeOut hz)).fresh

theorem chain {c : Cfg} {s s' : State} {old : Limit} {ws : List Wish} {o : Limit}
    (hcap : c.maxOpen ≤ 10000) (hr : Reachable c s) (hold : old ∈ s.active)
    (h : Amended c s old.id ws s' o) :
    Reachable c s' ∧ s'.pos = s.pos ∧ ∃ ws0 w, ws = ws0 ++ [w] ∧ 0 < w.price ∧ 0 < w.qty ∧
      ({ without c s old.id with next := s.nextId + ws0.length }).limitOrder c w.side w.price
        (if ws0 = [] then w.qty - old.filledQuantity else w.qty) w.uid = (view c s', .ok o) := by
  obtain ⟨f1, f2, f3, f4, f5⟩ := without_facts hr hold
  induction h with
  | @once w s' o h =>
    obtain ⟨a1, a2, a3⟩ := amend_accepted hcap hr h
    refine ⟨hr.step h, (C20_amend c s s' hr old hold _ _ _ _ _ h).2.2.2, [], w, rfl, a1, a2, ?_⟩
    unfold Exchange.amend at a3
    have hget : (view c s).orders.find? (fun o => o.id == old.id) = some old := f5
    rw [hget] at a3
    simp only at a3
    split at a3
    · simp at a3
    · simp only [List.length_nil, Nat.add_zero, if_true, ← f3]
      exact a3
  | @again ws w s1 o1 s' o h1 h ih =>
    obtain ⟨r1, p1, ws0, w0, e, _, _, k⟩ := ih
    obtain ⟨a1, a2, a3⟩ := amend_accepted hcap r1 h
    obtain ⟨k1, k2⟩ := limitOrder_accepted k
    have hmem : o1 ∈ s1.active := by
      have := congrArg Exchange.orders k2
      simp only [view] at this
      rw [this]; simp
    refine ⟨r1.step h, (C20_amend c s1 s' r1 o1 hmem _ _ _ _ _ h).2.2.2.trans p1, ws, w, rfl, a1, a2, ?_⟩
    rw [amend_last (y := { without c s old.id with next := s.nextId + ws0.length }) f1
      (fun z hz => Nat.lt_of_lt_of_le (f2 z hz) (Nat.le_add_right _ _)) k a2] at a3
    rw [if_neg (by rw [e]; simp), ← a3, e]
    simp only [List.length_append, List.length_singleton, Nat.add_assoc]

/-- C131: amending an order twice or more, every amendment accepted, comes to the same as amending
it once to the last terms, with the quantity that was filled before the first amendment **added**:
that is forgotten by all amendments but the first. The new order asks for the full last quantity;
orders, position, quotes and all balances are the same, and one id is used up by each further
amendment. -/
theorem C131_fills_are_forgotten (c : Cfg) (s s' : State) (old o : Limit) (ws : List Wish) (w : Wish)
    (hc : soundConfig c) (hr : Reachable c s) (hold : old ∈ s.active) (hws : ws ≠ [])
    (h : Amended c s old.id (ws ++ [w]) s' o) :
    o = ⟨w.uid, w.side, w.price, w.qty, s.nextId + ws.length, s.ms.ts, .unfilled⟩ ∧
    ∃ s1 others,
      step c s (.amend old.id w.side w.price (w.qty + old.filledQuantity) w.uid) =
        .ok (s1, .limit (.ok { o with id := s.nextId })) ∧
      s1.active = others ++ [{ o with id := s.nextId }] ∧ s'.active = others ++ [o] ∧
      s'.ms = s1.ms ∧ s'.pos = s1.pos ∧ (∀ a, s'.acct.balance a = s1.acct.balance a) ∧
      s'.nextId = s1.nextId + ws.length := by
  have hcap : c.maxOpen ≤ 10000 := hc.2.2.2.2
  obtain ⟨f1, f2, f3, f4, f5⟩ := without_facts hr hold
  obtain ⟨r', p', ws0, w0, e, g1, g2, k⟩ := chain hcap hr hold h
  obtain ⟨rfl, e2⟩ := List.append_inj' e rfl
  obtain rfl : w = w0 := by simpa using e2
  rw [if_neg hws] at k
  obtain ⟨k1, k2⟩ := limitOrder_accepted k
  have ho : o = ⟨w.uid, w.side, w.price, w.qty, s.nextId + ws.length, s.ms.ts, .unfilled⟩ := by
    rw [k1, ← f4]
  refine ⟨ho, ?_⟩
  have h0 := (hr.inv.orders old hold).cum
  rw [C120_amend c s hr old hold w.side w.price (w.qty + old.filledQuantity) w.uid g1 (by omega)]
  obtain ⟨v, t1, o1, hv⟩ := first_amendment h
  have hq : old.filledQuantity < v.qty := ((C20_amend c s t1 hr old hold _ _ _ _ _ hv).2.1 o1 rfl).1
  have hp := (amend_accepted hcap hr hv).1
  unfold Wish.call at hv
  rw [C120_amend c s hr old hold _ _ _ _ hp hq, bind_ok] at hv
  obtain ⟨⟨t, rc⟩, hcan, _⟩ := hv
  have hvt : view c t = without c s old.id := by
    have := C65_every_call c s t _ _ hcap hr hcan
    unfold Exchange.call at this
    simp only [Prod.mk.injEq] at this
    exact this.1.symm
  have hrt := hr.step hcan
  have hline : inLine c t := by
    unfold inLine
    rw [← hvt] at f1
    exact f1
  obtain ⟨s1, r, hs1⟩ := C66_submit c t w.side w.price w.qty w.uid hc hrt hline
  have hv1 := C65_every_call c t s1 _ _ hcap hrt hs1
  unfold Exchange.call at hv1
  simp only at hv1
  rw [if_neg (by omega), if_neg (by omega), hvt] at hv1
  have k3 := limitOrder_back (n := s.nextId) k
  have e3 : ({ without c s old.id with next := s.nextId } : Exchange) = without c s old.id := by
    rw [← f3]
  rw [e3] at k3
  rw [k3] at hv1
  simp only [Prod.mk.injEq] at hv1
  obtain ⟨v1, v2⟩ := hv1
  refine ⟨s1, (without c s old.id).orders, ?_, ?_, ?_, ?_, ?_, ?_, ?_⟩
  · simp only [hcan, bind, Except.bind]
    rw [Int.add_sub_cancel, hs1, v2]
  · exact (congrArg Exchange.orders v1).symm
  · exact congrArg Exchange.orders k2
  · exact congrArg Exchange.market v1
  · have q1 : s1.pos = t.pos := by
      rw [← v2] at hs1
      exact (C18_accepted_limit c t s1 hrt _ _ _ _ _ hs1).2.2.2.2.1
    have q2 : t.pos = s.pos := (C03_only_fills_change_equity c s t _ _ hcan
      (C03_quiet_calls c s t _ _ hcan (by simp [quiet]))).2.2.1
    rw [p', q1, q2]
  · refine view_balances r' (hrt.step hs1) ?_ ?_ ?_
    · have := congrArg Exchange.book v1
      exact this
    · have := congrArg Exchange.reserved v1
      exact this
    · have := congrArg Exchange.locked v1
      exact this
  · have n1 := congrArg Exchange.next v1
    have n2 := congrArg Exchange.next k2
    simp only [view] at n1 n2
    omega

/-- C131: of an order of which nothing has been filled, only the last amendment counts. -/
theorem C131_only_the_last_counts (c : Cfg) (s s' : State) (old o : Limit) (ws : List Wish) (w : Wish)
    (hc : soundConfig c) (hr : Reachable c s) (hold : old ∈ s.active)
    (hf : old.filledQuantity = 0) (h : Amended c s old.id (ws ++ [w]) s' o) :
    ∃ s1 others,
      step c s (w.call old.id) = .ok (s1, .limit (.ok { o with id := s.nextId })) ∧
      s1.active = others ++ [{ o with id := s.nextId }] ∧ s'.active = others ++ [o] ∧
      s'.ms = s1.ms ∧ s'.pos = s1.pos ∧ (∀ a, s'.acct.balance a = s1.acct.balance a) ∧
      s'.nextId = s1.nextId + ws.length := by
  by_cases hws : ws = []
  · subst hws
    obtain ⟨_, _, ws0, w0, e, _, _, k⟩ := chain hc.2.2.2.2 hr hold h
    obtain ⟨rfl, e2⟩ := List.append_inj' e rfl
    obtain ⟨k1, k2⟩ := limitOrder_accepted k
    have hid : o.id = s.nextId := by rw [k1]; rfl
    have ho : ({ o with id := s.nextId } : Limit) = o := by rw [← hid]
    rw [ho]
    refine ⟨s', (without c s old.id).orders, ?_, ?_, ?_, rfl, rfl, fun _ => rfl, rfl⟩
    · generalize hl : [] ++ [w] = l at h
      cases h with
      | once h => simp at hl; subst hl; exact h
      | @again ws' w' _ _ _ _ h1 _ =>
        have hlen := congrArg List.length hl
        have : ws' = [] := by
          cases ws' with
          | nil => rfl
          | cons => simp at hlen
        subst this
        generalize hl' : ([] : List Wish) = l' at h1
        cases h1 <;> simp at hl'
    · exact congrArg Exchange.orders k2
    · exact congrArg Exchange.orders k2
  · obtain ⟨_, h2⟩ := C131_fills_are_forgotten c s s' old o ws w hc hr hold hws h
    rw [hf, Int.add_zero] at h2
    exact h2

/-- Buy 5 at 95; 3 are filled; the order is moved to 96 and then to 97, its total quantity left
at 5 both times; then a large trade comes by. -/
def Ex.opsMoved : List Op :=
  [.update (.bba ⟨d 100, d 101, 1⟩), .limit .buy (d 95) (d 5) 0,
   .update (.trade ⟨2, d 94, d 3, .sell⟩),
   .amend 0 .buy (d 96) (d 5) 0, .amend 1 .buy (d 97) (d 5) 0,
   .update (.trade ⟨3, d 90, d 20, .sell⟩)]

/-- The hypotheses of `C131_fills_are_forgotten` are met, with something filled before. -/
example : ∃ s s' old o, Reachable Ex.lin s ∧ soundConfig Ex.lin ∧ old ∈ s.active ∧
    old.filledQuantity = Ex.d 3 ∧ s.acct.balance .orderMargin ≠ 0 ∧
    Amended Ex.lin s old.id ([⟨.buy, Ex.d 96, Ex.d 5, 0⟩] ++ [⟨.buy, Ex.d 97, Ex.d 5, 0⟩]) s' o ∧
    o.remaining = Ex.d 5 := by
  have h : (match run Ex.lin (State.init Ex.lin) (Ex.opsMoved.take 3) with
      | .ok s => (match s.active, step Ex.lin s (.amend 0 .buy (Ex.d 96) (Ex.d 5) 0) with
        | [old], .ok (s1, .limit (.ok o1)) =>
          (match step Ex.lin s1 (.amend o1.id .buy (Ex.d 97) (Ex.d 5) 0) with
          | .ok (_, .limit (.ok o)) => decide (old.id = 0 ∧ old.filledQuantity = Ex.d 3 ∧
              s.acct.balance .orderMargin ≠ 0 ∧ o.remaining = Ex.d 5)
          | _ => false)
        | _, _ => false)
      | _ => false) = true := by decide +kernel
  split at h
  · rename_i s hs
    split at h
    · rename_i old s1 o1 e1 e2
      split at h
      · rename_i s2 o e3
        obtain ⟨h1, h2, h3, h4⟩ := of_decide_eq_true h
        refine ⟨s, s2, old, o, ⟨_, hs⟩, by unfold soundConfig; decide, by rw [e1]; simp, h2, h3,
          .again (.once ?_) e3, h4⟩
        rw [h1]; exact e2
      · cases h
    · cases h
  · cases h

/-- Those of `C131_only_the_last_counts` are met, too: the same before the first fill. -/
example : ∃ s s' old o, Reachable Ex.lin s ∧ soundConfig Ex.lin ∧ old ∈ s.active ∧
    old.filledQuantity = 0 ∧
    Amended Ex.lin s old.id ([⟨.buy, Ex.d 96, Ex.d 5, 0⟩] ++ [⟨.sell, Ex.d 107, Ex.d 4, 2⟩]) s' o ∧
    o.remaining = Ex.d 4 := by
  have h : (match run Ex.lin (State.init Ex.lin) (Ex.opsMoved.take 2) with
      | .ok s => (match s.active, step Ex.lin s (.amend 0 .buy (Ex.d 96) (Ex.d 5) 0) with
        | [old], .ok (s1, .limit (.ok o1)) =>
          (match step Ex.lin s1 (.amend o1.id .sell (Ex.d 107) (Ex.d 4) 2) with
          | .ok (_, .limit (.ok o)) => decide (old.id = 0 ∧ old.filledQuantity = 0 ∧
              o.remaining = Ex.d 4)
          | _ => false)
        | _, _ => false)
      | _ => false) = true := by decide +kernel
  split at h
  · rename_i s hs
    split at h
    · rename_i old s1 o1 e1 e2
      split at h
      · rename_i s2 o e3
        obtain ⟨h1, h2, h4⟩ := of_decide_eq_true h
        refine ⟨s, s2, old, o, ⟨_, hs⟩, by unfold soundConfig; decide, by rw [e1]; simp, h2,
          .again (.once ?_) e3, h4⟩
        rw [h1]; exact e2
      · cases h
    · cases h
  · cases h

/-- C131: so an order whose total quantity is 5 from beginning to end, as submitted and in every
amendment, trades 8. -/
theorem C131_trades_too_much : ∃ s, run Ex.lin (State.init Ex.lin) Ex.opsMoved = .ok s ∧
    s.pos.quantity = Ex.d 8 ∧ s.active = [] ∧
    (∀ op ∈ Ex.opsMoved, match op with
      | .limit _ _ q _ => q = Ex.d 5
      | .amend _ _ _ q _ => q = Ex.d 5
      | .market .. => False
      | _ => True) ∧
    (Ex.opsMoved.filter (fun op => match op with | .limit .. => true | _ => false)).length = 1 := by
  have h : (match run Ex.lin (State.init Ex.lin) Ex.opsMoved with
      | .ok s => decide (s.pos.quantity = Ex.d 8 ∧ s.active = [])
      | _ => false) = true := by decide +kernel
  split at h
  · rename_i s hs
    obtain ⟨h1, h2⟩ := of_decide_eq_true h
    refine ⟨s, hs, h1, h2, ?_, rfl⟩
    intro op hop
    simp only [Ex.opsMoved, List.mem_cons, List.not_mem_nil, or_false] at hop
    rcases hop with rfl | rfl | rfl | rfl | rfl | rfl <;> trivial
  · cases h

end Lfest
