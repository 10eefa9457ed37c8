import Verif.SpecClean
import Verif.Returns
import Verif.Props.Batch

/-! # Renaming orders on the reference exchange -/

namespace Lfest

open Spec Ref

/-- The reference exchange with other order ids. -/
def ren (f : Nat → Nat) (n : Nat) (x : Ref.Exchange) : Ref.Exchange :=
  { x with orders := x.orders.map (Rename.limit f), next := n }

theorem marginReq_ren (f : Nat → Nat) (c : Cfg) (os : List Limit) (pos : Int) :
    marginReq c (os.map (Rename.limit f)) pos = marginReq c os pos := by
  rw [← marginReq_blank c os, ← marginReq_blank c (os.map _), List.map_map]; rfl

theorem required_ren (f : Nat → Nat) (n : Nat) (c : Cfg) (x : Ref.Exchange) :
    (ren f n x).required c = x.required c := marginReq_ren f c _ _

theorem takeOut_ren {f : Nat → Nat} {p q : Limit → Bool} {os : List Limit}
    (h : ∀ o ∈ os, q (Rename.limit f o) = p o) :
    takeOut q (os.map (Rename.limit f)) = (takeOut p os).map (Rename.limit f) := by
  induction os with
  | nil => rfl
  | cons o os ih =>
    simp only [List.map_cons, takeOut, h o List.mem_cons_self]
    split
    · simp only [List.getLast?_map]
      cases os.getLast? with
      | none => rfl
      | some z => simp [List.map_dropLast]
    · simp [ih (fun y hy => h y (List.mem_cons_of_mem _ hy))]

theorem find_ren {f : Nat → Nat} {p q : Limit → Bool} {os : List Limit}
    (h : ∀ o ∈ os, q (Rename.limit f o) = p o) :
    (os.map (Rename.limit f)).find? q = (os.find? p).map (Rename.limit f) := by
  induction os with
  | nil => rfl
  | cons o os ih =>
    simp only [List.map_cons, List.find?_cons, h o List.mem_cons_self]
    split
    · rfl
    · exact ih (fun y hy => h y (List.mem_cons_of_mem _ hy))

/-- Different active orders get different ids. -/
def InjOn (f : Nat → Nat) (os : List Limit) : Prop :=
  ∀ o ∈ os, ∀ o' ∈ os, f o.id = f o'.id → o.id = o'.id

theorem mem_takeOut {p : Limit → Bool} {os : List Limit} {o : Limit} (h : o ∈ takeOut p os) :
    o ∈ os := by
  induction os with
  | nil => exact h
  | cons y ys ih =>
    simp only [takeOut] at h
    split at h
    · split at h
      · cases h
      · next z hz =>
        rcases List.mem_cons.1 h with rfl | h
        · exact List.mem_cons_of_mem _ (List.mem_of_getLast? hz)
        · exact List.mem_cons_of_mem _ (List.dropLast_subset _ h)
    · rcases List.mem_cons.1 h with rfl | h
      · exact List.mem_cons_self
      · exact List.mem_cons_of_mem _ (ih h)

/-! ## Submitting -/

theorem affordable_ren (f : Nat → Nat) (n : Nat) (c : Cfg) (x : Ref.Exchange) (side : Side) (q : Int) :
    affordable c (ren f n x) side q = affordable c x side q := rfl

theorem limitOrder_ren {f : Nat → Nat} {c : Cfg} {x : Ref.Exchange} (side : Side) (p q : Int)
    (uid : Nat) :
    (ren f (f x.next) x).limitOrder c side p q uid =
      (ren f (f x.next + ((x.limitOrder c side p q uid).1.next - x.next))
        (x.limitOrder c side p q uid).1,
       (x.limitOrder c side p q uid).2.map (Rename.limit f)) := by
  unfold Ref.Exchange.limitOrder
  cases quantityError c.spec.quantityFilter q with
  | some err => simp [Except.map]
  | none =>
    cases hp : priceError c.env c.spec.priceFilter p (mid x.market) with
    | some err => simp [ren, hp, Except.map]
    | none =>
      have hr : ∀ o : Limit, marginReq c (x.orders.map (Rename.limit f) ++ [Rename.limit f o])
          x.book.qty = marginReq c (x.orders ++ [o]) x.book.qty := by
        intro o
        have := marginReq_ren f c (x.orders ++ [o]) x.book.qty
        simpa using this
      have hr' := hr ⟨uid, side, p, q, x.next, x.market.ts, .unfilled⟩
      simp only [Rename.limit] at hr'
      have h0 := marginReq_ren f c x.orders x.book.qty
      simp only [ren, hp, Ref.Exchange.required, Ref.Exchange.wallet, hr', h0, List.length_map]
      split
      · next h1 => simp [h1, Except.map]
      · next h1 =>
        split
        · simp [Except.map]
        · split
          · simp [Except.map]
          · simp [Except.map, Rename.limit]

theorem limitReturns_ren {f : Nat → Nat} {c : Cfg} {x : Ref.Exchange} {side : Side} {p q : Int}
    {uid : Nat} : (ren f (f x.next) x).limitReturns c side p q uid ↔
      x.limitReturns c side p q uid := by
  simp only [Ref.Exchange.limitReturns, limitOrder_ren]; rfl

/-! ## Cancelling and amending -/

/-- The call names an active order. -/
def Named (x : Ref.Exchange) (id : Nat) : Prop := ∃ o ∈ x.orders, o.id = id

theorem beq_ren {f : Nat → Nat} {os : List Limit} {id : Nat} (hf : InjOn f os)
    (h : ∃ o ∈ os, o.id = id) : ∀ o ∈ os, ((Rename.limit f o).id == f id) = (o.id == id) := by
  obtain ⟨z, hz, rfl⟩ := h
  intro o ho
  rw [Bool.eq_iff_iff]
  simp only [beq_iff_eq, Rename.limit]
  exact ⟨hf o ho z hz, fun e => by rw [e]⟩

/-- The order ids in a cancellation. -/
def cancelBy (f : Nat → Nat) : CancelBy → CancelBy
  | .orderId id => .orderId (f id)
  | b => b

theorem names_ren {f : Nat → Nat} {os : List Limit} {b : CancelBy} (hf : InjOn f os)
    (h : ∀ id, b = .orderId id → ∃ o ∈ os, o.id = id) :
    ∀ o ∈ os, names (cancelBy f b) (Rename.limit f o) = names b o := by
  intro o ho
  cases b with
  | orderId id => exact beq_ren hf (h id rfl) o ho
  | userOrderId uid => rfl

theorem cancel_ren {f : Nat → Nat} {c : Cfg} {x : Ref.Exchange} {b : CancelBy} {n : Nat}
    (hf : InjOn f x.orders) (h : ∀ id, b = .orderId id → ∃ o ∈ x.orders, o.id = id) :
    (ren f n x).cancel c (cancelBy f b) =
      (ren f n (x.cancel c b).1, (x.cancel c b).2.map (Rename.limit f)) := by
  have hn := names_ren hf h
  simp only [Ref.Exchange.cancel]
  have e : (ren f n x).orders = x.orders.map (Rename.limit f) := rfl
  rw [e, find_ren hn, takeOut_ren hn]
  cases hx : x.orders.find? (names b) with
  | none =>
    cases b with
    | orderId id =>
      obtain ⟨o, ho, hi⟩ := h id rfl
      have := List.find?_eq_none.1 hx o ho
      simp [names, hi] at this
    | userOrderId uid => simp [Except.map, cancelBy]
  | some o =>
    have := marginReq_ren f c (takeOut (names b) x.orders) x.book.qty
    simp only [Option.map_some, Except.map, ren, Ref.Exchange.required, this]

theorem cancelReturns_ren {f : Nat → Nat} {c : Cfg} {x : Ref.Exchange} {b : CancelBy} {n : Nat}
    (hf : InjOn f x.orders) (h : ∀ id, b = .orderId id → ∃ o ∈ x.orders, o.id = id) :
    (ren f n x).cancelReturns c (cancelBy f b) ↔ x.cancelReturns c b := by
  simp only [Ref.Exchange.cancelReturns, cancel_ren hf h, required_ren]; rfl

theorem cancel_next (c : Cfg) (x : Ref.Exchange) (b : CancelBy) : (x.cancel c b).1.next = x.next := by
  unfold Ref.Exchange.cancel; split <;> rfl

theorem amend_ren {f : Nat → Nat} {c : Cfg} {x : Ref.Exchange} {id : Nat} (side : Side) (p q : Int)
    (uid : Nat) (hf : InjOn f x.orders) (h : ∃ o ∈ x.orders, o.id = id) :
    (ren f (f x.next) x).amend c (f id) side p q uid =
      (ren f (f x.next + ((x.amend c id side p q uid).1.next - x.next))
        (x.amend c id side p q uid).1,
       (x.amend c id side p q uid).2.map (Rename.limit f)) := by
  have hc := cancel_ren (c := c) (b := .orderId id) (n := f x.next) hf
    (fun i e => by cases e; exact h)
  simp only [cancelBy] at hc
  have hb := beq_ren hf h
  simp only [Ref.Exchange.amend, hc]
  have e : (ren f (f x.next) x).orders = x.orders.map (Rename.limit f) := rfl
  rw [e, find_ren hb]
  cases hx : x.orders.find? (fun o => o.id == id) with
  | none =>
    obtain ⟨o, ho, hi⟩ := h
    have := List.find?_eq_none.1 hx o ho
    simp [hi] at this
  | some old =>
    simp only [Option.map_some]
    have e2 : (Rename.limit f old).filledQuantity = old.filledQuantity := rfl
    rw [e2]
    have hn := cancel_next c x (.orderId id)
    split
    · simp [hn, Except.map]
    · have := limitOrder_ren (f := f) (c := c) (x := (x.cancel c (.orderId id)).1) side p
        (q - old.filledQuantity) uid
      rw [hn] at this
      exact this

theorem amendReturns_ren {f : Nat → Nat} {c : Cfg} {x : Ref.Exchange} {id : Nat} {side : Side}
    {p q : Int} {uid : Nat} (hf : InjOn f x.orders) (h : ∃ o ∈ x.orders, o.id = id) :
    (ren f (f x.next) x).amendReturns c (f id) side p q uid ↔ x.amendReturns c id side p q uid := by
  have hc := cancel_ren (c := c) (b := .orderId id) (n := f x.next) hf
    (fun i e => by cases e; exact h)
  have hr := cancelReturns_ren (c := c) (b := .orderId id) (n := f x.next) hf
    (fun i e => by cases e; exact h)
  simp only [cancelBy] at hc hr
  have hb := beq_ren hf h
  simp only [Ref.Exchange.amendReturns, hc, hr]
  have e : (ren f (f x.next) x).orders = x.orders.map (Rename.limit f) := rfl
  rw [e, find_ren hb]
  cases hx : x.orders.find? (fun o => o.id == id) with
  | none => simp
  | some old =>
    simp only [Option.map_some]
    have hl := limitReturns_ren (f := f) (c := c) (x := (x.cancel c (.orderId id)).1) (side := side)
      (p := p) (q := q - old.filledQuantity) (uid := uid)
    rw [cancel_next] at hl
    have e2 : (Rename.limit f old).filledQuantity = old.filledQuantity := rfl
    rw [e2, hl]

/-! ## Market updates -/

theorem fillRule_ren {u : UpdateArg} (hu : isCustom u = false ∨ mayFill u = false) (f : Nat → Nat)
    (o : Limit) : fillRule u (Rename.limit f o) = fillRule u o := by
  cases u <;> first | rfl | (simp [isCustom, mayFill] at hu; simp [fillRule, hu])

theorem books_ren {f : Nat → Nat} {n : Nat} {c : Cfg} {x : Ref.Exchange} {g : Fill} :
    (ren f n x).books c g ↔ x.books c g := Iff.rfl

/-- All active orders stem from the list. -/
def From (L : List Limit) (x : Ref.Exchange) : Prop := ∀ y ∈ x.orders, ∃ z ∈ L, z.id = y.id

theorem matched_from {L : List Limit} {c : Cfg} {u : UpdateArg} {x : Ref.Exchange} {o : Limit}
    (ho : o ∈ L) (h : From L x) : From L (x.matched c u o) := by
  unfold Ref.Exchange.matched
  split
  · exact h
  · intro y hy
    dsimp only at hy
    split at hy
    · exact h y (mem_takeOut hy)
    · obtain ⟨w, hw, rfl⟩ := List.mem_map.1 hy
      split
      · exact ⟨o, ho, rfl⟩
      · exact h w hw

theorem matched_ren {f : Nat → Nat} {n : Nat} {L : List Limit} {c : Cfg} {u : UpdateArg}
    (hu : isCustom u = false ∨ mayFill u = false) (hf : InjOn f L)
    {x : Ref.Exchange} {o : Limit} (ho : o ∈ L) (h : From L x) :
    (ren f n x).matched c u (Rename.limit f o) = ren f n (x.matched c u o) := by
  have hb : ∀ y ∈ x.orders, (f y.id == f o.id) = (y.id == o.id) := by
    intro y hy
    obtain ⟨z, hz, hi⟩ := h y hy
    rw [Bool.eq_iff_iff]
    simp only [beq_iff_eq, ← hi]
    exact ⟨hf z hz o ho, fun e => by rw [e]⟩
  unfold Ref.Exchange.matched
  rw [fillRule_ren hu]
  cases fillRule u o with
  | none => rfl
  | some q =>
    have e1 : takeOut (fun y => y.id == (Rename.limit f o).id) (x.orders.map (Rename.limit f)) =
        (takeOut (fun y => y.id == o.id) x.orders).map (Rename.limit f) := takeOut_ren hb
    have e2 : (x.orders.map (Rename.limit f)).map
        (fun y => if y.id = (Rename.limit f o).id then filledBy c.env (Rename.limit f o) q else y) =
        (x.orders.map (fun y => if y.id = o.id then filledBy c.env o q else y)).map
          (Rename.limit f) := by
      simp only [List.map_map]
      apply List.map_congr_left
      intro y hy
      have := hb y hy
      rw [Bool.eq_iff_iff] at this
      simp only [beq_iff_eq] at this
      simp only [Function.comp, Rename.limit, this]
      split <;> rfl
    have e3 : (ren f n x).orders = x.orders.map (Rename.limit f) := rfl
    simp only [e3, e1, e2]
    have e4 : (if q = (Rename.limit f o).remaining then
        (takeOut (fun y => y.id == o.id) x.orders).map (Rename.limit f)
        else (x.orders.map (fun y => if y.id = o.id then filledBy c.env o q else y)).map
          (Rename.limit f)) =
        (if q = o.remaining then takeOut (fun y => y.id == o.id) x.orders
        else x.orders.map (fun y => if y.id = o.id then filledBy c.env o q else y)).map
          (Rename.limit f) := by
      by_cases hq : q = o.remaining
      · rw [if_pos hq, if_pos (show q = (Rename.limit f o).remaining from hq)]
      · rw [if_neg hq, if_neg (show ¬ q = (Rename.limit f o).remaining from hq)]
    rw [e4]
    generalize (if q = o.remaining then takeOut (fun y => y.id == o.id) x.orders
        else x.orders.map (fun y => if y.id = o.id then filledBy c.env o q else y)) = os
    have e5 : ∀ pos, marginReq c (os.map (Rename.limit f)) pos = marginReq c os pos :=
      marginReq_ren f c os
    simp only [ren, Ref.Exchange.fill, Ref.Exchange.required, e5]
    rfl

theorem fold_ren {f : Nat → Nat} {n : Nat} {L : List Limit} {c : Cfg} {u : UpdateArg}
    (hu : isCustom u = false ∨ mayFill u = false) (hf : InjOn f L) :
    ∀ (l : List Limit) (x : Ref.Exchange), (∀ o ∈ l, o ∈ L) → From L x →
    (l.map (Rename.limit f)).foldl (Ref.Exchange.matched c u) (ren f n x) =
      ren f n (l.foldl (Ref.Exchange.matched c u) x) := by
  intro l
  induction l with
  | nil => intros; rfl
  | cons o l ih =>
    intro x hl h
    have ho := hl o List.mem_cons_self
    simp only [List.map_cons, List.foldl_cons, matched_ren hu hf ho h]
    exact ih _ (fun y hy => hl y (List.mem_cons_of_mem _ hy)) (matched_from ho h)

theorem matchAll_ren {f : Nat → Nat} {n : Nat} {c : Cfg} {u : UpdateArg} {x : Ref.Exchange}
    (hu : isCustom u = false ∨ mayFill u = false) (hf : InjOn f x.orders) :
    (ren f n x).matchAll c u = ren f n (x.matchAll c u) :=
  fold_ren hu hf x.orders x (fun _ h => h) (fun y hy => ⟨y, hy, rfl⟩)

theorem eachReturns_ren {f : Nat → Nat} {n : Nat} {L : List Limit} {c : Cfg} {u : UpdateArg}
    (hu : isCustom u = false ∨ mayFill u = false) (hf : InjOn f L) :
    ∀ (l : List Limit) (x : Ref.Exchange), (∀ o ∈ l, o ∈ L) → From L x →
    ((ren f n x).eachReturns c u (l.map (Rename.limit f)) ↔ x.eachReturns c u l) := by
  intro l
  induction l with
  | nil => intros; rfl
  | cons o l ih =>
    intro x hl h
    have ho := hl o List.mem_cons_self
    simp only [List.map_cons, Ref.Exchange.eachReturns, matched_ren hu hf ho h]
    rw [ih _ (fun y hy => hl y (List.mem_cons_of_mem _ hy)) (matched_from ho h)]
    simp only [Ref.Exchange.matchReturns, matched_ren hu hf ho h, fillRule_ren hu, required_ren]
    rfl

theorem matchAllReturns_ren {f : Nat → Nat} {n : Nat} {c : Cfg} {u : UpdateArg} {x : Ref.Exchange}
    (hu : isCustom u = false ∨ mayFill u = false) (hf : InjOn f x.orders) :
    (ren f n x).matchAllReturns c u ↔ x.matchAllReturns c u := by
  have h1 := eachReturns_ren (n := n) (c := c) hu hf x.orders x (fun _ h => h)
    (fun y hy => ⟨y, hy, rfl⟩)
  have e : (ren f n x).orders = x.orders.map (Rename.limit f) := rfl
  simp only [Ref.Exchange.matchAllReturns, matchAll_ren hu hf, required_ren, e, h1, List.map_eq_nil_iff]
  rfl

theorem reports_ren {f : Nat → Nat} {e : Env} {u : UpdateArg}
    (hu : isCustom u = false ∨ mayFill u = false) (l : List Limit) :
    reports e u (l.map (Rename.limit f)) = (reports e u l).map (Rename.limitUpdate f) := by
  induction l with
  | nil => rfl
  | cons o l ih =>
    simp only [reports] at ih
    simp only [reports, List.map_cons, List.filterMap_cons, fillRule_ren hu, ih]
    cases fillRule u o with
    | none => rfl
    | some q =>
      cases updateTime u with
      | none => rfl
      | some ts =>
        simp only [List.map_cons, List.cons.injEq, and_true]
        unfold report
        by_cases hq : q = o.remaining
        · rw [if_pos hq, if_pos (show q = (Rename.limit f o).remaining from hq)]; rfl
        · rw [if_neg hq, if_neg (show ¬ q = (Rename.limit f o).remaining from hq)]; rfl

theorem matched_next (c : Cfg) (u : UpdateArg) (x : Ref.Exchange) (o : Limit) :
    (x.matched c u o).next = x.next := by
  unfold Ref.Exchange.matched; split <;> rfl

theorem matchAll_next (c : Cfg) (u : UpdateArg) (x : Ref.Exchange) :
    (x.matchAll c u).next = x.next := by
  unfold Ref.Exchange.matchAll
  generalize x.orders = l
  induction l generalizing x with
  | nil => rfl
  | cons o l ih => rw [List.foldl_cons, ih, matched_next]

theorem update_down {c : Cfg} {u : UpdateArg} {x : Ref.Exchange}
    (h : ({ x with market := seen x.market [.update u] } : Ref.Exchange).underwater c = true) :
    x.update c u = ({ ({ x with market := seen x.market [.update u] } : Ref.Exchange).fill c
      (if 0 < x.book.qty then ⟨false, .sell, (seen x.market [.update u]).bid, x.book.qty⟩
      else ⟨false, .buy, (seen x.market [.update u]).ask, -x.book.qty⟩) with next := x.next + 1 },
      .error (.risk .liquidate)) := by
  unfold Ref.Exchange.update; dsimp only; rw [if_pos h]

theorem update_up {c : Cfg} {u : UpdateArg} {x : Ref.Exchange}
    (h : ¬ ({ x with market := seen x.market [.update u] } : Ref.Exchange).underwater c = true) :
    x.update c u = (({ x with market := seen x.market [.update u] } : Ref.Exchange).matchAll c u,
      .ok (reports c.env u x.orders)) := by
  unfold Ref.Exchange.update; dsimp only; rw [if_neg h]

theorem update_ren {f : Nat → Nat} {c : Cfg} {u : UpdateArg} {x : Ref.Exchange}
    (hu : isCustom u = false ∨ mayFill u = false) (hf : InjOn f x.orders) :
    (ren f (f x.next) x).update c u =
      (ren f (f x.next + ((x.update c u).1.next - x.next)) (x.update c u).1,
       (x.update c u).2.map (List.map (Rename.limitUpdate f))) := by
  have hm : (ren f (f x.next) { x with market := seen x.market [.update u] }).matchAll c u =
      ren f (f x.next) (({ x with market := seen x.market [.update u] } : Ref.Exchange).matchAll c u) :=
    matchAll_ren hu hf
  have hn := matchAll_next c u { x with market := seen x.market [.update u] }
  by_cases hw : ({ x with market := seen x.market [.update u] } : Ref.Exchange).underwater c = true
  · have a := update_down hw
    have b := update_down (x := ren f (f x.next) x) (u := u) (c := c) hw
    rw [a, b]
    simp only [Nat.add_sub_cancel_left]
    rfl
  · have a := update_up hw
    have b := update_up (x := ren f (f x.next) x) (u := u) (c := c) hw
    rw [a, b, show (ren f (f x.next) x).orders = x.orders.map (Rename.limit f) from rfl,
      reports_ren hu]
    simp only [hn, Nat.sub_self, Nat.add_zero, Except.map, Prod.mk.injEq, and_true]
    exact hm

theorem updateReturns_ren {f : Nat → Nat} {n : Nat} {c : Cfg} {u : UpdateArg} {x : Ref.Exchange}
    (hu : isCustom u = false ∨ mayFill u = false) (hf : InjOn f x.orders) :
    (ren f n x).updateReturns c u ↔ x.updateReturns c u := by
  have e0 : { ren f n x with market := seen (ren f n x).market [.update u] } =
      ren f n { x with market := seen x.market [.update u] } := rfl
  have hm : (ren f n { x with market := seen x.market [.update u] }).matchAllReturns c u ↔
      ({ x with market := seen x.market [.update u] } : Ref.Exchange).matchAllReturns c u :=
    matchAllReturns_ren hu hf
  simp only [Ref.Exchange.updateReturns, e0, hm]
  rfl

/-! ## One call -/

theorem marketOrder_ren {f : Nat → Nat} {c : Cfg} {x : Ref.Exchange} (side : Side) (q : Int)
    (uid : Nat) :
    (ren f (f x.next) x).marketOrder c side q uid =
      (ren f (f x.next + ((x.marketOrder c side q uid).1.next - x.next))
        (x.marketOrder c side q uid).1,
       (x.marketOrder c side q uid).2.map (Rename.filledMarket f)) := by
  unfold Ref.Exchange.marketOrder
  cases quantityError c.spec.quantityFilter q with
  | some err => simp [Except.map]
  | none =>
    have ha := affordable_ren f (f x.next) c x side q
    by_cases h : affordable c x side q = true
    · rw [h] at ha
      simp only [h, ha]
      simp [Except.map, ren, Ref.Exchange.fill, Rename.filledMarket]
    · simp only [h, ha]
      simp [Except.map, ren]

/-- Effective calls that name an order name an active one. -/
theorem effective_named {c : Cfg} {x : Ref.Exchange} :
    (∀ id side p q uid, effective (.amend id side p q uid, (x.call c (.amend id side p q uid)).2) = true →
      ∃ o ∈ x.orders, o.id = id) ∧
    (∀ id, effective (.cancel (.orderId id), (x.call c (.cancel (.orderId id))).2) = true →
      ∃ o ∈ x.orders, o.id = id) := by
  constructor
  · intro id side p q uid h
    cases hx : x.orders.find? (fun o => o.id == id) with
    | none =>
      exfalso
      simp only [Ref.Exchange.call, Ref.Exchange.amend, hx, Ref.Exchange.missing] at h
      split at h
      · simp [effective] at h
      · split at h
        · simp [effective] at h
        · split at h <;> simp [effective] at h
    | some o => exact ⟨o, List.mem_of_find?_eq_some hx, by simpa using List.find?_some hx⟩
  · intro id h
    cases hx : x.orders.find? (fun o => o.id == id) with
    | none =>
      exfalso
      have hx' : x.orders.find? (names (.orderId id)) = none := hx
      simp [Ref.Exchange.call, Ref.Exchange.cancel, hx', effective] at h
    | some o => exact ⟨o, List.mem_of_find?_eq_some hx, by simpa using List.find?_some hx⟩

theorem resp_limit (f : Nat → Nat) (r : Except Error Limit) :
    Resp.limit (r.map (Rename.limit f)) = Rename.resp f (.limit r) := by cases r <;> rfl

theorem resp_market (f : Nat → Nat) (r : Except Error FilledMarket) :
    Resp.market (r.map (Rename.filledMarket f)) = Rename.resp f (.market r) := by cases r <;> rfl

theorem resp_update (f : Nat → Nat) (r : Except Error (List LimitUpdate)) :
    Resp.update (r.map (List.map (Rename.limitUpdate f))) = Rename.resp f (.update r) := by
  cases r <;> rfl

theorem call_ren {f : Nat → Nat} {c : Cfg} {x : Ref.Exchange} {op : Op} (hu : namesNone op)
    (hf : InjOn f x.orders) (he : effective (op, (x.call c op).2) = true) :
    (ren f (f x.next) x).call c (Rename.op f op) =
      (ren f (f x.next + ((x.call c op).1.next - x.next)) (x.call c op).1,
       Rename.resp f (x.call c op).2) := by
  cases op with
  | update u => simp only [Rename.op, Ref.Exchange.call, update_ren hu hf, resp_update]
  | checkActive u =>
    simp only [Rename.op, Ref.Exchange.call, matchAll_ren hu hf, matchAll_next, Nat.sub_self,
      Nat.add_zero, Rename.resp]
  | market side q uid =>
    simp only [Rename.op, Ref.Exchange.call]
    split
    · simp [Rename.resp]
    · simp only [marketOrder_ren, resp_market]
  | limit side p q uid =>
    simp only [Rename.op, Ref.Exchange.call]
    split
    · simp [Rename.resp]
    · split
      · simp [Rename.resp]
      · simp only [limitOrder_ren, resp_limit]
  | amend id side p q uid =>
    have h := effective_named.1 _ _ _ _ _ he
    simp only [Rename.op, Ref.Exchange.call]
    split
    · simp [Rename.resp]
    · split
      · simp [Rename.resp]
      · simp only [amend_ren _ _ _ _ hf h, resp_limit]
  | cancel b =>
    have h : ∀ id, b = .orderId id → ∃ o ∈ x.orders, o.id = id := by
      rintro id rfl; exact effective_named.2 _ he
    have hc := cancel_ren (c := c) (n := f x.next) hf h
    have e : Rename.op f (.cancel b) = .cancel (cancelBy f b) := by cases b <;> rfl
    simp only [e, Ref.Exchange.call, hc, resp_limit, cancel_next, Nat.sub_self, Nat.add_zero]

theorem returns_ren {f : Nat → Nat} {c : Cfg} {x : Ref.Exchange} {op : Op} (hu : namesNone op)
    (hf : InjOn f x.orders) (he : effective (op, (x.call c op).2) = true) :
    (ren f (f x.next) x).returns c (Rename.op f op) ↔ x.returns c op := by
  cases op with
  | update u => simp only [Rename.op, Ref.Exchange.returns, updateReturns_ren hu hf]
  | checkActive u => simp only [Rename.op, Ref.Exchange.returns, matchAllReturns_ren hu hf]
  | market side q uid => exact Iff.rfl
  | limit side p q uid => simp only [Rename.op, Ref.Exchange.returns, limitReturns_ren]
  | amend id side p q uid =>
    have h := effective_named.1 _ _ _ _ _ he
    simp only [Rename.op, Ref.Exchange.returns, amendReturns_ren hf h]
  | cancel b =>
    have h : ∀ id, b = .orderId id → ∃ o ∈ x.orders, o.id = id := by
      rintro id rfl; exact effective_named.2 _ he
    have e : Rename.op f (.cancel b) = .cancel (cancelBy f b) := by cases b <;> rfl
    rw [e]
    exact cancelReturns_ren hf h

/-- A call without effect at most uses up an order id. -/
theorem ineffective {c : Cfg} {x : Ref.Exchange} {op : Op}
    (he : effective (op, (x.call c op).2) = false) :
    ∃ n, x.next ≤ n ∧ (x.call c op).1 = { x with next := n } := by
  have hl : ∀ (y : Ref.Exchange) side p q uid err, (y.limitOrder c side p q uid).2 = .error err →
      ∃ n, y.next ≤ n ∧ (y.limitOrder c side p q uid).1 = { y with next := n } := by
    intro y side p q uid err h
    unfold Ref.Exchange.limitOrder at h ⊢
    split
    · exact ⟨_, Nat.le_refl _, rfl⟩
    · next hq =>
      split
      · exact ⟨_, Nat.le_refl _, rfl⟩
      · next hp =>
        simp only [hq, hp] at h
        dsimp only
        split
        · exact ⟨_, Nat.le_succ _, rfl⟩
        · next h1 =>
          rw [if_neg h1] at h
          split
          · exact ⟨_, Nat.le_succ _, rfl⟩
          · next h2 =>
            rw [if_neg h2] at h
            split
            · exact ⟨_, Nat.le_succ _, rfl⟩
            · next h3 => rw [if_neg h3] at h; cases h
  cases op with
  | update u => simp [Ref.Exchange.call, effective] at he
  | checkActive u => simp [Ref.Exchange.call, effective] at he
  | market side q uid =>
    simp only [Ref.Exchange.call] at he ⊢
    split
    · exact ⟨_, Nat.le_refl _, rfl⟩
    · next h0 =>
      rw [if_neg h0] at he
      unfold Ref.Exchange.marketOrder at he ⊢
      split
      · exact ⟨_, Nat.le_refl _, rfl⟩
      · next hq =>
        simp only [hq] at he
        dsimp only
        split
        · next h1 => rw [if_pos h1] at he; simp [effective] at he
        · exact ⟨_, Nat.le_succ _, rfl⟩
  | limit side p q uid =>
    simp only [Ref.Exchange.call] at he ⊢
    split
    · exact ⟨_, Nat.le_refl _, rfl⟩
    · next h0 =>
      rw [if_neg h0] at he
      split
      · exact ⟨_, Nat.le_refl _, rfl⟩
      · next h1 =>
        rw [if_neg h1] at he
        cases hr : (x.limitOrder c side p q uid).2 with
        | ok o => simp [hr, effective] at he
        | error err => exact hl _ _ _ _ _ _ hr
  | amend id side p q uid =>
    simp only [Ref.Exchange.call] at he ⊢
    split
    · exact ⟨_, Nat.le_refl _, rfl⟩
    · next h0 =>
      rw [if_neg h0] at he
      split
      · exact ⟨_, Nat.le_refl _, rfl⟩
      · next h1 =>
        rw [if_neg h1] at he
        unfold Ref.Exchange.amend at he ⊢
        split
        · exact ⟨_, Nat.le_refl _, rfl⟩
        · next old ho =>
          exfalso
          simp only [ho] at he
          split at he
          · simp [effective] at he
          · unfold Ref.Exchange.limitOrder at he
            dsimp only at he
            split at he
            · simp [effective] at he
            · split at he
              · simp [effective] at he
              · repeat' split at he
                all_goals simp [effective] at he
  | cancel b =>
    simp only [Ref.Exchange.call, Ref.Exchange.cancel] at he ⊢
    split
    · exact ⟨_, Nat.le_refl _, rfl⟩
    · next o ho => simp [ho, effective] at he

/-! ## The ids in use -/

/-- Every order of `y` is an order of `x` or got the id `x.next`. -/
def Grows (x y : Ref.Exchange) : Prop :=
  x.next ≤ y.next ∧ ∀ o ∈ y.orders, (∃ z ∈ x.orders, z.id = o.id) ∨ (o.id = x.next ∧ x.next < y.next)

theorem Grows.refl (x : Ref.Exchange) : Grows x x :=
  ⟨Nat.le_refl _, fun o ho => .inl ⟨o, ho, rfl⟩⟩

theorem limitOrder_grows (c : Cfg) (x : Ref.Exchange) (side : Side) (p q : Int) (uid : Nat) :
    Grows x (x.limitOrder c side p q uid).1 ∧
    ∀ o, (x.limitOrder c side p q uid).2 = .ok o → o.id < (x.limitOrder c side p q uid).1.next := by
  have h1 : Grows x { x with next := x.next + 1 } :=
    ⟨Nat.le_succ _, fun o ho => .inl ⟨o, ho, rfl⟩⟩
  unfold Ref.Exchange.limitOrder
  split
  · exact ⟨Grows.refl x, fun o e => (by cases e)⟩
  · split
    · exact ⟨Grows.refl x, fun o e => (by cases e)⟩
    · dsimp only
      split
      · exact ⟨h1, fun o e => (by cases e)⟩
      · split
        · exact ⟨h1, fun o e => (by cases e)⟩
        · split
          · exact ⟨h1, fun o e => (by cases e)⟩
          · refine ⟨⟨Nat.le_succ _, fun o ho => ?_⟩, fun o e => ?_⟩
            · rcases List.mem_append.1 ho with h | h
              · exact .inl ⟨o, h, rfl⟩
              · simp only [List.mem_singleton] at h
                subst h
                exact .inr ⟨rfl, Nat.lt_succ_self _⟩
            · cases e; exact Nat.lt_succ_self _

theorem cancel_grows (c : Cfg) (x : Ref.Exchange) (b : CancelBy) :
    Grows x (x.cancel c b).1 ∧ ∀ o, (x.cancel c b).2 = .ok o → o ∈ x.orders := by
  unfold Ref.Exchange.cancel
  split
  · exact ⟨Grows.refl x, fun o e => (by cases e)⟩
  · next o' h =>
    exact ⟨⟨Nat.le_refl _, fun o ho => .inl ⟨o, mem_takeOut ho, rfl⟩⟩,
      fun o e => by cases e; exact List.mem_of_find?_eq_some h⟩

theorem amend_grows (c : Cfg) (x : Ref.Exchange) (id : Nat) (side : Side) (p q : Int) (uid : Nat) :
    Grows x (x.amend c id side p q uid).1 ∧
    ∀ o, (x.amend c id side p q uid).2 = .ok o → o.id < (x.amend c id side p q uid).1.next := by
  unfold Ref.Exchange.amend
  split
  · exact ⟨Grows.refl x, fun o e => (by cases e)⟩
  · next old _ =>
    have hc := (cancel_grows c x (.orderId id)).1
    dsimp only
    split
    · exact ⟨hc, fun o e => (by cases e)⟩
    · have hl := limitOrder_grows c (x.cancel c (.orderId id)).1 side p (q - old.filledQuantity) uid
      refine ⟨⟨Nat.le_trans hc.1 hl.1.1, fun o ho => ?_⟩, hl.2⟩
      rcases hl.1.2 o ho with ⟨z, hz, e⟩ | ⟨e, h⟩
      · rcases hc.2 z hz with ⟨w, hw, e'⟩ | ⟨_, h'⟩
        · exact .inl ⟨w, hw, e'.trans e⟩
        · rw [cancel_next] at h'; omega
      · rw [cancel_next] at e h
        exact .inr ⟨e, h⟩

theorem fold_from {L : List Limit} {c : Cfg} {u : UpdateArg} :
    ∀ (l : List Limit) (x : Ref.Exchange), (∀ o ∈ l, o ∈ L) → From L x →
      From L (l.foldl (Ref.Exchange.matched c u) x) := by
  intro l
  induction l with
  | nil => intro x _ h; exact h
  | cons o l ih =>
    intro x hl h
    exact ih _ (fun y hy => hl y (List.mem_cons_of_mem _ hy)) (matched_from (hl o List.mem_cons_self) h)

theorem matchAll_grows (c : Cfg) (u : UpdateArg) (x : Ref.Exchange) : Grows x (x.matchAll c u) :=
  ⟨by rw [matchAll_next]; exact Nat.le_refl _, fun o ho =>
    .inl (fold_from x.orders x (fun _ h => h) (fun y hy => ⟨y, hy, rfl⟩) o ho)⟩

theorem reports_ids {e : Env} {u : UpdateArg} {f g : Nat → Nat} {os : List Limit}
    (h : ∀ o ∈ os, f o.id = g o.id) :
    (reports e u os).map (Rename.limitUpdate f) = (reports e u os).map (Rename.limitUpdate g) := by
  apply List.map_congr_left
  intro r hr
  simp only [reports, List.mem_filterMap] at hr
  obtain ⟨o, ho, hr⟩ := hr
  split at hr
  · cases hr
    unfold report
    split
    · simp only [Rename.limitUpdate, Rename.filledLimit, h o ho]
    · simp only [Rename.limitUpdate, Rename.limit, filledBy, h o ho]
  · cases hr

/-- After a call, the active orders are old ones or the one just made, and its answer names no ids
that have not been given out. -/
theorem call_ids (c : Cfg) (x : Ref.Exchange) (op : Op) (hx : ∀ o ∈ x.orders, o.id < x.next) :
    Grows x (x.call c op).1 ∧ ∀ f g : Nat → Nat, (∀ i < (x.call c op).1.next, f i = g i) →
      Rename.resp f (x.call c op).2 = Rename.resp g (x.call c op).2 := by
  have lim : ∀ (r : Except Error Limit) (n : Nat), (∀ o, r = .ok o → o.id < n) →
      ∀ f g : Nat → Nat, (∀ i < n, f i = g i) → Rename.resp f (.limit r) = Rename.resp g (.limit r) := by
    intro r n h f g hfg
    cases r with
    | error err => rfl
    | ok o => simp only [Rename.resp, Rename.limit, hfg _ (h o rfl)]
  cases op with
  | update u =>
    simp only [Ref.Exchange.call]
    by_cases hw : ({ x with market := seen x.market [.update u] } : Ref.Exchange).underwater c = true
    · rw [update_down hw]
      exact ⟨⟨Nat.le_succ _, fun o ho => .inl ⟨o, ho, rfl⟩⟩, fun f g _ => rfl⟩
    · rw [update_up hw]
      have hg := matchAll_grows c u { x with market := seen x.market [.update u] }
      refine ⟨hg, fun f g hfg => ?_⟩
      simp only [Rename.resp]
      rw [reports_ids (fun o ho => hfg o.id (Nat.lt_of_lt_of_le (hx o ho) hg.1))]
  | checkActive u => exact ⟨matchAll_grows c u x, fun f g _ => rfl⟩
  | market side q uid =>
    simp only [Ref.Exchange.call]
    split
    · exact ⟨Grows.refl x, fun f g _ => rfl⟩
    · unfold Ref.Exchange.marketOrder
      split
      · exact ⟨Grows.refl x, fun f g _ => rfl⟩
      · dsimp only
        split
        · refine ⟨⟨Nat.le_succ _, fun o ho => .inl ⟨o, ho, rfl⟩⟩, fun f g hfg => ?_⟩
          simp only [Rename.resp, Rename.filledMarket]
          rw [hfg x.next (Nat.lt_succ_self _)]
        · exact ⟨⟨Nat.le_succ _, fun o ho => .inl ⟨o, ho, rfl⟩⟩, fun f g _ => rfl⟩
  | limit side p q uid =>
    simp only [Ref.Exchange.call]
    split
    · exact ⟨Grows.refl x, fun f g _ => rfl⟩
    · split
      · exact ⟨Grows.refl x, fun f g _ => rfl⟩
      · have h := limitOrder_grows c x side p q uid
        exact ⟨h.1, lim _ _ h.2⟩
  | amend id side p q uid =>
    simp only [Ref.Exchange.call]
    split
    · exact ⟨Grows.refl x, fun f g _ => rfl⟩
    · split
      · exact ⟨Grows.refl x, fun f g _ => rfl⟩
      · have h := amend_grows c x id side p q uid
        exact ⟨h.1, lim _ _ h.2⟩
  | cancel b =>
    have h := cancel_grows c x b
    exact ⟨h.1, lim _ _ (fun o e => Nat.lt_of_lt_of_le (hx o (h.2 o e)) h.1.1)⟩

/-! ## Histories -/

/-- The ids `f` gives the active orders can be used on, with `n` the next one. -/
structure IdsFit (f : Nat → Nat) (n : Nat) (x : Ref.Exchange) : Prop where
  fresh : ∀ o ∈ x.orders, o.id < x.next
  below : ∀ o ∈ x.orders, f o.id < n
  inj : InjOn f x.orders

theorem ren_congr {f g : Nat → Nat} {n : Nat} {x : Ref.Exchange} (h : ∀ o ∈ x.orders, f o.id = g o.id) :
    ren f n x = ren g n x := by
  unfold ren
  congr 1
  apply List.map_congr_left
  intro o ho
  simp only [Rename.limit, h o ho]

theorem op_congr {c : Cfg} {x : Ref.Exchange} {op : Op} {f g : Nat → Nat}
    (h : ∀ o ∈ x.orders, f o.id = g o.id) (he : effective (op, (x.call c op).2) = true) :
    Rename.op f op = Rename.op g op := by
  cases op with
  | amend id side p q uid =>
    obtain ⟨o, ho, rfl⟩ := effective_named.1 _ _ _ _ _ he
    simp only [Rename.op, h o ho]
  | cancel b =>
    cases b with
    | orderId id =>
      obtain ⟨o, ho, rfl⟩ := effective_named.2 _ he
      simp only [Rename.op, h o ho]
    | userOrderId uid => rfl
  | _ => rfl

/-- The calls that had an effect, on an exchange with other ids. -/
theorem clean_calls (c : Cfg) (ops : List Op) : ∀ (x : Ref.Exchange) (g : Nat → Nat) (n : Nat),
    IdsFit g n x → (∀ op ∈ ops, namesNone op) →
    ∃ (f : Nat → Nat) (m : Nat), (∀ i < x.next, f i = g i) ∧
      (ren g n x).calls c (((x.calls c ops).2.filter effective).map (fun t => Rename.op f t.1)) =
        (ren f m (x.calls c ops).1,
         ((x.calls c ops).2.filter effective).map (fun t => (Rename.op f t.1, Rename.resp f t.2))) ∧
      (x.allReturn c ops → (ren g n x).allReturn c
        (((x.calls c ops).2.filter effective).map (fun t => Rename.op f t.1))) := by
  induction ops with
  | nil =>
    intro x g n _ _
    exact ⟨g, n, fun _ _ => rfl, rfl, fun _ => trivial⟩
  | cons op ops ih =>
    intro x g n hx hu
    have hu' : ∀ op ∈ ops, namesNone op := fun o h => hu o (List.mem_cons_of_mem _ h)
    simp only [Ref.Exchange.calls, Ref.Exchange.allReturn]
    by_cases he : effective (op, (x.call c op).2) = true
    · let g' : Nat → Nat := fun i => if i = x.next then n else g i
      have hg' : ∀ i < x.next, g' i = g i := fun i hi => if_neg (Nat.ne_of_lt hi)
      have hgn : g' x.next = n := if_pos rfl
      have hgo : ∀ o ∈ x.orders, g' o.id = g o.id := fun o ho => hg' _ (hx.fresh o ho)
      have hinj : InjOn g' x.orders := by
        intro o ho o' ho' e
        rw [hgo o ho, hgo o' ho'] at e
        exact hx.inj o ho o' ho' e
      have hids := call_ids c x op hx.fresh
      have hcall := call_ren (hu op List.mem_cons_self) hinj he
      have hret := returns_ren (hu op List.mem_cons_self) hinj he
      rw [hgn] at hcall hret
      have hren : ren g n x = ren g' n x := (ren_congr hgo).symm
      rw [hren]
      have hfit : IdsFit g' (n + ((x.call c op).1.next - x.next)) (x.call c op).1 := by
        have hle := hids.1.1
        refine ⟨fun o ho => ?_, fun o ho => ?_, fun o ho o' ho' e => ?_⟩
        · rcases hids.1.2 o ho with ⟨z, hz, e⟩ | ⟨e, h⟩
          · have := hx.fresh z hz; omega
          · omega
        · rcases hids.1.2 o ho with ⟨z, hz, e⟩ | ⟨e, h⟩
          · have := hx.below z hz
            rw [← e, hgo z hz]; omega
          · rw [e, hgn]; omega
        · rcases hids.1.2 o ho with ⟨z, hz, e1⟩ | ⟨e1, _⟩ <;>
            rcases hids.1.2 o' ho' with ⟨z', hz', e2⟩ | ⟨e2, _⟩
          · rw [← e1, ← e2] at e ⊢
            exact hinj z hz z' hz' e
          · rw [← e1, e2, hgn, hgo z hz] at e
            have := hx.below z hz; omega
          · rw [← e2, e1, hgn, hgo z' hz'] at e
            have := hx.below z' hz'; omega
          · omega
      obtain ⟨f, m, hf, h1, h2⟩ := ih _ g' _ hfit hu'
      have hfx : ∀ i < x.next, f i = g' i := fun i hi => hf i (Nat.lt_of_lt_of_le hi hids.1.1)
      have hop : Rename.op f op = Rename.op g' op :=
        op_congr (fun o ho => hfx _ (hx.fresh o ho)) he
      have hresp : Rename.resp f (x.call c op).2 = Rename.resp g' (x.call c op).2 := hids.2 f g' hf
      refine ⟨f, m, fun i hi => (hfx i hi).trans (hg' i hi), ?_, fun hr => ?_⟩
      · simp only [List.filter_cons, he, if_true, List.map_cons, Ref.Exchange.calls, hop, hcall, h1,
          hresp]
      · simp only [List.filter_cons, he, if_true, List.map_cons, Ref.Exchange.allReturn, hop, hcall]
        exact ⟨hret.2 hr.1, h2 hr.2⟩
    · simp only [Bool.not_eq_true] at he
      obtain ⟨k, hk, e⟩ := ineffective he
      have hren : ren g n x = ren g n (x.call c op).1 := by rw [e]; rfl
      have hfit : IdsFit g n (x.call c op).1 := by
        rw [e]
        exact ⟨fun o ho => Nat.lt_of_lt_of_le (hx.fresh o ho) hk, hx.below, hx.inj⟩
      obtain ⟨f, m, hf, h1, h2⟩ := ih _ g n hfit hu'
      refine ⟨f, m, fun i hi => hf i (by rw [e]; exact Nat.lt_of_lt_of_le hi hk), ?_, fun hr => ?_⟩
      · simp only [List.filter_cons, he, Bool.false_eq_true, if_false]
        rw [hren]; exact h1
      · simp only [List.filter_cons, he, Bool.false_eq_true, if_false]
        rw [hren]; exact h2 hr.2

end Lfest
