import Verif.SpecLever
import Verif.Props.Reference
import Verif.Props.Ledger

/-!
# C138: leverage, fees and limits that are not hit do not change the trading
-/

namespace Lfest
open Spec

/-- The same market, orders and trades; margins may differ, and fees if the rates do. -/
structure SameBut (c c' : Cfg) (x y : Ref.Exchange) : Prop where
  market : y.market = x.market
  orders : y.orders = x.orders
  next : y.next = x.next
  qty : y.book.qty = x.book.qty
  entry : y.book.entry = x.book.entry
  realised : y.book.realised = x.book.realised
  fees : sameFees c c' → y.book = x.book

theorem fill_lever {c c' : Cfg} (he : c'.env = c.env) {l m : Ledger} (f : Fill) (h1 : m.qty = l.qty)
    (h2 : m.entry = l.entry) (h3 : m.realised = l.realised) :
    (m.fill c' f).qty = (l.fill c f).qty ∧ (m.fill c' f).entry = (l.fill c f).entry ∧
    (m.fill c' f).realised = (l.fill c f).realised := by
  unfold Ledger.fill
  rw [h1, h2, h3, he]
  split
  · exact ⟨rfl, rfl, rfl⟩
  split
  · exact ⟨rfl, rfl, rfl⟩
  · exact ⟨rfl, rfl, rfl⟩

theorem fill_same {c c' : Cfg} (he : c'.env = c.env) (hf : sameFees c c') (l : Ledger) (f : Fill) :
    l.fill c' f = l.fill c f := by
  have hf : f.fee c' = f.fee c := by unfold Fill.fee; rw [he, hf.1, hf.2]
  unfold Ledger.fill
  rw [hf, he]

theorem SameBut.fill {c c' : Cfg} {x y : Ref.Exchange} (he : c'.env = c.env) (h : SameBut c c' x y) (f : Fill) :
    SameBut c c' (x.fill c f) (y.fill c' f) := by
  obtain ⟨a1, a2, a3⟩ := fill_lever he f h.qty h.entry h.realised
  exact ⟨h.market, h.orders, h.next, a1, a2, a3, fun hf => by
    simp only [Ref.Exchange.fill, h.fees hf, fill_same he hf]⟩

theorem SameBut.matched {c c' : Cfg} {x y : Ref.Exchange} (he : c'.env = c.env) (h : SameBut c c' x y)
    (u : UpdateArg) (o : Limit) : SameBut c c' (x.matched c u o) (y.matched c' u o) := by
  unfold Ref.Exchange.matched
  cases fillRule u o with
  | none => exact h
  | some q =>
    have k := h.fill he ⟨true, o.side, o.price, q⟩
    refine ⟨h.market, ?_, h.next, k.qty, k.entry, k.realised, k.fees⟩
    simp only [h.orders, he]

theorem SameBut.matchList {c c' : Cfg} (he : c'.env = c.env) (u : UpdateArg) : ∀ (os : List Limit)
    {x y : Ref.Exchange}, SameBut c c' x y →
    SameBut c c' (os.foldl (Ref.Exchange.matched c u) x) (os.foldl (Ref.Exchange.matched c' u) y)
  | [], _, _, h => h
  | o :: os, _, _, h => SameBut.matchList he u os (h.matched he u o)

theorem SameBut.matchAll {c c' : Cfg} {x y : Ref.Exchange} (he : c'.env = c.env) (h : SameBut c c' x y)
    (u : UpdateArg) : SameBut c c' (x.matchAll c u) (y.matchAll c' u) := by
  unfold Ref.Exchange.matchAll
  rw [h.orders]
  exact h.matchList he u _

/-- What becomes of a limit order that there is money for. -/
def Ref.Exchange.placed (c : Cfg) (x : Ref.Exchange) (side : Side) (p q : Int) (uid : Nat) :
    Ref.Exchange × Except Error Limit :=
  if Ref.crossing x.market side p = true then
    ({ x with next := x.next + 1 }, .error (.order (.goodTillCrossingRejected p (touchPrice x.market side))))
  else if c.maxOpen ≤ x.orders.length then ({ x with next := x.next + 1 }, .error .maxNumberOfActiveOrders)
  else
    let o : Limit := ⟨uid, side, p, q, x.next, x.market.ts, .unfilled⟩
    let x2 : Ref.Exchange := { x with next := x.next + 1, orders := x.orders ++ [o] }
    ({ x2 with reserved := x.reserved + Spec.abs (x2.required c - x.reserved) }, .ok o)

theorem limitOrder_cases (c : Cfg) (x : Ref.Exchange) (side : Side) (p q : Int) (uid : Nat)
    (h : (x.limitOrder c side p q uid).2 ≠ .error (.risk .notEnoughAvailableBalance)) :
    x.limitOrder c side p q uid =
      match Ref.quantityError c.spec.quantityFilter q with
      | some err => (x, .error (.order err))
      | none =>
        match Ref.priceError c.env c.spec.priceFilter p (mid x.market) with
        | some err => (x, .error (.order err))
        | none => x.placed c side p q uid := by
  unfold Ref.Exchange.limitOrder at h ⊢
  cases hq : Ref.quantityError c.spec.quantityFilter q with
  | some err => rfl
  | none =>
    rw [hq] at h
    cases hp : Ref.priceError c.env c.spec.priceFilter p (mid x.market) with
    | some err => rfl
    | none =>
      rw [hp] at h
      simp only at h ⊢
      split at h
      · simp at h
      · rename_i n
        exact if_neg n

theorem quantity_crossing {f : QuantityFilter} {q : Int} {err : OrderError} (h : Ref.quantityError f q = some err) :
    ∀ a b, err ≠ .goodTillCrossingRejected a b := by
  rintro a b rfl
  unfold Ref.quantityError at h
  repeat' split at h
  all_goals simp at h

theorem price_crossing {e : Env} {f : PriceFilter} {p m : Int} {err : OrderError}
    (h : Ref.priceError e f p m = some err) : ∀ a b, err ≠ .goodTillCrossingRejected a b := by
  rintro a b rfl
  unfold Ref.priceError at h
  repeat' split at h
  all_goals simp at h

theorem down_order {err : OrderError} (h : ∀ a b, err ≠ .goodTillCrossingRejected a b) :
    turnedDown (.limit (.error (.order err))) = true ∧ turnedDown (.market (.error (.order err))) = true := by
  cases err <;> first | exact ⟨rfl, rfl⟩ | exact absurd rfl (h _ _)

theorem SameBut.limitOrder {c c' : Cfg} {x y : Ref.Exchange} (he : c'.env = c.env) (h : SameBut c c' x y)
    (side : Side) (p q : Int) (uid : Nat)
    (hx : (x.limitOrder c side p q uid).2 ≠ .error (.risk .notEnoughAvailableBalance))
    (hy : (y.limitOrder c' side p q uid).2 ≠ .error (.risk .notEnoughAvailableBalance))
    (hl : sameLimits c c' ∨ turnedDown (.limit (x.limitOrder c side p q uid).2) = false ∧
      turnedDown (.limit (y.limitOrder c' side p q uid).2) = false) :
    SameBut c c' (x.limitOrder c side p q uid).1 (y.limitOrder c' side p q uid).1 ∧
    (x.limitOrder c side p q uid).2 = (y.limitOrder c' side p q uid).2 := by
  have h' := h
  obtain ⟨h1, h2, h3, h4, h5, h6, h7⟩ := h
  rw [limitOrder_cases c x side p q uid hx, limitOrder_cases c' y side p q uid hy] at hl ⊢
  rw [he, h1] at hl ⊢
  rcases hl with ⟨l1, l2, l3⟩ | ⟨l1, l2⟩
  · rw [l2, l3]
    cases Ref.quantityError c.spec.quantityFilter q with
    | some err => exact ⟨h', rfl⟩
    | none =>
      cases Ref.priceError c.env c.spec.priceFilter p (mid x.market) with
      | some err => exact ⟨h', rfl⟩
      | none =>
        simp only [Ref.Exchange.placed, h1, h2, h3, l1]
        split
        · exact ⟨⟨rfl, rfl, rfl, h4, h5, h6, h7⟩, rfl⟩
        split
        · exact ⟨⟨rfl, rfl, rfl, h4, h5, h6, h7⟩, rfl⟩
        · exact ⟨⟨rfl, rfl, rfl, h4, h5, h6, h7⟩, rfl⟩
  · cases hq : Ref.quantityError c.spec.quantityFilter q with
    | some err =>
      rw [hq] at l1
      simp [(down_order (quantity_crossing hq)).1] at l1
    | none =>
      cases hp : Ref.priceError c.env c.spec.priceFilter p (mid x.market) with
      | some err =>
        rw [hq, hp] at l1
        simp [(down_order (price_crossing hp)).1] at l1
      | none =>
        rw [hq, hp] at l1
        cases hq' : Ref.quantityError c'.spec.quantityFilter q with
        | some err =>
          rw [hq'] at l2
          simp [(down_order (quantity_crossing hq')).1] at l2
        | none =>
          cases hp' : Ref.priceError c.env c'.spec.priceFilter p (mid x.market) with
          | some err =>
            rw [hq', hp'] at l2
            simp [(down_order (price_crossing hp')).1] at l2
          | none =>
            rw [hq', hp'] at l2
            simp only [Ref.Exchange.placed, h1, h2, h3] at l1 l2 ⊢
            by_cases hcr : Ref.crossing x.market side p = true
            · rw [if_pos hcr, if_pos hcr]
              exact ⟨⟨rfl, rfl, rfl, h4, h5, h6, h7⟩, rfl⟩
            · rw [if_neg hcr] at l1 l2
              rw [if_neg hcr, if_neg hcr]
              split at l1
              · simp [turnedDown] at l1
              split at l2
              · simp [turnedDown] at l2
              rename_i n1 n2
              rw [if_neg n1, if_neg n2]
              exact ⟨⟨rfl, rfl, rfl, h4, h5, h6, h7⟩, rfl⟩

theorem SameBut.cancel {c c' : Cfg} {x y : Ref.Exchange} (h : SameBut c c' x y) (b : CancelBy) :
    SameBut c c' (x.cancel c b).1 (y.cancel c' b).1 ∧ (x.cancel c b).2 = (y.cancel c' b).2 := by
  have h' := h
  obtain ⟨h1, h2, h3, h4, h5, h6, h7⟩ := h
  unfold Ref.Exchange.cancel Ref.Exchange.missing
  rw [h2, h3]
  cases x.orders.find? (Ref.names b) with
  | none => exact ⟨h', rfl⟩
  | some o => exact ⟨⟨h1, rfl, rfl, h4, h5, h6, h7⟩, rfl⟩

theorem SameBut.amend {c c' : Cfg} {x y : Ref.Exchange} (he : c'.env = c.env) (h : SameBut c c' x y)
    (id : Nat) (side : Side) (p q : Int) (uid : Nat)
    (hx : (x.amend c id side p q uid).2 ≠ .error (.risk .notEnoughAvailableBalance))
    (hy : (y.amend c' id side p q uid).2 ≠ .error (.risk .notEnoughAvailableBalance))
    (hl : sameLimits c c' ∨ turnedDown (.limit (x.amend c id side p q uid).2) = false ∧
      turnedDown (.limit (y.amend c' id side p q uid).2) = false) :
    SameBut c c' (x.amend c id side p q uid).1 (y.amend c' id side p q uid).1 ∧
    (x.amend c id side p q uid).2 = (y.amend c' id side p q uid).2 := by
  have hcan := (h.cancel (.orderId id)).1
  unfold Ref.Exchange.amend at hx hy hl ⊢
  rw [h.orders] at hy hl ⊢
  cases ho : x.orders.find? (fun o => o.id == id) with
  | none =>
    refine ⟨h, ?_⟩
    unfold Ref.Exchange.missing; rw [h.next]
  | some old =>
    rw [ho] at hx hy hl
    simp only at hx hy hl ⊢
    split
    · exact ⟨hcan, rfl⟩
    · rename_i n
      rw [if_neg n] at hx hy
      rw [if_neg n, if_neg n] at hl
      exact hcan.limitOrder he side p _ uid hx hy hl

theorem SameBut.marketOrder {c c' : Cfg} {x y : Ref.Exchange} (he : c'.env = c.env) (h : SameBut c c' x y)
    (side : Side) (q : Int) (uid : Nat)
    (hx : (x.marketOrder c side q uid).2 ≠ .error (.risk .notEnoughAvailableBalance))
    (hy : (y.marketOrder c' side q uid).2 ≠ .error (.risk .notEnoughAvailableBalance))
    (hl : sameLimits c c' ∨ turnedDown (.market (x.marketOrder c side q uid).2) = false ∧
      turnedDown (.market (y.marketOrder c' side q uid).2) = false) :
    SameBut c c' (x.marketOrder c side q uid).1 (y.marketOrder c' side q uid).1 ∧
    (x.marketOrder c side q uid).2 = (y.marketOrder c' side q uid).2 := by
  have hfill : ∀ f, SameBut c c' (Ref.Exchange.fill c { x with next := x.next + 1 } f)
      (Ref.Exchange.fill c' { y with next := y.next + 1 } f) := by
    intro f
    have k : SameBut c c' { x with next := x.next + 1 } { y with next := y.next + 1 } :=
      ⟨h.market, h.orders, by simp only [h.next], h.qty, h.entry, h.realised, h.fees⟩
    exact k.fill he f
  unfold Ref.Exchange.marketOrder at hx hy hl ⊢
  cases hq : Ref.quantityError c.spec.quantityFilter q with
  | some err =>
    rw [hq] at hl
    rcases hl with ⟨_, _, l⟩ | ⟨l, _⟩
    · rw [l, hq]; exact ⟨h, rfl⟩
    · simp [(down_order (quantity_crossing hq)).2] at l
  | none =>
    have hq' : Ref.quantityError c'.spec.quantityFilter q = none := by
      rcases hl with ⟨_, _, l⟩ | ⟨_, l⟩
      · rw [l, hq]
      · cases hq' : Ref.quantityError c'.spec.quantityFilter q with
        | none => rfl
        | some err =>
          rw [hq'] at l
          simp [(down_order (quantity_crossing hq')).2] at l
    rw [hq] at hx
    rw [hq'] at hy ⊢
    simp only at hx hy ⊢
    split at hx
    · rename_i a1
      split at hy
      · rename_i a2
        rw [if_pos a1, if_pos a2]
        refine ⟨?_, by simp only [h.market, h.next]⟩
        have := hfill ⟨false, side, touchPrice x.market side, q⟩
        simpa only [h.market] using this
      · simp at hy
    · simp at hx

theorem SameBut.update {c c' : Cfg} {x y : Ref.Exchange} (he : c'.env = c.env) (h : SameBut c c' x y)
    (u : UpdateArg)
    (hm : c'.spec.maintenanceMargin = c.spec.maintenanceMargin ∨
      (x.update c u).2 ≠ .error (.risk .liquidate) ∧ (y.update c' u).2 ≠ .error (.risk .liquidate)) :
    SameBut c c' (x.update c u).1 (y.update c' u).1 ∧ (x.update c u).2 = (y.update c' u).2 := by
  obtain ⟨h1, h2, h3, h4, h5, h6, h7⟩ := h
  unfold Ref.Exchange.update at hm ⊢
  simp only at hm ⊢
  have hs : SameBut c c' { x with market := seen x.market [.update u] }
      { y with market := seen y.market [.update u] } := ⟨by rw [h1], h2, h3, h4, h5, h6, h7⟩
  have ok : SameBut c c' ((Ref.Exchange.matchAll c u { x with market := seen x.market [.update u] }))
      ((Ref.Exchange.matchAll c' u { y with market := seen y.market [.update u] })) := hs.matchAll he u
  rcases hm with hm | ⟨m1, m2⟩
  · have hu : Ref.Exchange.underwater c' { y with market := seen y.market [.update u] } =
        Ref.Exchange.underwater c { x with market := seen x.market [.update u] } := by
      unfold Ref.Exchange.underwater longLimit shortLimit
      rw [h1, h4, h5, he, hm]
    rw [hu]
    split
    · refine ⟨?_, rfl⟩
      have k := hs.fill he (if 0 < x.book.qty then ⟨false, .sell, (seen x.market [.update u]).bid, x.book.qty⟩
        else ⟨false, .buy, (seen x.market [.update u]).ask, -x.book.qty⟩)
      rw [h4, h1, h3]
      rw [h1] at k
      exact ⟨k.market, k.orders, rfl, k.qty, k.entry, k.realised, k.fees⟩
    · exact ⟨ok, by rw [he, h2]⟩
  · split at m1
    · simp at m1
    split at m2
    · simp at m2
    rename_i n1 n2
    rw [if_neg n1, if_neg n2]
    exact ⟨ok, by rw [he, h2]⟩

theorem SameBut.call {c c' : Cfg} {x y : Ref.Exchange} (he : c'.env = c.env) (h : SameBut c c' x y) (op : Op)
    (hx : lacksFunds (x.call c op).2 = false) (hy : lacksFunds (y.call c' op).2 = false)
    (hl : sameLimits c c' ∨ turnedDown (x.call c op).2 = false ∧ turnedDown (y.call c' op).2 = false)
    (hm : c'.spec.maintenanceMargin = c.spec.maintenanceMargin ∨
      closesOut (x.call c op).2 = false ∧ closesOut (y.call c' op).2 = false) :
    SameBut c c' (x.call c op).1 (y.call c' op).1 ∧ (x.call c op).2 = (y.call c' op).2 := by
  have key : ∀ r : Except Error Limit, lacksFunds (.limit r) = false →
      r ≠ .error (.risk .notEnoughAvailableBalance) := by
    rintro r hr rfl; simp [lacksFunds] at hr
  have key' : ∀ r : Except Error FilledMarket, lacksFunds (.market r) = false →
      r ≠ .error (.risk .notEnoughAvailableBalance) := by
    rintro r hr rfl; simp [lacksFunds] at hr
  have key2 : ∀ r : Except Error (List LimitUpdate), closesOut (.update r) = false →
      r ≠ .error (.risk .liquidate) := by
    rintro r hr rfl; simp [closesOut] at hr
  cases op with
  | update u =>
    simp only [Ref.Exchange.call] at hm ⊢
    obtain ⟨e1, e2⟩ := h.update he u (hm.imp id fun m => ⟨key2 _ m.1, key2 _ m.2⟩)
    exact ⟨e1, by rw [e2]⟩
  | checkActive u => exact ⟨h.matchAll he u, rfl⟩
  | market side q uid =>
    simp only [Ref.Exchange.call] at hx hy hl ⊢
    split
    · exact ⟨h, rfl⟩
    · rename_i n
      rw [if_neg n] at hx hy
      rw [if_neg n, if_neg n] at hl
      obtain ⟨e1, e2⟩ := h.marketOrder he side q uid (key' _ hx) (key' _ hy) hl
      exact ⟨e1, by simp only [e2]⟩
  | limit side p q uid =>
    simp only [Ref.Exchange.call] at hx hy hl ⊢
    split
    · exact ⟨h, rfl⟩
    split
    · exact ⟨h, rfl⟩
    · rename_i n1 n2
      rw [if_neg n1, if_neg n2] at hx hy
      rw [if_neg n1, if_neg n2, if_neg n1, if_neg n2] at hl
      obtain ⟨e1, e2⟩ := h.limitOrder he side p q uid (key _ hx) (key _ hy) hl
      exact ⟨e1, by simp only [e2]⟩
  | amend id side p q uid =>
    simp only [Ref.Exchange.call] at hx hy hl ⊢
    split
    · exact ⟨h, rfl⟩
    split
    · exact ⟨h, rfl⟩
    · rename_i n1 n2
      rw [if_neg n1, if_neg n2] at hx hy
      rw [if_neg n1, if_neg n2, if_neg n1, if_neg n2] at hl
      obtain ⟨e1, e2⟩ := h.amend he id side p q uid (key _ hx) (key _ hy) hl
      exact ⟨e1, by simp only [e2]⟩
  | cancel b =>
    obtain ⟨e1, e2⟩ := h.cancel b
    exact ⟨e1, by simp only [Ref.Exchange.call]; rw [e2]⟩

theorem SameBut.calls {c c' : Cfg} (he : c'.env = c.env) : ∀ (ops : List Op) {x y : Ref.Exchange},
    SameBut c c' x y → (∀ t ∈ (x.calls c ops).2, lacksFunds t.2 = false) →
    (∀ t ∈ (y.calls c' ops).2, lacksFunds t.2 = false) →
    (sameLimits c c' ∨ (∀ t ∈ (x.calls c ops).2, turnedDown t.2 = false) ∧
      (∀ t ∈ (y.calls c' ops).2, turnedDown t.2 = false)) →
    (c'.spec.maintenanceMargin = c.spec.maintenanceMargin ∨
      (∀ t ∈ (x.calls c ops).2, closesOut t.2 = false) ∧
      (∀ t ∈ (y.calls c' ops).2, closesOut t.2 = false)) →
    SameBut c c' (x.calls c ops).1 (y.calls c' ops).1 ∧ (x.calls c ops).2 = (y.calls c' ops).2
  | [], _, _, h, _, _, _, _ => ⟨h, rfl⟩
  | op :: ops, x, y, h, hx, hy, hl, hm => by
    simp only [Ref.Exchange.calls] at hx hy hl hm ⊢
    obtain ⟨e1, e2⟩ := h.call he op (hx (op, _) List.mem_cons_self) (hy (op, _) List.mem_cons_self)
      (hl.imp id fun m => ⟨m.1 (op, _) List.mem_cons_self, m.2 (op, _) List.mem_cons_self⟩)
      (hm.imp id fun m => ⟨m.1 (op, _) List.mem_cons_self, m.2 (op, _) List.mem_cons_self⟩)
    obtain ⟨f1, f2⟩ := SameBut.calls he ops e1 (fun t ht => hx t (List.mem_cons_of_mem _ ht))
      (fun t ht => hy t (List.mem_cons_of_mem _ ht))
      (hl.imp id fun m => ⟨fun t ht => m.1 t (List.mem_cons_of_mem _ ht),
        fun t ht => m.2 t (List.mem_cons_of_mem _ ht)⟩)
      (hm.imp id fun m => ⟨fun t ht => m.1 t (List.mem_cons_of_mem _ ht),
        fun t ht => m.2 t (List.mem_cons_of_mem _ ht)⟩)
    exact ⟨f1, by rw [e2, f2]⟩

/-- C138: the same calls on two exchanges for the same contract, with any leverage, maintenance margin,
starting balance, fees, filters and number of places for orders, get the same answers and end with the same
market, orders and position and the same profit before fees, to the last unit, as long as

* no order is turned down for lack of funds,
* filters and places are the same, or turn down no order,
* the maintenance margins are the same, or nobody is liquidated.

With the same fee rates the fees are the same too. -/
theorem C138_terms (c c' : Cfg) (ops : List Op) (s s' : State) (tr tr' : List (Op × Resp))
    (hcap : c.maxOpen ≤ 10000) (hcap' : c'.maxOpen ≤ 10000) (he : c'.env = c.env)
    (h : history c (State.init c) ops = .ok (s, tr))
    (h' : history c' (State.init c') ops = .ok (s', tr'))
    (hf : ∀ t ∈ tr, lacksFunds t.2 = false) (hf' : ∀ t ∈ tr', lacksFunds t.2 = false)
    (hl : sameLimits c c' ∨ (∀ t ∈ tr, turnedDown t.2 = false) ∧ (∀ t ∈ tr', turnedDown t.2 = false))
    (hm : c'.spec.maintenanceMargin = c.spec.maintenanceMargin ∨
      (∀ t ∈ tr, closesOut t.2 = false) ∧ (∀ t ∈ tr', closesOut t.2 = false)) :
    tr' = tr ∧ s'.ms = s.ms ∧ s'.active = s.active ∧ s'.nextId = s.nextId ∧
    s'.pos.quantity = s.pos.quantity ∧ s'.pos.entryPrice = s.pos.entryPrice ∧
    equity s' + s'.feesPaid - c'.start = equity s + s.feesPaid - c.start ∧
    (sameFees c c' → s'.pos.outstandingFees = s.pos.outstandingFees ∧ s'.feesPaid = s.feesPaid ∧
      equity s' - c'.start = equity s - c.start) := by
  have e := C65_history c ops s tr hcap h
  have e' := C65_history c' ops s' tr' hcap' h'
  have k := SameBut.calls he ops (x := Ref.Exchange.new) (y := Ref.Exchange.new)
    ⟨rfl, rfl, rfl, rfl, rfl, rfl, fun _ => rfl⟩
  rw [e, e'] at k
  obtain ⟨⟨k1, k2, k3, b1, b2, b3, k4⟩, k5⟩ := k hf hf' hl hm
  simp only [Ref.view, Ledger.mk.injEq] at k1 k2 k3 b1 b2 b3 k4 k5
  have a1 := (C01_double_entry c ops s (history_run h)).2
  have a2 := (C01_double_entry c' ops s' (history_run h')).2
  have p1 : s.acct.balance .broker = 0 := by
    simp [Accounts.balance, Accounts.get, a1.2, TAccount.net]
  have p2 : s'.acct.balance .broker = 0 := by
    simp [Accounts.balance, Accounts.get, a2.2, TAccount.net]
  have a1 := a1.1
  have a2 := a2.1
  have hgain : equity s' + s'.feesPaid - c'.start = equity s + s.feesPaid - c.start := by
    unfold equity State.feesPaid
    omega
  refine ⟨k5.symm, k1, k2, k3, b1, b2, hgain, fun hfee => ?_⟩
  obtain ⟨_, _, b3, b4, _⟩ := k4 hfee
  exact ⟨b3, b4, by omega⟩

/-- The configuration with another starting balance. -/
theorem wallet_start (c : Cfg) (x : Ref.Exchange) (B : Int) :
    x.wallet { c with start := B } = B + x.wallet { c with start := 0 } := by
  unfold Ref.Exchange.wallet
  simp only; omega

theorem rich_market (c : Cfg) (x : Ref.Exchange) (side : Side) (q : Int) (uid : Nat) :
    ∃ B r, ∀ b, B ≤ b → x.marketOrder { c with start := b } side q uid = r ∧
      r.2 ≠ .error (.risk .notEnoughAvailableBalance) := by
  cases hq : Ref.quantityError c.spec.quantityFilter q with
  | some err =>
    refine ⟨0, (x, .error (.order err)), fun b _ => ⟨?_, by simp⟩⟩
    unfold Ref.Exchange.marketOrder
    simp only [hq]
  | none =>
    refine ⟨needed c q (touchPrice x.market side) +
        Spec.abs (needed c (q - opposing x.book.qty side) (touchPrice x.market side)) +
        Spec.abs (needed c q (touchPrice x.market side)) +
        Spec.abs (x.wallet { c with start := 0 }) + Spec.abs x.locked,
      (({ x with next := x.next + 1 } : Ref.Exchange).fill c ⟨false, side, touchPrice x.market side, q⟩,
        .ok ⟨uid, side, q, x.next, x.market.ts, x.market.ts, touchPrice x.market side, q⟩),
      fun b hb => ⟨?_, by simp⟩⟩
    have ha : Ref.affordable { c with start := b } x side q = true := by
      unfold Ref.affordable
      rw [wallet_start]
      have e1 : ∀ n, needed { c with start := b } n (touchPrice x.market side) =
        needed c n (touchPrice x.market side) := fun _ => rfl
      simp only [e1]
      revert hb
      unfold Spec.abs
      intro hb
      split
      · simp only [decide_eq_true_eq]
        split at hb <;> split at hb <;> split at hb <;> split at hb <;> omega
      · simp only [decide_eq_true_eq]
        refine .inr ?_
        split at hb <;> split at hb <;> split at hb <;> split at hb <;> omega
    unfold Ref.Exchange.marketOrder
    simp only [hq, ha, if_true]
    rfl

theorem rich_limit (c : Cfg) (x : Ref.Exchange) (side : Side) (p q : Int) (uid : Nat) :
    ∃ B r, ∀ b, B ≤ b → x.limitOrder { c with start := b } side p q uid = r ∧
      r.2 ≠ .error (.risk .notEnoughAvailableBalance) := by
  cases hq : Ref.quantityError c.spec.quantityFilter q with
  | some err =>
    refine ⟨0, (x, .error (.order err)), fun b _ => ⟨?_, by simp⟩⟩
    unfold Ref.Exchange.limitOrder
    simp only [hq]
  | none =>
    cases hp : Ref.priceError c.env c.spec.priceFilter p (mid x.market) with
    | some err =>
      refine ⟨0, (x, .error (.order err)), fun b _ => ⟨?_, by simp⟩⟩
      unfold Ref.Exchange.limitOrder
      simp only [hq, hp]
    | none =>
      have key : ∃ B, ∀ b, B ≤ b → ¬ (x.wallet { c with start := b } + x.required { c with start := b } <
          marginReq c (x.orders ++ [⟨uid, side, p, q, x.next, x.market.ts, .unfilled⟩]) x.book.qty) := by
        refine ⟨marginReq c (x.orders ++ [⟨uid, side, p, q, x.next, x.market.ts, .unfilled⟩]) x.book.qty -
          x.required c - x.wallet { c with start := 0 }, fun b hb => ?_⟩
        rw [wallet_start]
        have e : x.required { c with start := b } = x.required c := rfl
        rw [e]; omega
      obtain ⟨B, hB⟩ := key
      refine ⟨B, x.limitOrder { c with start := B } side p q uid, fun b hb => ⟨?_, ?_⟩⟩
      · unfold Ref.Exchange.limitOrder
        simp only [hq, hp]
        have n1 := hB b hb
        have n2 := hB B (Int.le_refl _)
        refine (if_neg n1).trans (Eq.trans ?_ (if_neg n2).symm)
        rfl
      · unfold Ref.Exchange.limitOrder
        simp only [hq, hp]
        have n2 := hB B (Int.le_refl _)
        split
        · rename_i h
          exact absurd h n2
        split
        · simp
        split <;> simp

theorem rich_amend (c : Cfg) (x : Ref.Exchange) (id : Nat) (side : Side) (p q : Int) (uid : Nat) :
    ∃ B r, ∀ b, B ≤ b → x.amend { c with start := b } id side p q uid = r ∧
      r.2 ≠ .error (.risk .notEnoughAvailableBalance) := by
  cases ho : x.orders.find? (fun o => o.id == id) with
  | none =>
    refine ⟨0, (x, .error (x.missing id)), fun b _ => ⟨?_, ?_⟩⟩
    · unfold Ref.Exchange.amend
      simp only [ho]
    · unfold Ref.Exchange.missing
      split <;> simp
  | some old =>
    by_cases hq : q ≤ old.filledQuantity
    · refine ⟨0, ((x.cancel c (.orderId id)).1, .error .amendQtyAlreadyFilled), fun b _ => ⟨?_, by simp⟩⟩
      unfold Ref.Exchange.amend
      simp only [ho, if_pos hq]
      rfl
    · obtain ⟨B, r, h⟩ := rich_limit c (x.cancel c (.orderId id)).1 side p (q - old.filledQuantity) uid
      refine ⟨B, r, fun b hb => ?_⟩
      unfold Ref.Exchange.amend
      simp only [ho, if_neg hq]
      exact h b hb

theorem rich_call (c : Cfg) (x : Ref.Exchange) (op : Op) :
    ∃ B r, ∀ b, B ≤ b → x.call { c with start := b } op = r ∧ lacksFunds r.2 = false := by
  have key : ∀ r : Except Error Limit, r ≠ .error (.risk .notEnoughAvailableBalance) →
      lacksFunds (.limit r) = false := by
    intro r hr
    unfold lacksFunds
    split <;> simp_all
  have key' : ∀ r : Except Error FilledMarket, r ≠ .error (.risk .notEnoughAvailableBalance) →
      lacksFunds (.market r) = false := by
    intro r hr
    unfold lacksFunds
    split <;> simp_all
  cases op with
  | update u => exact ⟨0, x.call c (.update u), fun b _ => ⟨rfl, rfl⟩⟩
  | checkActive u => exact ⟨0, x.call c (.checkActive u), fun b _ => ⟨rfl, rfl⟩⟩
  | market side q uid =>
    by_cases hq : q ≤ 0
    · exact ⟨0, (x, .invalidOrder .orderQuantityLTEZero), fun b _ => ⟨by
        simp only [Ref.Exchange.call, if_pos hq], rfl⟩⟩
    · obtain ⟨B, r, h⟩ := rich_market c x side q uid
      refine ⟨B, (r.1, .market r.2), fun b hb => ⟨?_, key' _ (h b hb).2⟩⟩
      simp only [Ref.Exchange.call, if_neg hq, (h b hb).1]
  | limit side p q uid =>
    by_cases hp : p ≤ 0
    · exact ⟨0, (x, .invalidOrder .limitPriceLTEZero), fun b _ => ⟨by
        simp only [Ref.Exchange.call, if_pos hp], rfl⟩⟩
    by_cases hq : q ≤ 0
    · exact ⟨0, (x, .invalidOrder .orderQuantityLTEZero), fun b _ => ⟨by
        simp only [Ref.Exchange.call, if_neg hp, if_pos hq], rfl⟩⟩
    · obtain ⟨B, r, h⟩ := rich_limit c x side p q uid
      refine ⟨B, (r.1, .limit r.2), fun b hb => ⟨?_, key _ (h b hb).2⟩⟩
      simp only [Ref.Exchange.call, if_neg hp, if_neg hq, (h b hb).1]
  | amend id side p q uid =>
    by_cases hp : p ≤ 0
    · exact ⟨0, (x, .invalidOrder .limitPriceLTEZero), fun b _ => ⟨by
        simp only [Ref.Exchange.call, if_pos hp], rfl⟩⟩
    by_cases hq : q ≤ 0
    · exact ⟨0, (x, .invalidOrder .orderQuantityLTEZero), fun b _ => ⟨by
        simp only [Ref.Exchange.call, if_neg hp, if_pos hq], rfl⟩⟩
    · obtain ⟨B, r, h⟩ := rich_amend c x id side p q uid
      refine ⟨B, (r.1, .limit r.2), fun b hb => ⟨?_, key _ (h b hb).2⟩⟩
      simp only [Ref.Exchange.call, if_neg hp, if_neg hq, (h b hb).1]
  | cancel b =>
    refine ⟨0, x.call c (.cancel b), fun b' _ => ⟨rfl, key _ ?_⟩⟩
    simp only [Ref.Exchange.cancel, Ref.Exchange.missing]
    split
    · cases b with
      | orderId id => simp only; split <;> simp
      | userOrderId uid => simp
    · simp

theorem rich_calls (c : Cfg) : ∀ (ops : List Op) (x : Ref.Exchange),
    ∃ B, ∀ b, B ≤ b → ∀ t ∈ (x.calls { c with start := b } ops).2, lacksFunds t.2 = false
  | [], _ => ⟨0, fun _ _ t ht => by simp [Ref.Exchange.calls] at ht⟩
  | op :: ops, x => by
    obtain ⟨B1, r, h1⟩ := rich_call c x op
    obtain ⟨B2, h2⟩ := rich_calls c ops r.1
    refine ⟨if B1 ≤ B2 then B2 else B1, fun b hb t ht => ?_⟩
    obtain ⟨e1, e2⟩ := h1 b (by split at hb <;> omega)
    simp only [Ref.Exchange.calls, e1, List.mem_cons] at ht
    rcases ht with rfl | ht
    · exact e2
    · exact h2 b (by split at hb <;> omega) t ht

/-- C138: for every sequence of calls there is a starting balance from which on no order is turned down for
lack of funds. -/
theorem C138_rich_enough (c : Cfg) (ops : List Op) (hcap : c.maxOpen ≤ 10000) :
    ∃ B, ∀ b s tr, B ≤ b →
      history { c with start := b } (State.init { c with start := b }) ops = .ok (s, tr) →
      ∀ t ∈ tr, lacksFunds t.2 = false := by
  obtain ⟨B, h⟩ := rich_calls c ops Ref.Exchange.new
  refine ⟨B, fun b s tr hb hr => ?_⟩
  have e := C65_history { c with start := b } ops s tr hcap hr
  have := h b hb
  rw [e] at this
  exact this

/-- C138: what a sequence of calls gains before fees does not depend on fees and leverage, nor on the starting
balance once that is large enough. -/
theorem C138_profit_of_the_calls (c c' : Cfg) (ops : List Op) (hcap : c.maxOpen ≤ 10000)
    (he : c'.env = c.env) (hl : sameLimits c c')
    (hm : c'.spec.maintenanceMargin = c.spec.maintenanceMargin) :
    ∃ B, ∀ b b' s s' tr tr', B ≤ b → B ≤ b' →
      history { c with start := b } (State.init { c with start := b }) ops = .ok (s, tr) →
      history { c' with start := b' } (State.init { c' with start := b' }) ops = .ok (s', tr') →
      tr' = tr ∧ s'.pos.quantity = s.pos.quantity ∧ s'.pos.entryPrice = s.pos.entryPrice ∧
      equity s' + s'.feesPaid - b' = equity s + s.feesPaid - b ∧
      (sameFees c c' → s'.pos.outstandingFees = s.pos.outstandingFees ∧ equity s' - b' = equity s - b) := by
  have hcap' : c'.maxOpen ≤ 10000 := by rw [hl.1]; exact hcap
  obtain ⟨B, h⟩ := C138_rich_enough c ops hcap
  obtain ⟨B', h'⟩ := C138_rich_enough c' ops hcap'
  refine ⟨if B ≤ B' then B' else B, fun b b' s s' tr tr' hb hb' e e' => ?_⟩
  obtain ⟨k1, _, _, _, k2, k3, k4, k5⟩ := C138_terms { c with start := b } { c' with start := b' } ops s s'
    tr tr' hcap hcap' he e e'
    (h b s tr (by split at hb <;> omega) e) (h' b' s' tr' (by split at hb' <;> omega) e') (.inl hl) (.inl hm)
  exact ⟨k1, k2, k3, k4, fun hf => ⟨(k5 hf).1, (k5 hf).2.2⟩⟩

/-! ## The hypotheses are met -/

/-- Ten times the leverage of `Ex.linR`, a tenth of its money. -/
def Ex.lever : Cfg :=
  { Ex.linR with start := Ex.linR.start / 10
                 spec := { Ex.linR.spec with initMarginReq := Ex.linR.spec.initMarginReq / 10 } }

/-- Buys 5, rests two orders, one of which is filled, and turns the position. -/
example : Ex.lever.env = Ex.linR.env ∧ sameLimits Ex.linR Ex.lever ∧ ∃ s s' tr tr',
    history Ex.linR (State.init Ex.linR) Ex.ops3 = .ok (s, tr) ∧
    history Ex.lever (State.init Ex.lever) Ex.ops3 = .ok (s', tr') ∧
    (∀ t ∈ tr, lacksFunds t.2 = false) ∧ (∀ t ∈ tr', lacksFunds t.2 = false) ∧
    s.pos.quantity < 0 ∧ s'.acct.balance .positionMargin ≠ s.acct.balance .positionMargin := by
  refine ⟨rfl, ⟨rfl, rfl, rfl⟩, ?_⟩
  have h : (match history Ex.linR (State.init Ex.linR) Ex.ops3,
      history Ex.lever (State.init Ex.lever) Ex.ops3 with
    | .ok (s, tr), .ok (s', tr') => decide ((∀ t ∈ tr, lacksFunds t.2 = false) ∧
        (∀ t ∈ tr', lacksFunds t.2 = false) ∧ s.pos.quantity < 0 ∧
        s'.acct.balance .positionMargin ≠ s.acct.balance .positionMargin)
    | _, _ => false) = true := by
    decide +kernel
  split at h
  · rename_i s tr s' tr' e1 e2
    exact ⟨s, s', tr, tr', e1, e2, by simpa using h⟩
  · cases h

/-- Other fees, a finer tick size and more places, ten times the leverage, half the maintenance margin. -/
def Ex.terms : Cfg :=
  { Ex.linR with maxOpen := Ex.linR.maxOpen + 5
                 spec := { Ex.linR.spec with
                   initMarginReq := Ex.linR.spec.initMarginReq / 10
                   maintenanceMargin := Ex.linR.spec.maintenanceMargin / 2
                   feeMaker := 7 * Ex.linR.spec.feeMaker
                   feeTaker := 3 * Ex.linR.spec.feeTaker
                   priceFilter := { Ex.linR.spec.priceFilter with tickSize := Ex.linR.spec.priceFilter.tickSize / 2 } } }

/-- The same calls; nothing is turned down, and the fees are higher. -/
example : Ex.terms.env = Ex.linR.env ∧ ∃ s s' tr tr',
    history Ex.linR (State.init Ex.linR) Ex.ops3 = .ok (s, tr) ∧
    history Ex.terms (State.init Ex.terms) Ex.ops3 = .ok (s', tr') ∧
    (∀ t ∈ tr, lacksFunds t.2 = false) ∧ (∀ t ∈ tr', lacksFunds t.2 = false) ∧
    (∀ t ∈ tr, turnedDown t.2 = false) ∧ (∀ t ∈ tr', turnedDown t.2 = false) ∧
    (∀ t ∈ tr, closesOut t.2 = false) ∧ (∀ t ∈ tr', closesOut t.2 = false) ∧
    s.pos.quantity < 0 ∧ s.feesPaid < s'.feesPaid := by
  refine ⟨rfl, ?_⟩
  have h : (match history Ex.linR (State.init Ex.linR) Ex.ops3,
      history Ex.terms (State.init Ex.terms) Ex.ops3 with
    | .ok (s, tr), .ok (s', tr') => decide ((∀ t ∈ tr, lacksFunds t.2 = false) ∧
        (∀ t ∈ tr', lacksFunds t.2 = false) ∧
        (∀ t ∈ tr, turnedDown t.2 = false) ∧ (∀ t ∈ tr', turnedDown t.2 = false) ∧
        (∀ t ∈ tr, closesOut t.2 = false) ∧ (∀ t ∈ tr', closesOut t.2 = false) ∧
        s.pos.quantity < 0 ∧ s.feesPaid < s'.feesPaid)
    | _, _ => false) = true := by
    decide +kernel
  split at h
  · rename_i s tr s' tr' e1 e2
    exact ⟨s, s', tr, tr', e1, e2, by simpa using h⟩
  · cases h

/-- A tenth of the money of `Ex.linR`. -/
def Ex.poorer : Cfg := { Ex.linR with start := Ex.linR.start / 10 }

/-- Funds do matter: with a tenth of the money and the same leverage an order is turned down that is filled
otherwise. -/
theorem C138_poor : ∃ c c' ops s s' tr tr', c'.env = c.env ∧ sameLimits c c' ∧ sameFees c c' ∧
    c'.spec.maintenanceMargin = c.spec.maintenanceMargin ∧
    history c (State.init c) ops = .ok (s, tr) ∧ history c' (State.init c') ops = .ok (s', tr') ∧
    (∀ t ∈ tr, lacksFunds t.2 = false) ∧ tr' ≠ tr ∧ s'.pos.quantity ≠ s.pos.quantity := by
  have h : (match history Ex.linR (State.init Ex.linR) Ex.ops1,
      history Ex.poorer (State.init Ex.poorer) Ex.ops1 with
    | .ok (s, tr), .ok (s', tr') => decide ((∀ t ∈ tr, lacksFunds t.2 = false) ∧ tr' ≠ tr ∧
        s'.pos.quantity ≠ s.pos.quantity)
    | _, _ => false) = true := by
    decide +kernel
  split at h
  · rename_i s tr s' tr' e1 e2
    exact ⟨Ex.linR, Ex.poorer, Ex.ops1, s, s', tr, tr', rfl, ⟨rfl, rfl, rfl⟩, ⟨rfl, rfl⟩, rfl, e1, e2,
      by simpa using h⟩
  · cases h

end Lfest
