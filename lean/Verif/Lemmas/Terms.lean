import Verif.SpecTerms
import Verif.Props.Returns

/-!
# Two reference exchanges, one with better terms
-/

namespace Lfest

open Spec

/-- The same exchange, with other fees. -/
def Ref.Exchange.withFees (x : Ref.Exchange) (owed paid : Int) : Ref.Exchange :=
  { x with book := { x.book with owed := owed, paid := paid } }

/-- The exchange `x'` is that of an account on better terms. -/
structure OnBetter (c c' : Cfg) (x x' : Ref.Exchange) : Prop where
  eq : x' = x.withFees x'.book.owed x'.book.paid
  paid : x'.book.paid ≤ x.book.paid
  sum : x'.book.paid + x'.book.owed ≤ x.book.paid + x.book.owed
  same : c'.spec.feeMaker = c.spec.feeMaker → c'.spec.feeTaker = c.spec.feeTaker → x' = x

theorem quantityError_none {f : QuantityFilter} {q : Int} :
    Ref.quantityError f q = none ↔ quantityOk f q := by
  unfold Ref.quantityError quantityOk within onGrid
  cases f.minQuantity <;> cases f.maxQuantity <;> simp <;> grind

theorem priceError_none {e : Env} {f : PriceFilter} {p m : Int} :
    Ref.priceError e f p m = none ↔ priceOk e f p m := by
  unfold Ref.priceError priceOk within onGrid
  cases f.minPrice <;> cases f.maxPrice <;> simp <;> grind

theorem quantityError_kind {f : QuantityFilter} {q : Int} {err : OrderError}
    (h : Ref.quantityError f q = some err) : ∀ a b, err ≠ .goodTillCrossingRejected a b := by
  unfold Ref.quantityError at h
  intro a b he
  subst he
  repeat' split at h
  all_goals simp at h

theorem priceError_kind {e : Env} {f : PriceFilter} {p m : Int} {err : OrderError}
    (h : Ref.priceError e f p m = some err) : ∀ a b, err ≠ .goodTillCrossingRejected a b := by
  unfold Ref.priceError at h
  intro a b he
  subst he
  repeat' split at h
  all_goals simp at h

theorem turnedDown_filter {err : OrderError} (h : ∀ a b, err ≠ .goodTillCrossingRejected a b) :
    turnedDown (.limit (.error (.order err))) = true ∧
    turnedDown (.market (.error (.order err))) = true := by
  cases err <;> simp [turnedDown] at h ⊢

theorem share_rate_mono {e : Env} {x r r' : Int} (hx : 0 ≤ x) (h : r' ≤ r) :
    share e x r' ≤ share e x r :=
  Int.tdiv_le_tdiv (scale_pos e) (Int.mul_le_mul_of_nonneg_left h hx)

theorem fee_better {c c' : Cfg} (hb : BetterTerms c c') {f : Fill} (hq : 0 ≤ f.qty)
    (hp : 0 < f.price) : f.fee c' ≤ f.fee c := by
  unfold Fill.fee
  rw [hb.env]
  have hv : 0 ≤ value c.env f.qty f.price := value_nonneg _ hq (by omega)
  split
  · exact share_rate_mono hv hb.maker
  · exact share_rate_mono hv hb.taker

theorem fee_same {c c' : Cfg} (hb : BetterTerms c c') (h1 : c'.spec.feeMaker = c.spec.feeMaker)
    (h2 : c'.spec.feeTaker = c.spec.feeTaker) (f : Fill) : f.fee c' = f.fee c := by
  unfold Fill.fee
  rw [hb.env, h1, h2]

theorem initial_better {c c' : Cfg} (hb : BetterTerms c c') (q p : Int) :
    Ref.initial c' q p = Ref.initial c q p := by
  unfold Ref.initial
  rw [hb.env, hb.initial]

theorem marginReq_better {c c' : Cfg} (hb : BetterTerms c c') (os : List Limit) (q : Int) :
    marginReq c' os q = marginReq c os q := by
  unfold marginReq
  rw [hb.env, hb.initial]

theorem needed_better {c c' : Cfg} (hb : BetterTerms c c') {q p : Int} (hq : 0 ≤ q) (hp : 0 ≤ p) :
    needed c' q p ≤ needed c q p := by
  unfold needed
  rw [hb.env, hb.initial]
  have := share_rate_mono (e := c.env) (value_nonneg c.env hq hp) hb.taker
  omega

namespace OnBetter

variable {c c' : Cfg} {x x' : Ref.Exchange}

theorem market (h : OnBetter c c' x x') : x'.market = x.market := by rw [h.eq]; rfl
theorem orders (h : OnBetter c c' x x') : x'.orders = x.orders := by rw [h.eq]; rfl
theorem next (h : OnBetter c c' x x') : x'.next = x.next := by rw [h.eq]; rfl
theorem reserved (h : OnBetter c c' x x') : x'.reserved = x.reserved := by rw [h.eq]; rfl
theorem locked (h : OnBetter c c' x x') : x'.locked = x.locked := by rw [h.eq]; rfl
theorem qty (h : OnBetter c c' x x') : x'.book.qty = x.book.qty := by rw [h.eq]; rfl
theorem entry (h : OnBetter c c' x x') : x'.book.entry = x.book.entry := by rw [h.eq]; rfl
theorem realised (h : OnBetter c c' x x') : x'.book.realised = x.book.realised := by rw [h.eq]; rfl

theorem intro (h1 : x'.market = x.market) (h2 : x'.orders = x.orders) (h3 : x'.next = x.next)
    (h4 : x'.reserved = x.reserved) (h5 : x'.locked = x.locked) (h6 : x'.book.qty = x.book.qty)
    (h7 : x'.book.entry = x.book.entry) (h8 : x'.book.realised = x.book.realised)
    (h9 : x'.book.paid ≤ x.book.paid)
    (h10 : x'.book.paid + x'.book.owed ≤ x.book.paid + x.book.owed)
    (h11 : c'.spec.feeMaker = c.spec.feeMaker → c'.spec.feeTaker = c.spec.feeTaker → x' = x) :
    OnBetter c c' x x' := by
  refine ⟨?_, h9, h10, h11⟩
  obtain ⟨m, o, n, ⟨q, e, ow, pd, re⟩, r, l⟩ := x'
  simp only at h1 h2 h3 h4 h5 h6 h7 h8
  subst h1 h2 h3 h4 h5 h6 h7 h8
  rfl

theorem refl (c c' : Cfg) (x : Ref.Exchange) : OnBetter c c' x x :=
  ⟨rfl, Int.le_refl _, Int.le_refl _, fun _ _ => rfl⟩

/-- The same change of everything but the book. -/
theorem change (h : OnBetter c c' x x') (m : MarketState) (os : List Limit) (n : Nat) (r : Int) :
    OnBetter c c' { x with market := m, orders := os, next := n, reserved := r }
      { x' with market := m, orders := os, next := n, reserved := r } :=
  intro rfl rfl rfl rfl h.locked h.qty h.entry h.realised h.paid h.sum
    (fun a b => by rw [h.same a b])

theorem required (hb : BetterTerms c c') (h : OnBetter c c' x x') :
    x'.required c' = x.required c := by
  unfold Ref.Exchange.required
  rw [h.orders, h.qty, marginReq_better hb]

theorem wallet (h : OnBetter c c' x x') :
    x'.wallet c' = x.wallet c + (c'.start - c.start) + (x.book.paid - x'.book.paid) := by
  unfold Ref.Exchange.wallet
  rw [h.realised, h.reserved, h.locked]
  omega

theorem wallet_le (hb : BetterTerms c c') (h : OnBetter c c' x x') : x.wallet c ≤ x'.wallet c' := by
  have := h.wallet
  have := h.paid
  have := hb.money
  omega

theorem books (hb : BetterTerms c c') (h : OnBetter c c' x x') (f : Fill) :
    x'.books c' f ↔ x.books c f := by
  unfold Ref.Exchange.books
  simp only [h.qty, h.entry, h.locked, initial_better hb, hb.env]

theorem fill (hb : BetterTerms c c') (h : OnBetter c c' x x') {f : Fill} (hq : 0 ≤ f.qty)
    (hp : 0 < f.price) : OnBetter c c' (x.fill c f) (x'.fill c' f) := by
  have hfee := fee_better hb hq hp
  have hpaid := h.paid
  have hsum := h.sum
  refine intro h.market h.orders h.next h.reserved ?_ ?_ ?_ ?_ ?_ ?_ ?_
  · show Ref.lockedAfter c' x'.book x'.locked f = Ref.lockedAfter c x.book x.locked f
    unfold Ref.lockedAfter
    simp only [h.qty, h.entry, h.locked, initial_better hb]
  · show (x'.book.fill c' f).qty = (x.book.fill c f).qty
    unfold Ledger.fill
    simp only [h.qty]
    split
    · rfl
    · split <;> rfl
  · show (x'.book.fill c' f).entry = (x.book.fill c f).entry
    unfold Ledger.fill
    simp only [h.qty, h.entry, hb.env]
    split
    · rfl
    · split <;> rfl
  · show (x'.book.fill c' f).realised = (x.book.fill c f).realised
    unfold Ledger.fill
    simp only [h.qty, h.entry, h.realised, hb.env]
    split
    · rfl
    · split <;> rfl
  · show (x'.book.fill c' f).paid ≤ (x.book.fill c f).paid
    unfold Ledger.fill
    simp only [h.qty]
    split
    · exact hpaid
    · split
      · exact hpaid
      · simp only
        split <;> split <;> omega
  · show (x'.book.fill c' f).paid + (x'.book.fill c' f).owed ≤
      (x.book.fill c f).paid + (x.book.fill c f).owed
    unfold Ledger.fill
    simp only [h.qty]
    split
    · simp only; omega
    · split
      · simp only; omega
      · simp only
        split <;> split <;> split <;> split <;> omega
  · intro a b
    rw [h.same a b]
    have e1 : x.book.fill c' f = x.book.fill c f := by
      unfold Ledger.fill
      simp only [fee_same hb a b, hb.env]
    have e2 : Ref.lockedAfter c' x.book x.locked f = Ref.lockedAfter c x.book x.locked f := by
      unfold Ref.lockedAfter
      simp only [initial_better hb]
    unfold Ref.Exchange.fill
    rw [e1, e2]

theorem matched (hb : BetterTerms c c') (h : OnBetter c c' x x') {u : UpdateArg} {o : Limit}
    (hp : 0 < o.price) (hr : x.matchReturns c u o) :
    OnBetter c c' (x.matched c u o) (x'.matched c' u o) ∧ x'.matchReturns c' u o := by
  have hm : OnBetter c c' (x.matched c u o) (x'.matched c' u o) := by
    unfold Ref.Exchange.matchReturns at hr
    unfold Ref.Exchange.matched
    cases hf : fillRule u o with
    | none => exact h
    | some q =>
      simp only [hf] at hr
      have hfill := h.fill hb (f := ⟨true, o.side, o.price, q⟩) (Int.le_of_lt hr.1) hp
      simp only [h.orders, hb.env]
      generalize (if q = o.remaining then Ref.takeOut (fun y => y.id == o.id) x.orders
        else x.orders.map (fun y => if y.id = o.id then filledBy c.env o q else y)) = os
      have h1 := hfill.change (x.fill c ⟨true, o.side, o.price, q⟩).market os
        (x.fill c ⟨true, o.side, o.price, q⟩).next (x.fill c ⟨true, o.side, o.price, q⟩).reserved
      have e1 := h1.required hb
      have := h1.change x.market os x.next (smaller
        (({ x.fill c ⟨true, o.side, o.price, q⟩ with orders := os } : Ref.Exchange).required c)
        x.reserved)
      have e2 : ({ x'.fill c' ⟨true, o.side, o.price, q⟩ with orders := os } :
          Ref.Exchange).required c' =
          ({ x.fill c ⟨true, o.side, o.price, q⟩ with orders := os } : Ref.Exchange).required c := by
        unfold Ref.Exchange.required
        simp only [hfill.qty, marginReq_better hb]
      simp only [e2, h.reserved]
      refine intro h.market rfl h.next rfl hfill.locked hfill.qty hfill.entry hfill.realised
        hfill.paid hfill.sum (fun a b => ?_)
      have e3 := hfill.same a b
      rw [e3]
  refine ⟨hm, ?_⟩
  have e := hm.required hb
  unfold Ref.Exchange.matchReturns at hr ⊢
  split
  · trivial
  · next q hf =>
    simp only [hf] at hr
    obtain ⟨r1, r2, r3, r4⟩ := hr
    refine ⟨r1, r2, (h.books hb _).2 r3, fun hd => ?_⟩
    rw [hb.env] at hd
    rw [h.reserved, h.required hb, e]
    exact r4 hd

theorem each (hb : BetterTerms c c') {u : UpdateArg} (os : List Limit) : ∀ {x x' : Ref.Exchange},
    OnBetter c c' x x' → (∀ o ∈ os, 0 < o.price) → x.eachReturns c u os →
    OnBetter c c' (os.foldl (Ref.Exchange.matched c u) x) (os.foldl (Ref.Exchange.matched c' u) x') ∧
      x'.eachReturns c' u os := by
  induction os with
  | nil => intro x x' h _ _; exact ⟨h, trivial⟩
  | cons o os ih =>
    intro x x' h hp hr
    obtain ⟨h1, h2⟩ := h.matched hb (hp o (by simp)) hr.1
    obtain ⟨h3, h4⟩ := ih h1 (fun y hy => hp y (by simp [hy])) hr.2
    exact ⟨h3, h2, h4⟩

theorem all (hb : BetterTerms c c') (h : OnBetter c c' x x') {u : UpdateArg}
    (hp : ∀ o ∈ x.orders, 0 < o.price) (hr : x.matchAllReturns c u) (hm : mayFill u = true) :
    OnBetter c c' (x.matchAll c u) (x'.matchAll c' u) ∧ x'.matchAllReturns c' u := by
  obtain ⟨r1, r2, r3⟩ := hr hm
  obtain ⟨h1, h2⟩ := each hb x.orders h hp r1
  have h1' : OnBetter c c' (x.matchAll c u) (x'.matchAll c' u) := by
    unfold Ref.Exchange.matchAll
    rw [h.orders]; exact h1
  refine ⟨h1', fun _ => ⟨by rw [h.orders]; exact h2, Int.le_trans r2 (h1'.wallet_le hb), ?_⟩⟩
  rw [hb.env, h.orders, h1'.reserved, h1'.required hb]
  exact r3

/-- Without fills nothing happens. -/
theorem matchAll_idle {u : UpdateArg} (hm : ¬ mayFill u = true) (c : Cfg) (x : Ref.Exchange) :
    x.matchAll c u = x := by
  unfold Ref.Exchange.matchAll
  generalize x.orders = os
  induction os with
  | nil => rfl
  | cons o os ih =>
    rw [List.foldl_cons]
    have : x.matched c u o = x := by
      unfold Ref.Exchange.matched
      rw [fillRule_none (by simpa using hm)]
    rw [this, ih]

theorem matchAll (hb : BetterTerms c c') (h : OnBetter c c' x x') {u : UpdateArg}
    (hp : ∀ o ∈ x.orders, 0 < o.price) (hr : x.matchAllReturns c u) :
    OnBetter c c' (x.matchAll c u) (x'.matchAll c' u) ∧ x'.matchAllReturns c' u := by
  by_cases hm : mayFill u = true
  · exact h.all hb hp hr hm
  · rw [matchAll_idle hm, matchAll_idle hm]
    exact ⟨h, fun h => absurd h hm⟩

theorem limitOrder_def (c : Cfg) (x : Ref.Exchange) (side : Side) (p q : Int) (uid : Nat) :
    x.limitOrder c side p q uid =
      match Ref.quantityError c.spec.quantityFilter q with
      | some err => (x, .error (.order err))
      | none =>
        match Ref.priceError c.env c.spec.priceFilter p (mid x.market) with
        | some err => (x, .error (.order err))
        | none =>
          let os := x.orders ++ [(⟨uid, side, p, q, x.next, x.market.ts, .unfilled⟩ : Limit)]
          if x.wallet c + marginReq c x.orders x.book.qty < marginReq c os x.book.qty then
            ({ x with next := x.next + 1 }, .error (.risk .notEnoughAvailableBalance))
          else if Ref.crossing x.market side p = true then
            ({ x with next := x.next + 1 },
              .error (.order (.goodTillCrossingRejected p (touchPrice x.market side))))
          else if c.maxOpen ≤ x.orders.length then
            ({ x with next := x.next + 1 }, .error .maxNumberOfActiveOrders)
          else
            ({ x with next := x.next + 1, orders := os,
                      reserved := x.reserved + Spec.abs (marginReq c os x.book.qty - x.reserved) },
              .ok ⟨uid, side, p, q, x.next, x.market.ts, .unfilled⟩) := rfl

theorem limitOrder (hb : BetterTerms c c') (h : OnBetter c c' x x') {side : Side} {p q : Int}
    {uid : Nat} (hr : x.limitReturns c side p q uid)
    (ht : turnedDown (.limit (x.limitOrder c side p q uid).2) = false) :
    OnBetter c c' (x.limitOrder c side p q uid).1 (x'.limitOrder c' side p q uid).1 ∧
    (x'.limitOrder c' side p q uid).2 = (x.limitOrder c side p q uid).2 ∧
    x'.limitReturns c' side p q uid := by
  have key : OnBetter c c' (x.limitOrder c side p q uid).1 (x'.limitOrder c' side p q uid).1 ∧
      (x'.limitOrder c' side p q uid).2 = (x.limitOrder c side p q uid).2 := by
    have hw := h.wallet_le hb
    revert ht
    rw [limitOrder_def, limitOrder_def]
    cases hq : Ref.quantityError c.spec.quantityFilter q with
    | some err =>
      intro ht
      rw [(turnedDown_filter (quantityError_kind hq)).1] at ht
      cases ht
    | none =>
      have hq' := quantityError_none.2 (hb.quantities q (quantityError_none.1 hq))
      simp only [hq']
      cases hpr : Ref.priceError c.env c.spec.priceFilter p (mid x.market) with
      | some err =>
        intro ht
        rw [(turnedDown_filter (priceError_kind hpr)).1] at ht
        cases ht
      | none =>
        have hp' := priceError_none.2 (hb.prices p _ (priceError_none.1 hpr))
        simp only [hb.env, h.market, hp', h.orders, h.next, h.reserved, h.qty,
          marginReq_better hb]
        generalize hos : x.orders ++ [(⟨uid, side, p, q, x.next, x.market.ts, .unfilled⟩ : Limit)] = os
        intro ht
        by_cases c1 : x.wallet c + marginReq c x.orders x.book.qty < marginReq c os x.book.qty
        · rw [if_pos c1] at ht
          simp [turnedDown] at ht
        · have c1' : ¬ x'.wallet c' + marginReq c x.orders x.book.qty < marginReq c os x.book.qty := by
            omega
          rw [if_neg c1] at ht ⊢
          rw [if_neg c1']
          by_cases c2 : Ref.crossing x.market side p = true
          · rw [if_pos c2, if_pos c2]
            exact ⟨intro rfl rfl rfl rfl h.locked h.qty h.entry h.realised h.paid h.sum
              (fun a b => by rw [h.same a b]), rfl⟩
          · rw [if_neg c2] at ht ⊢
            rw [if_neg c2]
            by_cases c3 : c.maxOpen ≤ x.orders.length
            · rw [if_pos c3] at ht
              simp [turnedDown] at ht
            · have c3' : ¬ c'.maxOpen ≤ x.orders.length := by have := hb.places; omega
              rw [if_neg c3, if_neg c3']
              exact ⟨intro rfl rfl rfl rfl h.locked h.qty h.entry h.realised h.paid h.sum
                (fun a b => by rw [h.same a b]), rfl⟩
  refine ⟨key.1, key.2, ?_⟩
  have hw := key.1.wallet_le hb
  unfold Ref.Exchange.limitReturns at hr ⊢
  simp only [key.1.reserved, h.reserved]
  rcases hr with hr | hr
  · exact .inl hr
  · exact .inr (by omega)

theorem cancel (hb : BetterTerms c c') (h : OnBetter c c' x x') (b : CancelBy) :
    OnBetter c c' (x.cancel c b).1 (x'.cancel c' b).1 ∧ (x'.cancel c' b).2 = (x.cancel c b).2 := by
  unfold Ref.Exchange.cancel Ref.Exchange.missing
  simp only [h.orders, h.next]
  split
  · exact ⟨h, rfl⟩
  · generalize Ref.takeOut (Ref.names b) x.orders = os
    simp only [Ref.Exchange.required, h.qty, marginReq_better hb]
    exact ⟨intro h.market rfl rfl rfl h.locked h.qty h.entry h.realised h.paid h.sum
      (fun a b => by rw [h.same a b]), trivial⟩

theorem cancelReturns (hb : BetterTerms c c') (h : OnBetter c c' x x') {b : CancelBy}
    (hr : x.cancelReturns c b) : x'.cancelReturns c' b := by
  unfold Ref.Exchange.cancelReturns at hr ⊢
  rw [h.required hb, h.reserved, (h.cancel hb b).1.reserved]
  exact hr

theorem amend (hb : BetterTerms c c') (h : OnBetter c c' x x') {id : Nat} {side : Side} {p q : Int}
    {uid : Nat} (hr : x.amendReturns c id side p q uid)
    (ht : turnedDown (.limit (x.amend c id side p q uid).2) = false) :
    OnBetter c c' (x.amend c id side p q uid).1 (x'.amend c' id side p q uid).1 ∧
    (x'.amend c' id side p q uid).2 = (x.amend c id side p q uid).2 ∧
    x'.amendReturns c' id side p q uid := by
  unfold Ref.Exchange.amendReturns Ref.Exchange.amend Ref.Exchange.missing at *
  rw [h.orders, h.next]
  cases hf : x.orders.find? (fun o => o.id == id) with
  | none => exact ⟨h, rfl, trivial⟩
  | some old =>
    simp only [hf] at hr ht ⊢
    obtain ⟨k1, k2⟩ := h.cancel hb (.orderId id)
    by_cases hq : q ≤ old.filledQuantity
    · rw [if_pos hq, if_pos hq]
      exact ⟨k1, rfl, h.cancelReturns hb hr.1, fun hx => by omega⟩
    · rw [if_neg hq] at ht ⊢
      rw [if_neg hq]
      obtain ⟨l1, l2, l3⟩ := k1.limitOrder hb (hr.2 (by omega)) ht
      exact ⟨l1, l2, h.cancelReturns hb hr.1, fun _ => l3⟩

theorem marketOrder (hb : BetterTerms c c') (h : OnBetter c c' x x') {side : Side} {q : Int}
    {uid : Nat} (hq0 : 0 < q) (hr : x.marketReturns c side q)
    (ht : turnedDown (.market (x.marketOrder c side q uid).2) = false) :
    OnBetter c c' (x.marketOrder c side q uid).1 (x'.marketOrder c' side q uid).1 ∧
    (x'.marketOrder c' side q uid).2 = (x.marketOrder c side q uid).2 ∧
    x'.marketReturns c' side q := by
  unfold Ref.Exchange.marketOrder Ref.Exchange.marketReturns at *
  cases hq : Ref.quantityError c.spec.quantityFilter q with
  | some err =>
    simp only [hq] at ht
    rw [(turnedDown_filter (quantityError_kind hq)).2] at ht
    cases ht
  | none =>
    have hq' := quantityError_none.2 (hb.quantities q (quantityError_none.1 hq))
    simp only [hq, ne_eq, not_true_eq_false, false_or] at hr ht
    simp only [hq', h.market, h.next]
    by_cases ha : Ref.affordable c x side q = true
    · rw [if_pos ha] at hr ⊢
      have ha' : Ref.affordable c' x' side q = true := by
        have hw := h.wallet_le hb
        unfold Ref.affordable at ha ⊢
        simp only [h.qty, h.market, h.locked] at ha ⊢
        have hn : 0 ≤ opposing x.book.qty side := by
          unfold opposing larger; cases side <;> simp only <;> split <;> omega
        split at ha
        · next h0 =>
          rw [if_pos h0]
          have := needed_better hb (Int.le_of_lt hq0) (Int.le_of_lt hr.1)
          simp only [decide_eq_true_eq] at ha ⊢
          omega
        · next h0 =>
          rw [if_neg h0]
          simp only [decide_eq_true_eq] at ha ⊢
          rcases ha with ha | ha
          · exact .inl ha
          · by_cases hle : q ≤ opposing x.book.qty side
            · exact .inl hle
            · have := needed_better hb (q := q - opposing x.book.qty side)
                (p := touchPrice x.market side) (by omega) (Int.le_of_lt hr.1)
              exact .inr (by omega)
      rw [if_pos ha', if_pos ha']
      refine ⟨?_, rfl, .inr ⟨hr.1, (h.books hb _).2 hr.2⟩⟩
      have h1 := h.change x.market x.orders (x.next + 1) x.reserved
      have h2 := h1.fill hb (f := ⟨false, side, touchPrice x.market side, q⟩) (Int.le_of_lt hq0) hr.1
      simp only [h.orders, h.reserved]
      exact h2
    · rw [if_neg ha] at ht
      simp [turnedDown] at ht

theorem update (hb : BetterTerms c c') (h : OnBetter c c' x x') {u : UpdateArg}
    (hp : ∀ o ∈ x.orders, 0 < o.price) (hr : x.updateReturns c u) :
    OnBetter c c' (x.update c u).1 (x'.update c' u).1 ∧
    (x'.update c' u).2 = (x.update c u).2 ∧ x'.updateReturns c' u := by
  unfold Ref.Exchange.update Ref.Exchange.updateReturns at *
  have h1 : OnBetter c c' { x with market := seen x.market [.update u] }
      { x' with market := seen x'.market [.update u] } :=
    intro (by rw [h.market]) h.orders h.next h.reserved h.locked h.qty h.entry h.realised h.paid h.sum
      (fun a b => by rw [h.same a b])
  have hu : ({ x' with market := seen x'.market [.update u] } : Ref.Exchange).underwater c' =
      ({ x with market := seen x.market [.update u] } : Ref.Exchange).underwater c := by
    unfold Ref.Exchange.underwater longLimit shortLimit
    rw [h1.qty, h1.market, h1.entry, hb.env, hb.maintenance]
  have hcl : ({ x' with market := seen x'.market [.update u] } : Ref.Exchange).closing =
      ({ x with market := seen x.market [.update u] } : Ref.Exchange).closing := by
    unfold Ref.Exchange.closing
    rw [h1.qty, h1.market]
  simp only [hu, hcl] at hr ⊢
  obtain ⟨r1, r2⟩ := hr
  have hv : c'.env.debug = true → updateOk c'.spec.priceFilter u := by
    rw [hb.env]; exact fun hd => hb.updates u (r1 hd)
  by_cases hw : ({ x with market := seen x.market [.update u] } : Ref.Exchange).underwater c = true
  · rw [if_pos hw] at r2 ⊢
    rw [if_pos hw, if_pos hw]
    obtain ⟨q1, q2, q3⟩ := r2
    have hqty : 0 ≤ ({ x with market := seen x.market [.update u] } : Ref.Exchange).closing.qty := by
      unfold Ref.Exchange.underwater at hw
      simp only [decide_eq_true_eq] at hw
      unfold Ref.Exchange.closing
      simp only
      split <;> simp only <;> omega
    have h2 := h1.fill hb hqty q2
    refine ⟨?_, rfl, hv, quantityError_none.2 (hb.quantities _ (quantityError_none.1 q1)), q2,
      (h1.books hb _).2 q3⟩
    have e : ∀ (c : Cfg) (x : Ref.Exchange) (m : MarketState),
        ({ ({ x with market := m } : Ref.Exchange).fill c
            (if 0 < x.book.qty then ⟨false, .sell, m.bid, x.book.qty⟩
              else ⟨false, .buy, m.ask, -x.book.qty⟩) with next := x.next + 1 } : Ref.Exchange) =
        { ({ x with market := m } : Ref.Exchange).fill c ({ x with market := m } :
            Ref.Exchange).closing with
            market := m, orders := x.orders, next := x.next + 1, reserved := x.reserved } :=
      fun _ _ _ => rfl
    have hm : seen x'.market [.update u] = seen x.market [.update u] := by rw [h.market]
    simp only [hm] at hcl h2
    simp only [e, hm, hcl]
    rw [h.orders, h.next, h.reserved] at h2 ⊢
    exact h2.change (seen x.market [.update u]) x.orders (x.next + 1) x.reserved
  · rw [if_neg hw] at r2 ⊢
    rw [if_neg hw, if_neg hw]
    obtain ⟨k1, k2⟩ := h1.matchAll hb hp r2
    exact ⟨k1, by rw [h.orders, hb.env], hv, k2⟩

theorem call (hb : BetterTerms c c') (h : OnBetter c c' x x') {op : Op}
    (hp : ∀ o ∈ x.orders, 0 < o.price) (hr : x.returns c op)
    (ht : turnedDown (x.call c op).2 = false) :
    OnBetter c c' (x.call c op).1 (x'.call c' op).1 ∧ (x'.call c' op).2 = (x.call c op).2 ∧
      x'.returns c' op := by
  cases op with
  | update u =>
    obtain ⟨k1, k2, k3⟩ := h.update hb hp hr.2
    exact ⟨k1, by simp only [Ref.Exchange.call, k2], by rw [Ref.Exchange.returns, hb.env]; exact ⟨hr.1, k3⟩⟩
  | checkActive u =>
    obtain ⟨k1, k2⟩ := h.matchAll hb hp hr.2
    exact ⟨k1, rfl, by rw [Ref.Exchange.returns, hb.env]; exact ⟨hr.1, k2⟩⟩
  | market side q uid =>
    simp only [Ref.Exchange.call, Ref.Exchange.returns] at hr ht ⊢
    by_cases hq : q ≤ 0
    · rw [if_pos hq, if_pos hq]
      exact ⟨h, rfl, fun hx => by omega⟩
    · rw [if_neg hq] at ht ⊢
      rw [if_neg hq]
      obtain ⟨k1, k2, k3⟩ := h.marketOrder hb (by omega) (hr (by omega)) ht
      exact ⟨k1, by rw [k2], fun _ => k3⟩
  | limit side p q uid =>
    simp only [Ref.Exchange.call, Ref.Exchange.returns] at hr ht ⊢
    by_cases hpp : p ≤ 0
    · rw [if_pos hpp, if_pos hpp]
      exact ⟨h, rfl, fun hx => by omega⟩
    · rw [if_neg hpp] at ht ⊢
      rw [if_neg hpp]
      by_cases hq : q ≤ 0
      · rw [if_pos hq, if_pos hq]
        exact ⟨h, rfl, fun _ hx => by omega⟩
      · rw [if_neg hq] at ht ⊢
        rw [if_neg hq]
        obtain ⟨k1, k2, k3⟩ := h.limitOrder hb (hr (by omega) (by omega)) ht
        exact ⟨k1, by rw [k2], fun _ _ => k3⟩
  | amend id side p q uid =>
    simp only [Ref.Exchange.call, Ref.Exchange.returns] at hr ht ⊢
    by_cases hpp : p ≤ 0
    · rw [if_pos hpp, if_pos hpp]
      exact ⟨h, rfl, fun hx => by omega⟩
    · rw [if_neg hpp] at ht ⊢
      rw [if_neg hpp]
      by_cases hq : q ≤ 0
      · rw [if_pos hq, if_pos hq]
        exact ⟨h, rfl, fun _ hx => by omega⟩
      · rw [if_neg hq] at ht ⊢
        rw [if_neg hq]
        obtain ⟨k1, k2, k3⟩ := h.amend hb (hr (by omega) (by omega)) ht
        exact ⟨k1, by rw [k2], fun _ _ => k3⟩
  | cancel b =>
    obtain ⟨k1, k2⟩ := h.cancel hb b
    exact ⟨k1, by simp only [Ref.Exchange.call, k2], h.cancelReturns hb hr⟩

end OnBetter

end Lfest
