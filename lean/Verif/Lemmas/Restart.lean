import Verif.SpecRestart
import Verif.Lemmas.Clean

/-! # The reference exchange with another past -/

namespace Lfest

open Spec Ref

/-- The same configuration with another starting balance. -/
abbrev restart (a b : Int) (i : Nat) (c : Cfg) : Cfg :=
  { c with start := c.start - b + a, sampleSecs := i }

/-- The reference exchange with larger order ids, more fees paid and more profit made. -/
def moved (k : Nat) (a b : Int) (n : Nat) (x : Ref.Exchange) : Ref.Exchange :=
  { x with
    market := { x.market with step := n }
    orders := x.orders.map (Rename.limit (· + k))
    next := x.next + k
    book := { x.book with paid := x.book.paid + a, realised := x.book.realised + b } }

variable {k : Nat} {a b : Int} {i n : Nat} {c : Cfg} {x : Ref.Exchange}

theorem wallet_moved : (moved k a b n x).wallet (restart a b i c) = x.wallet c := by
  simp only [moved, Ref.Exchange.wallet]; omega

theorem required_moved : (moved k a b n x).required (restart a b i c) = x.required c :=
  marginReq_ren (· + k) c _ _

theorem ledger_moved (l : Ledger) (g : Fill) :
    Ledger.fill (restart a b i c) { l with paid := l.paid + a, realised := l.realised + b } g =
      { l.fill c g with paid := (l.fill c g).paid + a, realised := (l.fill c g).realised + b } := by
  have e : g.fee (restart a b i c) = g.fee c := rfl
  simp only [Ledger.fill, e]
  split
  · rfl
  · split
    · rfl
    · simp only [Ledger.mk.injEq, true_and]
      omega

theorem fill_moved (g : Fill) :
    (moved k a b n x).fill (restart a b i c) g = moved k a b n (x.fill c g) := by
  have := ledger_moved (a := a) (b := b) (i := i) (c := c) x.book g
  simp only [Ref.Exchange.fill, moved, this]
  rfl

theorem books_moved {g : Fill} :
    (moved k a b n x).books (restart a b i c) g ↔ x.books c g := Iff.rfl

theorem affordable_moved (side : Side) (q : Int) :
    affordable (restart a b i c) (moved k a b n x) side q = affordable c x side q := by
  simp only [affordable, wallet_moved]; rfl

/-! ## Orders -/

theorem limitOrder_moved (side : Side) (p q : Int) (uid : Nat) :
    (moved k a b n x).limitOrder (restart a b i c) side p q uid =
      (moved k a b n (x.limitOrder c side p q uid).1,
       (x.limitOrder c side p q uid).2.map (Rename.limit (· + k))) := by
  unfold Ref.Exchange.limitOrder
  cases hq : quantityError c.spec.quantityFilter q with
  | some err => simp [Except.map]
  | none =>
    have em : mid (moved k a b n x).market = mid x.market := rfl
    simp only [em]
    cases hp : priceError c.env c.spec.priceFilter p (mid x.market) with
    | some err => simp [Except.map]
    | none =>
      have hr : ∀ o : Limit, marginReq c (x.orders.map (Rename.limit (· + k)) ++
          [Rename.limit (· + k) o]) x.book.qty = marginReq c (x.orders ++ [o]) x.book.qty := by
        intro o
        have := marginReq_ren (· + k) c (x.orders ++ [o]) x.book.qty
        simpa using this
      have hr' := hr ⟨uid, side, p, q, x.next, x.market.ts, .unfilled⟩
      simp only [Rename.limit] at hr'
      have h0 := marginReq_ren (· + k) c x.orders x.book.qty
      have hw := wallet_moved (k := k) (a := a) (b := b) (i := i) (n := n) (c := c) (x := x)
      have ec : ∀ os r, marginReq (restart a b i c) os r = marginReq c os r := fun _ _ => rfl
      simp only [hw, Ref.Exchange.required, ec]
      simp only [moved, hr', h0, List.length_map]
      have e2 : crossing { x.market with step := n } side p = crossing x.market side p := rfl
      have e3 : touchPrice { x.market with step := n } side = touchPrice x.market side := rfl
      simp only [e2, e3]
      split
      · next h1 => simp [h1, Except.map, Nat.add_right_comm]
      · next h1 =>
        split
        · simp [Except.map, Nat.add_right_comm]
        · split
          · simp [Except.map, Nat.add_right_comm]
          · simp [Except.map, Rename.limit, Nat.add_right_comm]

theorem limitReturns_moved {side : Side} {p q : Int} {uid : Nat} :
    (moved k a b n x).limitReturns (restart a b i c) side p q uid ↔
      x.limitReturns c side p q uid := by
  simp only [Ref.Exchange.limitReturns, limitOrder_moved, wallet_moved]; rfl

theorem marketOrder_moved (side : Side) (q : Int) (uid : Nat) :
    (moved k a b n x).marketOrder (restart a b i c) side q uid =
      (moved k a b n (x.marketOrder c side q uid).1,
       (x.marketOrder c side q uid).2.map (Rename.filledMarket (· + k))) := by
  unfold Ref.Exchange.marketOrder
  cases hq : quantityError c.spec.quantityFilter q with
  | some err => simp [Except.map]
  | none =>
    have e1 : { moved k a b n x with next := (moved k a b n x).next + 1 } =
        moved k a b n { x with next := x.next + 1 } := by
      simp only [moved, Nat.add_right_comm]
    simp only [e1, affordable_moved, fill_moved]
    split
    · rfl
    · rfl

theorem marketReturns_moved {side : Side} {q : Int} :
    (moved k a b n x).marketReturns (restart a b i c) side q ↔ x.marketReturns c side q := by
  simp only [Ref.Exchange.marketReturns, affordable_moved]; rfl

theorem names_moved (id : CancelBy) (o : Limit) :
    names (cancelBy (· + k) id) (Rename.limit (· + k) o) = names id o := by
  cases id with
  | orderId id => rw [Bool.eq_iff_iff]; simp [names, cancelBy, Rename.limit]
  | userOrderId uid => rfl

theorem id_moved (id : Nat) (o : Limit) :
    ((Rename.limit (· + k) o).id == id + k) = (o.id == id) := names_moved (.orderId id) o

theorem missing_moved (id : Nat) : Later.limitResult k (.error (x.missing id)) =
    .error ((moved k a b n x).missing (id + k)) := by
  simp only [Ref.Exchange.missing, moved]
  by_cases h : id < x.next
  · simp [h, Later.limitResult]
  · simp [h, Later.limitResult]

theorem cancel_moved (id : CancelBy) :
    (moved k a b n x).cancel (restart a b i c) (cancelBy (· + k) id) =
      (moved k a b n (x.cancel c id).1, Later.limitResult k (x.cancel c id).2) := by
  simp only [Ref.Exchange.cancel]
  have e : (moved k a b n x).orders = x.orders.map (Rename.limit (· + k)) := rfl
  rw [e, find_ren (fun o _ => names_moved id o), takeOut_ren (fun o _ => names_moved id o)]
  cases hx : x.orders.find? (names id) with
  | none =>
    cases id with
    | orderId id =>
      simp only [Option.map_none, cancelBy, missing_moved (a := a) (b := b) (n := n)]
    | userOrderId uid => simp [cancelBy, Later.limitResult]
  | some o =>
    have := marginReq_ren (· + k) c (takeOut (names id) x.orders) x.book.qty
    have ec : ∀ os r, marginReq (restart a b i c) os r = marginReq c os r := fun _ _ => rfl
    simp only [Option.map_some, Later.limitResult, moved, Ref.Exchange.required, ec, this]

theorem cancelReturns_moved {id : CancelBy} :
    (moved k a b n x).cancelReturns (restart a b i c) (cancelBy (· + k) id) ↔
      x.cancelReturns c id := by
  simp only [Ref.Exchange.cancelReturns, cancel_moved, required_moved]; rfl

theorem limit_result (side : Side) (p q : Int) (uid : Nat) :
    (x.limitOrder c side p q uid).2.map (Rename.limit (· + k)) =
      Later.limitResult k (x.limitOrder c side p q uid).2 := by
  unfold Ref.Exchange.limitOrder
  split
  · rfl
  · split
    · rfl
    · dsimp only
      repeat' split
      all_goals rfl

theorem amend_moved (id : Nat) (side : Side) (p q : Int) (uid : Nat) :
    (moved k a b n x).amend (restart a b i c) (id + k) side p q uid =
      (moved k a b n (x.amend c id side p q uid).1,
       Later.limitResult k (x.amend c id side p q uid).2) := by
  have hc := cancel_moved (k := k) (a := a) (b := b) (i := i) (n := n) (c := c) (x := x)
    (.orderId id)
  simp only [cancelBy] at hc
  simp only [Ref.Exchange.amend, hc]
  have e : (moved k a b n x).orders = x.orders.map (Rename.limit (· + k)) := rfl
  rw [e, find_ren (p := fun o => o.id == id) (fun o _ => id_moved id o)]
  cases hx : x.orders.find? (fun o => o.id == id) with
  | none => simp only [Option.map_none, missing_moved (a := a) (b := b) (n := n)]
  | some old =>
    simp only [Option.map_some]
    have e2 : (Rename.limit (· + k) old).filledQuantity = old.filledQuantity := rfl
    rw [e2]
    split
    · rfl
    · simp only [limitOrder_moved, limit_result]

theorem amendReturns_moved {id : Nat} {side : Side} {p q : Int} {uid : Nat} :
    (moved k a b n x).amendReturns (restart a b i c) (id + k) side p q uid ↔
      x.amendReturns c id side p q uid := by
  have hc := cancel_moved (k := k) (a := a) (b := b) (i := i) (n := n) (c := c) (x := x)
    (.orderId id)
  have hr := cancelReturns_moved (k := k) (a := a) (b := b) (i := i) (n := n) (c := c) (x := x)
    (id := .orderId id)
  simp only [cancelBy] at hc hr
  simp only [Ref.Exchange.amendReturns, hc, hr]
  have e : (moved k a b n x).orders = x.orders.map (Rename.limit (· + k)) := rfl
  rw [e, find_ren (p := fun o => o.id == id) (fun o _ => id_moved id o)]
  cases hx : x.orders.find? (fun o => o.id == id) with
  | none => simp
  | some old =>
    simp only [Option.map_some]
    have e2 : (Rename.limit (· + k) old).filledQuantity = old.filledQuantity := rfl
    rw [e2, limitReturns_moved]

/-! ## Market updates -/

theorem lookup_later (l : List (Nat × Int)) (id : Nat) :
    (l.map fun p => (p.1 + k, p.2)).lookup (id + k) = l.lookup id := by
  induction l with
  | nil => rfl
  | cons p l ih =>
    simp only [List.map_cons, List.lookup_cons]
    have : (id + k == p.1 + k) = (id == p.1) := by
      rw [Bool.eq_iff_iff]; simp
    rw [this, ih]
    rfl

theorem fillRule_moved (u : UpdateArg) (o : Limit) :
    fillRule (Later.update k u) (Rename.limit (· + k) o) = fillRule u o := by
  cases u with
  | custom y => simp only [Later.update, fillRule, Rename.limit, lookup_later]
  | _ => rfl

theorem matched_moved (u : UpdateArg) (o : Limit) :
    (moved k a b n x).matched (restart a b i c) (Later.update k u) (Rename.limit (· + k) o) =
      moved k a b n (x.matched c u o) := by
  unfold Ref.Exchange.matched
  rw [fillRule_moved]
  cases fillRule u o with
  | none => rfl
  | some q =>
    have hb : ∀ y ∈ x.orders, (y.id + k == o.id + k) = (y.id == o.id) := by
      intro y _; rw [Bool.eq_iff_iff]; simp
    have e1 : takeOut (fun y => y.id == (Rename.limit (· + k) o).id)
        (x.orders.map (Rename.limit (· + k))) =
        (takeOut (fun y => y.id == o.id) x.orders).map (Rename.limit (· + k)) := takeOut_ren hb
    have e2 : (x.orders.map (Rename.limit (· + k))).map
        (fun y => if y.id = (Rename.limit (· + k) o).id then
          filledBy c.env (Rename.limit (· + k) o) q else y) =
        (x.orders.map (fun y => if y.id = o.id then filledBy c.env o q else y)).map
          (Rename.limit (· + k)) := by
      simp only [List.map_map]
      apply List.map_congr_left
      intro y hy
      have := hb y hy
      rw [Bool.eq_iff_iff] at this
      simp only [beq_iff_eq] at this
      simp only [Function.comp, Rename.limit, this]
      split <;> rfl
    have e3 : (moved k a b n x).orders = x.orders.map (Rename.limit (· + k)) := rfl
    simp only [e3, e1, e2]
    have e4 : (if q = (Rename.limit (· + k) o).remaining then
        (takeOut (fun y => y.id == o.id) x.orders).map (Rename.limit (· + k))
        else (x.orders.map (fun y => if y.id = o.id then filledBy c.env o q else y)).map
          (Rename.limit (· + k))) =
        (if q = o.remaining then takeOut (fun y => y.id == o.id) x.orders
        else x.orders.map (fun y => if y.id = o.id then filledBy c.env o q else y)).map
          (Rename.limit (· + k)) := by
      by_cases hq : q = o.remaining
      · rw [if_pos hq, if_pos (show q = (Rename.limit (· + k) o).remaining from hq)]
      · rw [if_neg hq, if_neg (show ¬ q = (Rename.limit (· + k) o).remaining from hq)]
    rw [e4]
    generalize (if q = o.remaining then takeOut (fun y => y.id == o.id) x.orders
        else x.orders.map (fun y => if y.id = o.id then filledBy c.env o q else y)) = os
    have e5 : ∀ pos, marginReq c (os.map (Rename.limit (· + k))) pos = marginReq c os pos :=
      marginReq_ren (· + k) c os
    have ec : ∀ os r, marginReq (restart a b i c) os r = marginReq c os r := fun _ _ => rfl
    have ef := fill_moved (k := k) (a := a) (b := b) (i := i) (n := n) (c := c) (x := x)
      ⟨true, (Rename.limit (· + k) o).side, (Rename.limit (· + k) o).price, q⟩
    rw [ef]
    simp only [Ref.Exchange.required, ec]
    simp only [moved, e5]
    rfl

theorem fold_moved (u : UpdateArg) : ∀ (l : List Limit) (x : Ref.Exchange),
    (l.map (Rename.limit (· + k))).foldl
      (Ref.Exchange.matched (restart a b i c) (Later.update k u)) (moved k a b n x) =
      moved k a b n (l.foldl (Ref.Exchange.matched c u) x) := by
  intro l
  induction l with
  | nil => intros; rfl
  | cons o l ih =>
    intro x
    simp only [List.map_cons, List.foldl_cons, matched_moved]
    exact ih _

theorem matchAll_moved (u : UpdateArg) :
    (moved k a b n x).matchAll (restart a b i c) (Later.update k u) =
      moved k a b n (x.matchAll c u) := fold_moved u x.orders x

theorem eachReturns_moved (u : UpdateArg) : ∀ (l : List Limit) (x : Ref.Exchange),
    ((moved k a b n x).eachReturns (restart a b i c) (Later.update k u)
      (l.map (Rename.limit (· + k))) ↔ x.eachReturns c u l) := by
  intro l
  induction l with
  | nil => intros; rfl
  | cons o l ih =>
    intro x
    simp only [List.map_cons, Ref.Exchange.eachReturns, matched_moved]
    rw [ih]
    simp only [Ref.Exchange.matchReturns, matched_moved, fillRule_moved, required_moved]
    rfl

theorem mayFill_moved (u : UpdateArg) : mayFill (Later.update k u) = mayFill u := by
  cases u <;> rfl

theorem emptyTrade_moved (u : UpdateArg) : emptyTrade (Later.update k u) = emptyTrade u := by
  cases u <;> rfl

theorem makes_moved (d : Bool) (u : UpdateArg) : makes d (Later.update k u) ↔ makes d u := by
  cases u <;> rfl

theorem updateOk_moved (f : PriceFilter) (u : UpdateArg) :
    updateOk f (Later.update k u) ↔ updateOk f u := by
  cases u <;> rfl

theorem updateTime_moved (u : UpdateArg) : updateTime (Later.update k u) = updateTime u := by
  cases u <;> rfl

theorem matchAllReturns_moved (u : UpdateArg) :
    (moved k a b n x).matchAllReturns (restart a b i c) (Later.update k u) ↔
      x.matchAllReturns c u := by
  have h1 := eachReturns_moved (k := k) (a := a) (b := b) (i := i) (n := n) (c := c) u x.orders x
  have e : (moved k a b n x).orders = x.orders.map (Rename.limit (· + k)) := rfl
  have e2 : (moved k a b n (x.matchAll c u)).reserved = (x.matchAll c u).reserved := rfl
  simp only [Ref.Exchange.matchAllReturns, matchAll_moved, required_moved, wallet_moved,
    mayFill_moved, emptyTrade_moved, e, e2, h1, List.map_eq_nil_iff]

theorem reports_moved (e : Env) (u : UpdateArg) (os : List Limit) :
    reports e (Later.update k u) (os.map (Rename.limit (· + k))) =
      (reports e u os).map (Rename.limitUpdate (· + k)) := by
  induction os with
  | nil => rfl
  | cons o os ih =>
    simp only [reports, updateTime_moved] at ih
    simp only [reports, List.map_cons, List.filterMap_cons, fillRule_moved, updateTime_moved, ih]
    cases fillRule u o with
    | none => rfl
    | some q =>
      cases updateTime u with
      | none => rfl
      | some ts =>
        simp only [List.map_cons, List.cons.injEq, and_true]
        simp only [report, Rename.limitUpdate]
        split
        · next h => rw [if_pos (show q = o.remaining from h)]; rfl
        · next h => rw [if_neg (show ¬ q = o.remaining from h)]; rfl

theorem seen_moved (u : UpdateArg) (m : MarketState) :
    seen { m with step := n } [.update (Later.update k u)] =
      { seen m [.update u] with step := stepAfter { m with step := n } u } := by
  simp only [seen, updateTime_moved]
  cases u with
  | custom y =>
    cases hy : y.market <;> simp [Later.update, quotesAfter, stepAfter, hy]
  | _ => rfl

theorem update_moved (u : UpdateArg) :
    (moved k a b n x).update (restart a b i c) (Later.update k u) =
      (moved k a b (stepAfter { x.market with step := n } u) (x.update c u).1,
       (x.update c u).2.map (List.map (Rename.limitUpdate (· + k)))) := by
  unfold Ref.Exchange.update
  have e1 : ({ moved k a b n x with
      market := seen (moved k a b n x).market [.update (Later.update k u)] } : Ref.Exchange) =
      moved k a b (stepAfter { x.market with step := n } u)
        { x with market := seen x.market [.update u] } := by
    simp only [moved, seen_moved]
  simp only [e1]
  generalize stepAfter { x.market with step := n } u = n'
  have e2 : (moved k a b n' { x with market := seen x.market [.update u] }).underwater
      (restart a b i c) = ({ x with market := seen x.market [.update u] } : Ref.Exchange).underwater
        c := rfl
  rw [e2]
  split
  · have hl : ∀ y : Ref.Exchange, { moved k a b n' y with next := (moved k a b n x).next + 1 } =
        moved k a b n' { y with next := x.next + 1 } := by
      intro y
      have e6 : (moved k a b n x).next + 1 = x.next + 1 + k := Nat.add_right_comm _ _ _
      rw [e6]; rfl
    have e3 : (moved k a b n x).book.qty = x.book.qty := rfl
    refine Prod.ext ?_ rfl
    refine Eq.trans ?_ (hl _)
    have e7 : seen (moved k a b n x).market [.update (Later.update k u)] =
      { seen x.market [.update u] with step := stepAfter { x.market with step := n } u } :=
      seen_moved u x.market
    simp only [e3, e7]
    by_cases h0 : 0 < x.book.qty
    · simp only [if_pos h0, fill_moved]
    · simp only [if_neg h0, fill_moved]
  · have e4 : (moved k a b n x).orders = x.orders.map (Rename.limit (· + k)) := rfl
    simp only [e4, matchAll_moved, reports_moved]
    rfl

theorem updateReturns_moved (u : UpdateArg) :
    (moved k a b n x).updateReturns (restart a b i c) (Later.update k u) ↔
      x.updateReturns c u := by
  unfold Ref.Exchange.updateReturns
  have e1 : ({ moved k a b n x with
      market := seen (moved k a b n x).market [.update (Later.update k u)] } : Ref.Exchange) =
      moved k a b (stepAfter { x.market with step := n } u)
        { x with market := seen x.market [.update u] } := by
    simp only [moved, seen_moved]
  simp only [e1, updateOk_moved, matchAllReturns_moved]
  rfl

/-! ## All calls -/

theorem call_moved (op : Op) : ∃ n',
    (moved k a b n x).call (restart a b i c) (Later.op k op) =
      (moved k a b n' (x.call c op).1, Later.resp k (x.call c op).2) := by
  cases op with
  | update u =>
    refine ⟨stepAfter { x.market with step := n } u, ?_⟩
    simp only [Later.op, Ref.Exchange.call, update_moved]
    congr 1
    cases (x.update c u).2 <;> rfl
  | checkActive u => exact ⟨n, by simp only [Later.op, Ref.Exchange.call, matchAll_moved]; rfl⟩
  | market side q uid =>
    refine ⟨n, ?_⟩
    simp only [Later.op, Ref.Exchange.call]
    split
    · rfl
    · simp only [marketOrder_moved]
      cases (x.marketOrder c side q uid).2 <;> rfl
  | limit side p q uid =>
    refine ⟨n, ?_⟩
    simp only [Later.op, Ref.Exchange.call]
    split
    · rfl
    · split
      · rfl
      · simp only [limitOrder_moved, limit_result]; rfl
  | amend id side p q uid =>
    refine ⟨n, ?_⟩
    simp only [Later.op, Ref.Exchange.call]
    split
    · rfl
    · split
      · rfl
      · simp only [amend_moved]; rfl
  | cancel id =>
    refine ⟨n, ?_⟩
    have := cancel_moved (k := k) (a := a) (b := b) (i := i) (n := n) (c := c) (x := x) id
    cases id with
    | orderId id =>
      simp only [cancelBy] at this
      simp only [Later.op, Ref.Exchange.call, this]; rfl
    | userOrderId uid =>
      simp only [cancelBy] at this
      simp only [Later.op, Ref.Exchange.call, this]; rfl

theorem returns_moved (op : Op) :
    (moved k a b n x).returns (restart a b i c) (Later.op k op) ↔ x.returns c op := by
  cases op with
  | update u =>
    simp only [Later.op, Ref.Exchange.returns, updateReturns_moved, makes_moved]
  | checkActive u =>
    simp only [Later.op, Ref.Exchange.returns, matchAllReturns_moved, makes_moved]
  | market side q uid => simp only [Later.op, Ref.Exchange.returns, marketReturns_moved]
  | limit side p q uid => simp only [Later.op, Ref.Exchange.returns, limitReturns_moved]
  | amend id side p q uid => simp only [Later.op, Ref.Exchange.returns, amendReturns_moved]
  | cancel id =>
    have := cancelReturns_moved (k := k) (a := a) (b := b) (i := i) (n := n) (c := c) (x := x)
      (id := id)
    cases id <;> exact this

end Lfest
