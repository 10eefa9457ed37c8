import Verif.SpecUndated
import Verif.Returns
import Verif.Props.Batch
import Verif.Lemmas.Clean

/-! # The reference exchange without times -/

namespace Lfest

open Spec Ref

/-- The reference exchange without times. -/
def undated (x : Ref.Exchange) : Ref.Exchange :=
  { x with market := Undated.market x.market, orders := x.orders.map Undated.limit }

namespace Undated

theorem marginReq_undated (c : Cfg) (os : List Limit) (pos : Int) :
    marginReq c (os.map limit) pos = marginReq c os pos := by
  rw [← marginReq_blank c os, ← marginReq_blank c (os.map _), List.map_map]; rfl

theorem required_undated (c : Cfg) (x : Ref.Exchange) :
    (undated x).required c = x.required c := marginReq_undated c _ _

theorem takeOut_undated {p q : Limit → Bool} {os : List Limit} (h : ∀ o, q (limit o) = p o) :
    takeOut q (os.map limit) = (takeOut p os).map limit := by
  induction os with
  | nil => rfl
  | cons o os ih =>
    simp only [List.map_cons, takeOut, h o]
    split
    · simp only [List.getLast?_map]
      cases os.getLast? with
      | none => rfl
      | some z => simp [List.map_dropLast]
    · simp [ih]

theorem find_undated {p q : Limit → Bool} {os : List Limit} (h : ∀ o, q (limit o) = p o) :
    (os.map limit).find? q = (os.find? p).map limit := by
  induction os with
  | nil => rfl
  | cons o os ih =>
    simp only [List.map_cons, List.find?_cons, h o]
    split
    · rfl
    · exact ih

/-! ## Submitting, cancelling, amending -/

theorem limitOrder_undated {c : Cfg} {x : Ref.Exchange} (side : Side) (p q : Int) (uid : Nat) :
    (undated x).limitOrder c side p q uid =
      (undated (x.limitOrder c side p q uid).1, (x.limitOrder c side p q uid).2.map limit) := by
  unfold Ref.Exchange.limitOrder
  cases quantityError c.spec.quantityFilter q with
  | some err => simp [Except.map]
  | none =>
    have hm : mid (undated x).market = mid x.market := rfl
    cases hp : priceError c.env c.spec.priceFilter p (mid x.market) with
    | some err => simp [hm, hp, Except.map]
    | none =>
      have hr : ∀ o : Limit, marginReq c (x.orders.map limit ++ [limit o]) x.book.qty =
          marginReq c (x.orders ++ [o]) x.book.qty := by
        intro o
        have := marginReq_undated c (x.orders ++ [o]) x.book.qty
        simpa using this
      have hr' := hr ⟨uid, side, p, q, x.next, x.market.ts, .unfilled⟩
      simp only [limit] at hr'
      have h0 := marginReq_undated c x.orders x.book.qty
      have hk : crossing (undated x).market side p = crossing x.market side p := rfl
      have ht : touchPrice (undated x).market side = touchPrice x.market side := rfl
      simp only [undated, market] at hm hk ht
      simp only [undated, market, hm, hk, ht, hp, Ref.Exchange.required, Ref.Exchange.wallet, hr', h0,
        List.length_map]
      split
      · next h1 => simp [h1, Except.map]
      · next h1 =>
        split
        · simp [Except.map]
        · split
          · simp [Except.map]
          · simp [Except.map, limit]

theorem limitReturns_undated {c : Cfg} {x : Ref.Exchange} {side : Side} {p q : Int} {uid : Nat} :
    (undated x).limitReturns c side p q uid ↔ x.limitReturns c side p q uid := by
  simp only [Ref.Exchange.limitReturns, limitOrder_undated]; rfl

theorem cancel_undated {c : Cfg} {x : Ref.Exchange} {b : CancelBy} :
    (undated x).cancel c b = (undated (x.cancel c b).1, (x.cancel c b).2.map limit) := by
  have hn : ∀ o, names b (limit o) = names b o := by intro o; cases b <;> rfl
  simp only [Ref.Exchange.cancel]
  have e : (undated x).orders = x.orders.map limit := rfl
  rw [e, find_undated hn, takeOut_undated hn]
  cases hx : x.orders.find? (names b) with
  | none => cases b <;> rfl
  | some o =>
    have := marginReq_undated c (takeOut (names b) x.orders) x.book.qty
    simp only [Option.map_some, Except.map, undated, Ref.Exchange.required, this]

theorem cancelReturns_undated {c : Cfg} {x : Ref.Exchange} {b : CancelBy} :
    (undated x).cancelReturns c b ↔ x.cancelReturns c b := by
  simp only [Ref.Exchange.cancelReturns, cancel_undated, required_undated]; rfl

theorem amend_undated {c : Cfg} {x : Ref.Exchange} {id : Nat} (side : Side) (p q : Int) (uid : Nat) :
    (undated x).amend c id side p q uid =
      (undated (x.amend c id side p q uid).1, (x.amend c id side p q uid).2.map limit) := by
  simp only [Ref.Exchange.amend, cancel_undated]
  have e : (undated x).orders = x.orders.map limit := rfl
  rw [e, find_undated (p := fun o => o.id == id) (q := fun o => o.id == id) (fun _ => rfl)]
  cases hx : x.orders.find? (fun o => o.id == id) with
  | none => rfl
  | some old =>
    simp only [Option.map_some]
    have e2 : (limit old).filledQuantity = old.filledQuantity := rfl
    rw [e2]
    split
    · simp [Except.map]
    · exact limitOrder_undated (c := c) (x := (x.cancel c (.orderId id)).1) side p
        (q - old.filledQuantity) uid

theorem amendReturns_undated {c : Cfg} {x : Ref.Exchange} {id : Nat} {side : Side} {p q : Int}
    {uid : Nat} : (undated x).amendReturns c id side p q uid ↔ x.amendReturns c id side p q uid := by
  simp only [Ref.Exchange.amendReturns, cancel_undated, cancelReturns_undated, limitReturns_undated]
  have e : (undated x).orders = x.orders.map limit := rfl
  rw [e, find_undated (p := fun o => o.id == id) (q := fun o => o.id == id) (fun _ => rfl)]
  cases hx : x.orders.find? (fun o => o.id == id) <;> rfl

theorem marketOrder_undated {c : Cfg} {x : Ref.Exchange} (side : Side) (q : Int) (uid : Nat) :
    (undated x).marketOrder c side q uid =
      (undated (x.marketOrder c side q uid).1, (x.marketOrder c side q uid).2.map filledMarket) := by
  unfold Ref.Exchange.marketOrder
  cases quantityError c.spec.quantityFilter q with
  | some err => simp [Except.map]
  | none =>
    have ha : affordable c (undated x) side q = affordable c x side q := rfl
    by_cases h : affordable c x side q = true
    · rw [h] at ha
      simp only [h, ha]
      rfl
    · simp only [h, ha]
      rfl

/-! ## Market updates -/

theorem tradeSum_undated (ts : List Trade) : tradeSum (ts.map trade) = tradeSum ts := by
  induction ts with
  | nil => rfl
  | cons t ts ih => simp only [List.map_cons, tradeSum, ih]; rfl

theorem fillRule_undated (u : UpdateArg) (o : Limit) : fillRule (arg u) (limit o) = fillRule u o := by
  cases u with
  | smart ts b pf =>
    simp only [fillRule, arg, List.filter_map]
    have e : ((fun t => hits t (limit o).side (limit o).price) ∘ trade) =
        fun t => hits t o.side o.price := by funext t; rfl
    rw [e]
    simp only [List.map_eq_nil_iff, tradeSum_undated]
    rfl
  | _ => rfl

theorem updateTime_undated (u : UpdateArg) : updateTime (arg u) = (updateTime u).map fun _ => 0 := by
  cases u with
  | smart ts b pf => simp only [updateTime, arg, List.getLast?_map]; cases ts.getLast? <;> rfl
  | _ => rfl

theorem reports_undated {e : Env} {u : UpdateArg} (l : List Limit) :
    reports e (arg u) (l.map limit) = (reports e u l).map limitUpdate := by
  induction l with
  | nil => rfl
  | cons o l ih =>
    simp only [reports] at ih
    simp only [reports, List.map_cons, List.filterMap_cons, fillRule_undated, updateTime_undated] at ih ⊢
    rw [ih]
    cases fillRule u o with
    | none => rfl
    | some q =>
      cases updateTime u with
      | none => rfl
      | some ts =>
        simp only [List.map_cons, List.cons.injEq, and_true, Option.map_some]
        unfold report
        by_cases hq : q = o.remaining
        · rw [if_pos hq, if_pos (show q = (limit o).remaining from hq)]; rfl
        · rw [if_neg hq, if_neg (show ¬ q = (limit o).remaining from hq)]; rfl

theorem matched_undated {c : Cfg} {u : UpdateArg} {x : Ref.Exchange} {o : Limit} :
    (undated x).matched c (arg u) (limit o) = undated (x.matched c u o) := by
  unfold Ref.Exchange.matched
  rw [fillRule_undated]
  cases fillRule u o with
  | none => rfl
  | some q =>
    have e1 : takeOut (fun y => y.id == (limit o).id) (x.orders.map limit) =
        (takeOut (fun y => y.id == o.id) x.orders).map limit := takeOut_undated fun _ => rfl
    have e2 : (x.orders.map limit).map
        (fun y => if y.id = (limit o).id then filledBy c.env (limit o) q else y) =
        (x.orders.map (fun y => if y.id = o.id then filledBy c.env o q else y)).map limit := by
      simp only [List.map_map]
      apply List.map_congr_left
      intro y _
      by_cases hy : y.id = o.id
      · simp only [Function.comp, if_pos hy, if_pos (show (limit y).id = (limit o).id from hy)]; rfl
      · simp only [Function.comp, if_neg hy, if_neg (show ¬ (limit y).id = (limit o).id from hy)]
    have e3 : (undated x).orders = x.orders.map limit := rfl
    simp only [e3, e1, e2]
    have e4 : (if q = (limit o).remaining then
        (takeOut (fun y => y.id == o.id) x.orders).map limit
        else (x.orders.map (fun y => if y.id = o.id then filledBy c.env o q else y)).map limit) =
        (if q = o.remaining then takeOut (fun y => y.id == o.id) x.orders
        else x.orders.map (fun y => if y.id = o.id then filledBy c.env o q else y)).map limit := by
      by_cases hq : q = o.remaining
      · rw [if_pos hq, if_pos (show q = (limit o).remaining from hq)]
      · rw [if_neg hq, if_neg (show ¬ q = (limit o).remaining from hq)]
    rw [e4]
    generalize (if q = o.remaining then takeOut (fun y => y.id == o.id) x.orders
        else x.orders.map (fun y => if y.id = o.id then filledBy c.env o q else y)) = os
    have e5 : ∀ pos, marginReq c (os.map limit) pos = marginReq c os pos := marginReq_undated c os
    simp only [undated, Ref.Exchange.fill, Ref.Exchange.required, e5]
    rfl

theorem fold_undated {c : Cfg} {u : UpdateArg} : ∀ (l : List Limit) (x : Ref.Exchange),
    (l.map limit).foldl (Ref.Exchange.matched c (arg u)) (undated x) =
      undated (l.foldl (Ref.Exchange.matched c u) x) := by
  intro l
  induction l with
  | nil => intros; rfl
  | cons o l ih =>
    intro x
    simp only [List.map_cons, List.foldl_cons, matched_undated]
    exact ih _

theorem matchAll_undated {c : Cfg} {u : UpdateArg} {x : Ref.Exchange} :
    (undated x).matchAll c (arg u) = undated (x.matchAll c u) :=
  fold_undated x.orders x

theorem eachReturns_undated {c : Cfg} {u : UpdateArg} : ∀ (l : List Limit) (x : Ref.Exchange),
    ((undated x).eachReturns c (arg u) (l.map limit) ↔ x.eachReturns c u l) := by
  intro l
  induction l with
  | nil => intros; rfl
  | cons o l ih =>
    intro x
    simp only [List.map_cons, Ref.Exchange.eachReturns, matched_undated, ih]
    simp only [Ref.Exchange.matchReturns, matched_undated, fillRule_undated, required_undated]
    rfl

theorem mayFill_undated (u : UpdateArg) : mayFill (arg u) = mayFill u := by cases u <;> rfl

theorem emptyTrade_undated (u : UpdateArg) : emptyTrade (arg u) = emptyTrade u := by cases u <;> rfl

theorem matchAllReturns_undated {c : Cfg} {u : UpdateArg} {x : Ref.Exchange} :
    (undated x).matchAllReturns c (arg u) ↔ x.matchAllReturns c u := by
  have e : (undated x).orders = x.orders.map limit := rfl
  simp only [Ref.Exchange.matchAllReturns, matchAll_undated, required_undated, e, eachReturns_undated,
    List.map_eq_nil_iff, mayFill_undated, emptyTrade_undated]
  rfl

theorem seen_undated (m : MarketState) (u : UpdateArg) :
    seen (market m) [.update (arg u)] = market (seen m [.update u]) := by
  have hq : quotesAfter (market m) (arg u) = quotesAfter m u := by cases u <;> rfl
  have hs : stepAfter (market m) (arg u) = stepAfter m u := by cases u <;> rfl
  simp only [seen, hq, hs, updateTime_undated]
  cases updateTime u <;> rfl

theorem somePrice_undated (f : PriceFilter) (ts : List Trade) :
    (∃ t ∈ ts.map trade, updatePrice f t.price) ↔ ∃ t ∈ ts, updatePrice f t.price := by
  constructor
  · rintro ⟨t, ht, h⟩
    obtain ⟨t', ht', rfl⟩ := List.mem_map.1 ht
    exact ⟨t', ht', h⟩
  · rintro ⟨t, ht, h⟩
    exact ⟨trade t, List.mem_map.2 ⟨t, ht, rfl⟩, h⟩

theorem allQuantities_undated (ts : List Trade) :
    (∀ t ∈ ts.map trade, 0 < t.qty) ↔ ∀ t ∈ ts, 0 < t.qty := by
  constructor
  · exact fun h t ht => h (trade t) (List.mem_map.2 ⟨t, ht, rfl⟩)
  · intro h t ht
    obtain ⟨t', ht', rfl⟩ := List.mem_map.1 ht
    exact h t' ht'

theorem updateOk_undated (f : PriceFilter) (u : UpdateArg) : updateOk f (arg u) ↔ updateOk f u := by
  cases u with
  | smart ts b pf => simp only [updateOk, arg, somePrice_undated, allQuantities_undated]
  | _ => rfl

theorem makes_undated (d : Bool) (u : UpdateArg) : makes d (arg u) ↔ makes d u := by
  cases u with
  | smart ts b pf =>
    simp only [makes, arg, ne_eq, List.map_eq_nil_iff, somePrice_undated, allQuantities_undated]
  | _ => rfl

theorem update_undated {c : Cfg} {u : UpdateArg} {x : Ref.Exchange} :
    (undated x).update c (arg u) =
      (undated (x.update c u).1, (x.update c u).2.map (List.map limitUpdate)) := by
  have e0 : { undated x with market := seen (undated x).market [.update (arg u)] } =
      undated { x with market := seen x.market [.update u] } := by
    simp only [undated, seen_undated]
  have em : seen (undated x).market [.update (arg u)] = market (seen x.market [.update u]) :=
    seen_undated _ _
  by_cases hw : ({ x with market := seen x.market [.update u] } : Ref.Exchange).underwater c = true
  · rw [update_down hw, update_down (x := undated x) (u := arg u) (c := c) (by rw [e0]; exact hw), e0, em]
    rfl
  · rw [update_up hw, update_up (x := undated x) (u := arg u) (c := c) (by rw [e0]; exact hw), e0,
      matchAll_undated, show (undated x).orders = x.orders.map limit from rfl, reports_undated]
    rfl

theorem updateReturns_undated {c : Cfg} {u : UpdateArg} {x : Ref.Exchange} :
    (undated x).updateReturns c (arg u) ↔ x.updateReturns c u := by
  have e0 : { undated x with market := seen (undated x).market [.update (arg u)] } =
      undated { x with market := seen x.market [.update u] } := by
    simp only [undated, seen_undated]
  simp only [Ref.Exchange.updateReturns, e0, matchAllReturns_undated, updateOk_undated]
  rfl

/-! ## All calls -/

theorem call_undated (c : Cfg) (x : Ref.Exchange) (o : Op) :
    (undated x).call c (op o) = (undated (x.call c o).1, resp (x.call c o).2) := by
  cases o with
  | update u =>
    simp only [op, Ref.Exchange.call, update_undated]
    cases (x.update c u).2 <;> rfl
  | checkActive u => simp only [op, Ref.Exchange.call, matchAll_undated, resp]
  | market side q uid =>
    simp only [op, Ref.Exchange.call]
    split
    · rfl
    · simp only [marketOrder_undated]; cases (x.marketOrder c side q uid).2 <;> rfl
  | limit side p q uid =>
    simp only [op, Ref.Exchange.call]
    split
    · rfl
    · split
      · rfl
      · simp only [limitOrder_undated]; cases (x.limitOrder c side p q uid).2 <;> rfl
  | amend id side p q uid =>
    simp only [op, Ref.Exchange.call]
    split
    · rfl
    · split
      · rfl
      · simp only [amend_undated]; cases (x.amend c id side p q uid).2 <;> rfl
  | cancel b =>
    simp only [op, Ref.Exchange.call, cancel_undated]; cases (x.cancel c b).2 <;> rfl

theorem returns_undated (c : Cfg) (x : Ref.Exchange) (o : Op) :
    (undated x).returns c (op o) ↔ x.returns c o := by
  cases o with
  | update u => simp only [op, Ref.Exchange.returns, updateReturns_undated, makes_undated]
  | checkActive u => simp only [op, Ref.Exchange.returns, matchAllReturns_undated, makes_undated]
  | market side q uid => exact Iff.rfl
  | limit side p q uid => simp only [op, Ref.Exchange.returns, limitReturns_undated]
  | amend id side p q uid => simp only [op, Ref.Exchange.returns, amendReturns_undated]
  | cancel b => exact cancelReturns_undated

theorem calls_undated (c : Cfg) : ∀ (ops : List Op) (x : Ref.Exchange),
    (undated x).calls c (ops.map op) =
      (undated (x.calls c ops).1, (x.calls c ops).2.map fun t => (op t.1, resp t.2)) := by
  intro ops
  induction ops with
  | nil => intro x; rfl
  | cons o ops ih =>
    intro x
    simp only [List.map_cons, Ref.Exchange.calls, call_undated, ih]

theorem allReturn_undated (c : Cfg) : ∀ (ops : List Op) (x : Ref.Exchange),
    (undated x).allReturn c (ops.map op) ↔ x.allReturn c ops := by
  intro ops
  induction ops with
  | nil => intro x; rfl
  | cons o ops ih =>
    intro x
    simp only [List.map_cons, Ref.Exchange.allReturn, call_undated, returns_undated, ih]

end Undated

end Lfest
