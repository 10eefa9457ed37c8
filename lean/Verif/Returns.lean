import Verif.Reference

/-!
# Which calls return

The reference exchange of `Reference.lean` says what a call does when it returns. This file says
when it returns, again without the mechanics of the code: every call that does not return panics.
All conditions are decidable, so that panics can be predicted by running the reference.
-/

namespace Lfest.Ref

open Spec

/-- Can the fill be booked? A part that opens or enlarges a position has to lock, and a part that
closes has to free, at least one unit in the last place. When all of a position is closed, the margin
locked has to be that of the position at its entry price, to the last unit; a release build
does not look when nothing is opened in its place. -/
def Exchange.books (c : Cfg) (x : Exchange) (f : Fill) : Prop :=
  let opp := opposing x.book.qty f.side
  (opp < f.qty → 0 < initial c (f.qty - opp) f.price) ∧
  (0 < opp → 0 < initial c (smaller f.qty opp) x.book.entry) ∧
  (0 < opp → (opp < f.qty ∨ (opp = f.qty ∧ c.env.debug = true)) →
    x.locked = initial c opp x.book.entry)

instance (c : Cfg) (x : Exchange) (f : Fill) : Decidable (x.books c f) := by
  unfold Exchange.books; infer_instance

/-- `submit_market_order`: unless it is turned down, it needs a positive price and has to be
booked. Before there are quotes, an inverse contract cannot even be priced. -/
def Exchange.marketReturns (c : Cfg) (x : Exchange) (side : Side) (q : Int) : Prop :=
  let p := touchPrice x.market side
  quantityError c.spec.quantityFilter q ≠ none ∨
  if affordable c x side q = true then 0 < p ∧ x.books c ⟨false, side, p, q⟩
  else c.env.kind = .linear ∨ p ≠ 0

instance (c : Cfg) (x : Exchange) (side : Side) (q : Int) :
    Decidable (x.marketReturns c side q) := by
  unfold Exchange.marketReturns; infer_instance

/-- `submit_limit_order`: if margin moves, the wallet must not be negative afterwards. -/
def Exchange.limitReturns (c : Cfg) (x : Exchange) (side : Side) (p q : Int) (uid : Nat) : Prop :=
  let x' := (x.limitOrder c side p q uid).1
  x'.reserved = x.reserved ∨ 0 ≤ x'.wallet c

instance (c : Cfg) (x : Exchange) (side : Side) (p q : Int) (uid : Nat) :
    Decidable (x.limitReturns c side p q uid) := by
  unfold Exchange.limitReturns; infer_instance

/-- `cancel_limit_order`: the margin reserved has to be the margin required, and must not have to
grow. -/
def Exchange.cancelReturns (c : Cfg) (x : Exchange) (b : CancelBy) : Prop :=
  x.reserved = x.required c ∧ (x.cancel c b).1.reserved ≤ x.reserved

instance (c : Cfg) (x : Exchange) (b : CancelBy) : Decidable (x.cancelReturns c b) := by
  unfold Exchange.cancelReturns; infer_instance

/-- `amend_limit_order`: unless there is no such order, the cancellation and the new order. -/
def Exchange.amendReturns (c : Cfg) (x : Exchange) (id : Nat) (side : Side) (p q : Int)
    (uid : Nat) : Prop :=
  match x.orders.find? (fun o => o.id == id) with
  | none => True
  | some old =>
    x.cancelReturns c (.orderId id) ∧
    (old.filledQuantity < q →
      (x.cancel c (.orderId id)).1.limitReturns c side p (q - old.filledQuantity) uid)

instance (c : Cfg) (x : Exchange) (id : Nat) (side : Side) (p q : Int) (uid : Nat) :
    Decidable (x.amendReturns c id side p q uid) := by
  unfold Exchange.amendReturns; split <;> infer_instance

/-- The fill of one resting order: a quantity the order has left, which can be booked. A debug build
wants the margin reserved to be the margin required before the fill, and not to have to grow. -/
def Exchange.matchReturns (c : Cfg) (u : UpdateArg) (x : Exchange) (o : Limit) : Prop :=
  match fillRule u o with
  | none => True
  | some q =>
    0 < q ∧ q ≤ o.remaining ∧ x.books c ⟨true, o.side, o.price, q⟩ ∧
    (c.env.debug = true →
      x.reserved = x.required c ∧ (x.matched c u o).required c ≤ x.reserved)

instance (c : Cfg) (u : UpdateArg) (x : Exchange) (o : Limit) : Decidable (x.matchReturns c u o) := by
  unfold Exchange.matchReturns; split <;> infer_instance

/-- The orders in turn. -/
def Exchange.eachReturns (c : Cfg) (u : UpdateArg) : Exchange → List Limit → Prop
  | _, [] => True
  | x, o :: os => x.matchReturns c u o ∧ (x.matched c u o).eachReturns c u os

instance decEachReturns (c : Cfg) (u : UpdateArg) : (x : Exchange) → (os : List Limit) →
    Decidable (x.eachReturns c u os)
  | _, [] => inferInstanceAs (Decidable True)
  | x, o :: os =>
    have := decEachReturns c u (x.matched c u o) os
    inferInstanceAs (Decidable (_ ∧ _))

/-- Does the update carry a trade without a quantity? -/
def emptyTrade : UpdateArg → Bool
  | .trade t => decide (t.qty ≤ 0)
  | _ => false

/-- `check_active_orders`: every fill, and in the end the wallet must not be negative. A debug
build checks the quantity of a trade whenever there is an order, and the margins at the end. -/
def Exchange.matchAllReturns (c : Cfg) (u : UpdateArg) (x : Exchange) : Prop :=
  mayFill u = true →
    x.eachReturns c u x.orders ∧ 0 ≤ (x.matchAll c u).wallet c ∧
    (c.env.debug = true →
      (x.orders = [] ∨ emptyTrade u = false) ∧
      (x.matchAll c u).reserved = (x.matchAll c u).required c)

instance (c : Cfg) (u : UpdateArg) (x : Exchange) : Decidable (x.matchAllReturns c u) := by
  unfold Exchange.matchAllReturns; infer_instance

instance (f : PriceFilter) (p : Int) : Decidable (updatePrice f p) :=
  decidable_of_iff
    ((f.minPrice.all (fun m => decide (m = 0 ∨ m ≤ p)) = true) ∧
      (f.maxPrice.all (fun m => decide (m = 0 ∨ p ≤ m)) = true) ∧ f.tickSize ∣ p)
    (by unfold updatePrice; cases f.minPrice <;> cases f.maxPrice <;> simp)

instance (f : PriceFilter) (b a : Int) : Decidable (updateQuotes f b a) := by
  unfold updateQuotes; infer_instance

instance (f : PriceFilter) (u : UpdateArg) : Decidable (updateOk f u) := by
  unfold updateOk; split <;> infer_instance

/-- Can the update be made? Only the constructor of a smart candle makes demands. -/
def makes (debug : Bool) : UpdateArg → Prop
  | .smart ts b f =>
    ts ≠ [] ∧ f.tickSize ≠ 0 ∧ updateQuotes f b.bid b.ask ∧
    (debug = true → (∃ t ∈ ts, updatePrice f t.price) ∧ ∀ t ∈ ts, 0 < t.qty)
  | _ => True

instance (debug : Bool) (u : UpdateArg) : Decidable (makes debug u) := by
  unfold makes; split <;> infer_instance

/-- The fill that closes the position at the quotes. -/
def Exchange.closing (x : Exchange) : Fill :=
  if 0 < x.book.qty then ⟨false, .sell, x.market.bid, x.book.qty⟩
  else ⟨false, .buy, x.market.ask, -x.book.qty⟩

/-- `update_state`: a debug build wants a valid update; a liquidation is a market order of an
admissible quantity; otherwise the orders are matched. -/
def Exchange.updateReturns (c : Cfg) (u : UpdateArg) (x : Exchange) : Prop :=
  let x1 := { x with market := seen x.market [.update u] }
  (c.env.debug = true → updateOk c.spec.priceFilter u) ∧
  if x1.underwater c = true then
    quantityError c.spec.quantityFilter x1.closing.qty = none ∧ 0 < x1.closing.price ∧
      x1.books c x1.closing
  else x1.matchAllReturns c u

instance (c : Cfg) (u : UpdateArg) (x : Exchange) : Decidable (x.updateReturns c u) := by
  unfold Exchange.updateReturns; infer_instance

/-- One API call, including the construction of its argument. -/
def Exchange.returns (c : Cfg) (x : Exchange) : Op → Prop
  | .update u => makes c.env.debug u ∧ x.updateReturns c u
  | .checkActive u => makes c.env.debug u ∧ x.matchAllReturns c u
  | .market side q _ => 0 < q → x.marketReturns c side q
  | .limit side p q uid => 0 < p → 0 < q → x.limitReturns c side p q uid
  | .amend id side p q uid => 0 < p → 0 < q → x.amendReturns c id side p q uid
  | .cancel b => x.cancelReturns c b

instance (c : Cfg) (x : Exchange) (op : Op) : Decidable (x.returns c op) := by
  unfold Exchange.returns; split <;> infer_instance

/-- A sequence of API calls. -/
def Exchange.allReturn (c : Cfg) : Exchange → List Op → Prop
  | _, [] => True
  | x, op :: ops => x.returns c op ∧ (x.call c op).1.allReturn c ops

instance decAllReturn (c : Cfg) : (x : Exchange) → (ops : List Op) → Decidable (x.allReturn c ops)
  | _, [] => inferInstanceAs (Decidable True)
  | x, op :: ops =>
    have := decAllReturn c (x.call c op).1 ops
    inferInstanceAs (Decidable (_ ∧ _))

end Lfest.Ref
