import Verif.Spec

/-!
# Books kept from the answers

A client of the exchange that writes down what it is told: the market updates it has sent, the orders
it knows to be open, and the fills it can infer. It never looks at the account, knows no rule for
accepting or filling orders, and does not know when a position is liquidated: it only reads answers.
-/

namespace Lfest.Audit

open Spec

/-- What the client has written down; `fills` newest first. -/
structure Client where
  market : MarketState
  orders : List Limit
  fills : List Fill
  deriving DecidableEq, Repr

/-- Before the first call. -/
def Client.new : Client := ⟨⟨0, 0, 0, 0⟩, [], []⟩

/-- How much of the order with this id was filled, as far as the client knows. -/
def Client.filled (k : Client) (id : Nat) : Int :=
  match k.orders.find? (fun o => o.id == id) with
  | some o => o.filledQuantity
  | none => 0

/-- The order an answer is about. -/
def about : LimitUpdate → Nat
  | .fullyFilled f => f.id
  | .partiallyFilled o => o.id

/-- The fill behind a report: what is filled now, less what was filled before. -/
def Client.inferred (k : Client) : LimitUpdate → Fill
  | .fullyFilled f => ⟨true, f.side, f.price, f.filledQty - k.filled f.id⟩
  | .partiallyFilled o => ⟨true, o.side, o.price, o.filledQuantity - k.filled o.id⟩

/-- What reports say about an open order: nothing, that it is done, or its new state. -/
def told (ups : List LimitUpdate) (o : Limit) : Option Limit :=
  match ups.find? (fun x => about x == o.id) with
  | none => some o
  | some (.fullyFilled _) => none
  | some (.partiallyFilled o') => some o'

/-- The open orders without the one with this id. -/
def Client.without (k : Client) (id : Nat) : List Limit :=
  k.orders.filter (fun o => decide (o.id ≠ id))

/-- The position, as far as the client knows, closed at the quotes of market `m`. -/
def Client.closed (k : Client) (m : MarketState) : Fill :=
  if 0 < netBought k.fills then ⟨false, .sell, m.bid, netBought k.fills⟩
  else ⟨false, .buy, m.ask, -netBought k.fills⟩

/-- One call and its answer. An amendment that fails for any other reason than that there is no such
order has cancelled the order. -/
def Client.hear (k : Client) : Op × Resp → Client
  | (.update u, .update (.ok ups)) =>
    { market := seen k.market [.update u], orders := k.orders.filterMap (told ups),
      fills := (ups.map k.inferred).reverse ++ k.fills }
  | (.update u, .update (.error _)) =>
    { k with market := seen k.market [.update u],
             fills := k.closed (seen k.market [.update u]) :: k.fills }
  | (.market _ _ _, .market (.ok f)) =>
    { k with fills := ⟨false, f.side, f.avgFillPrice, f.filledQty⟩ :: k.fills }
  | (.limit _ _ _ _, .limit (.ok o)) => { k with orders := k.orders ++ [o] }
  | (.cancel _, .limit (.ok o)) => { k with orders := k.without o.id }
  | (.amend id _ _ _ _, .limit (.ok o)) => { k with orders := k.without id ++ [o] }
  | (.amend id _ _ _ _, .limit (.error err)) =>
    match err with
    | .orderIdNotFound _ => k
    | .orderNoLongerActive => k
    | _ => { k with orders := k.without id }
  | _ => k

/-- Everything heard, oldest first. -/
def Client.hears (k : Client) (tr : List (Op × Resp)) : Client := tr.foldl Client.hear k

/-- Calls that tell what they did. `check_active_orders` returns nothing. -/
def audible : Op → Prop
  | .checkActive _ => False
  | _ => True

end Lfest.Audit
