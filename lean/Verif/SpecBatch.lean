import Verif.Spec

/-!
# Several limit orders at once, for C92
-/

namespace Lfest.Spec

/-- Submit these orders one after the other. -/
def submitAll (l : List NewLimit) : List Op := l.map (fun n => .limit n.side n.price n.qty n.uid)

/-- The orders at rest once all of them have been accepted, with ids from `next` on. -/
def restingOrders (next : Nat) (ts : Int) : List NewLimit → List Limit
  | [] => []
  | n :: l => ⟨n.uid, n.side, n.price, n.qty, next, ts, .unfilled⟩ :: restingOrders (next + 1) ts l

/-- Was every call answered with an accepted limit order? -/
def allAccepted (tr : List (Op × Resp)) : Prop := ∀ x ∈ tr, ∃ o, x.2 = .limit (.ok o)

/-- May the order rest in this market, funds aside? -/
def admissible (c : Cfg) (m : MarketState) (n : NewLimit) : Prop :=
  0 < n.price ∧ 0 < n.qty ∧ quantityOk c.spec.quantityFilter n.qty ∧
  priceOk c.env c.spec.priceFilter n.price (mid m) ∧ ¬ crosses m n.side n.price

/-- What is left of an order when its ids and times are disregarded. -/
def terms (o : Limit) : NewLimit := ⟨o.uid, o.side, o.price, o.remaining⟩

end Lfest.Spec
