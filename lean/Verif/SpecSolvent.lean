import Verif.Spec

/-!
# The side on which a position cannot lose more than its value, for C95 and C122; losses
within the margin, for C123; winding down, for C96
-/

namespace Lfest.Spec

/-- Long for linear contracts, short for inverse ones, or flat: the value of the position, in margin
currency, falls to no less than zero. -/
def boundedLoss (e : Env) (qty : Int) : Prop :=
  match e.kind with
  | .linear => 0 ≤ qty
  | .inverse => qty ≤ 0

instance (e : Env) (qty : Int) : Decidable (boundedLoss e qty) := by
  unfold boundedLoss; split <;> infer_instance

/-- Without a position, every order at rest would open one on that side, and the fee of its fill is in
the wallet. -/
def feesAside (c : Cfg) (s : State) : Prop :=
  s.pos = .neutral → ∀ o ∈ s.active,
    boundedLoss c.env (match o.side with | .buy => o.remaining | .sell => -o.remaining) ∧
    share c.env (value c.env o.remaining o.price) c.spec.feeMaker ≤ s.acct.balance .wallet

instance (c : Cfg) (s : State) : Decidable (feesAside c s) := by
  unfold feesAside; infer_instance

/-- What is left of the margin of a position that is closed at this price with this fee rate. -/
def leftOver (c : Cfg) (s : State) (price rate : Int) : Int :=
  s.acct.balance .positionMargin + pnl c.env s.pos.entryPrice price s.pos.quantity -
    share c.env (value c.env (abs s.pos.quantity) price) rate

/-- The fills of an update are paid for: it fills at most one order; an order that opens a position
finds its fee in the wallet, one that closes a position loses, with its fee, no more than the margin. -/
def paidFills (c : Cfg) (s : State) (a : UpdateArg) : Prop :=
  (makerFills a s.active).length ≤ 1 ∧ ∀ o ∈ s.active, fillRule a o ≠ none →
    if s.pos = .neutral then
      share c.env (value c.env o.remaining o.price) c.spec.feeMaker ≤ s.acct.balance .wallet
    else 0 ≤ leftOver c s o.price c.spec.feeMaker

/-- Calls that lose no more than the margin of the position. A liquidation and a market order, which
with a position closes exactly that, lose no more than the margin at the quotes. -/
def withinMargin (c : Cfg) (s : State) : Op → Prop
  | .update a => paidFills c s a ∧ (breach c s.pos (quotesAfter s.ms a) →
      0 ≤ leftOver c s (exitPrice s.pos.quantity (quotesAfter s.ms a)) c.spec.feeTaker)
  | .checkActive a => paidFills c s a
  | .market _ q _ => s.pos ≠ .neutral → q = abs s.pos.quantity ∧
      0 ≤ leftOver c s (exitPrice s.pos.quantity (s.ms.bid, s.ms.ask)) c.spec.feeTaker
  | _ => True

instance (c : Cfg) (s : State) (a : UpdateArg) : Decidable (paidFills c s a) := by
  unfold paidFills; infer_instance

instance (c : Cfg) (s : State) (op : Op) : Decidable (withinMargin c s op) := by
  cases op <;> simp only [withinMargin] <;> infer_instance

/-- The cancellation of the orders with the given ids, one after the other. -/
def cancelAll (ids : List Nat) : List Op := ids.map fun i => .cancel (.orderId i)

/-- The market order that closes a position, if there is one. -/
def closeAll (pos : Position) (uid : Nat) : List Op :=
  if pos = .neutral then []
  else if 0 < pos.quantity then [.market .sell pos.quantity uid]
  else [.market .buy (-pos.quantity) uid]

/-- Calls with which an account can be managed between fills of its limit orders: orders of all
kinds, cancellations, amendments, and updates that carry quotes only. -/
def manages : Op → Prop
  | .update (.bba _) => True
  | .update _ => False
  | .checkActive _ => False
  | _ => True

end Lfest.Spec
