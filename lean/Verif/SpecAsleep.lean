import Verif.Spec

/-!
# An account left alone

Specification for C150: what the orders that rest when the user stops trading can at worst and at best
do to the account.
-/

namespace Lfest.Asleep

open Spec

/-- A market update that does not liquidate, or a call that can only cancel an order. -/
def idle : Op × Resp → Bool
  | (.update _, .update (.ok _)) => true
  | (.checkActive _, _) => true
  | (.cancel _, _) => true
  | _ => false

/-- A market update, or a call that can only cancel an order. -/
def passive : Op → Bool
  | .update _ => true
  | .checkActive _ => true
  | .cancel _ => true
  | _ => false

/-- Open quantity of the orders of one side. -/
def openOf (side : Side) : List Limit → Int
  | [] => 0
  | o :: os => (if o.side = side then o.remaining else 0) + openOf side os

/-- What the open quantity of an order gains, linear contracts, if all of it is filled and then
valued at price `p`, in units of `10^(-2D)`. -/
def gain (p : Int) (o : Limit) : Int :=
  match o.side with
  | .buy => o.remaining * (p - o.price)
  | .sell => o.remaining * (o.price - p)

/-- The orders that lose at `p` are filled, the others are not. -/
def worst (p : Int) : List Limit → Int
  | [] => 0
  | o :: os => smaller 0 (gain p o) + worst p os

/-- The orders that gain at `p` are filled, the others are not. -/
def best (p : Int) : List Limit → Int
  | [] => 0
  | o :: os => larger 0 (gain p o) + best p os

/-- Maker fees for all of the open quantity. -/
def openFees (c : Cfg) : List Limit → Int
  | [] => 0
  | o :: os => Fill.fee c ⟨true, o.side, o.price, o.remaining⟩ + openFees c os

/-- Fees charged, paid or not. -/
def charged (s : State) : Int := s.feesPaid + s.pos.outstandingFees

/-- Balances before fees plus the profit of the position if it is valued at price `p`, linear
contracts, in units of `10^(-2D)`. -/
def worth (c : Cfg) (s : State) (p : Int) : Int :=
  (equity s + s.feesPaid) * c.scale + s.pos.quantity * (p - s.pos.entryPrice)

end Lfest.Asleep
