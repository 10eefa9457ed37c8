import Verif.SpecPriority

/-!
# The same trades at other prices

Specification for C153.
-/

namespace Lfest.Slip

open Spec

/-- By how much the price of the second fill is worse than that of the first -/
def worse (f g : Fill) : Int :=
  match f.side with
  | .buy => g.price - f.price
  | .sell => f.price - g.price

/-- The same side and quantity one by one, at whatever prices -/
def sameTrades : List Fill → List Fill → Prop
  | [], [] => True
  | f :: fs, g :: gs => f.side = g.side ∧ f.qty = g.qty ∧ sameTrades fs gs
  | _, _ => False

/-- Quantity times worse price, summed -/
def slippage : List Fill → List Fill → Int
  | f :: fs, g :: gs => f.qty * worse f g + slippage fs gs
  | _, _ => 0

/-- No price is better, or worse by more than `e`. -/
def within (e : Int) : List Fill → List Fill → Prop
  | f :: fs, g :: gs => 0 ≤ worse f g ∧ worse f g ≤ e ∧ within e fs gs
  | _, _ => True

/-- The same call in a market with wider quotes, by at most `e` on each side. Both are carried out: updates
do not liquidate, orders are filled. -/
def widened (e : Int) : Op × Resp → Op × Resp → Prop
  | (.update (.bba b), .update (.ok _)), (.update (.bba b'), .update (.ok _)) =>
    b.bid - e ≤ b'.bid ∧ b'.bid ≤ b.bid ∧ b.ask ≤ b'.ask ∧ b'.ask ≤ b.ask + e
  | (.market side q _, .market (.ok _)), (.market side' q' _, .market (.ok _)) =>
    side = side' ∧ q = q'
  | _, _ => False

/-- Call by call -/
def allWidened (e : Int) : List (Op × Resp) → List (Op × Resp) → Prop
  | [], [] => True
  | x :: xs, y :: ys => widened e x y ∧ allWidened e xs ys
  | _, _ => False

end Lfest.Slip
