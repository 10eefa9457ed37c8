import Verif.SpecOpposed

/-!
# Better fills (C137)
-/

namespace Lfest.Spec

/-- The second fill is of the same size on the same side, at no worse a price. -/
def atLeastAsGood (f g : Fill) : Prop :=
  g.side = f.side ∧ g.qty = f.qty ∧
  (f.side = .buy → g.price ≤ f.price) ∧ (f.side = .sell → f.price ≤ g.price)

instance (f g : Fill) : Decidable (atLeastAsGood f g) := by unfold atLeastAsGood; infer_instance

/-- Fill by fill. -/
def allAsGood : List Fill → List Fill → Prop
  | [], [] => True
  | f :: fs, g :: gs => atLeastAsGood f g ∧ allAsGood fs gs
  | _, _ => False

instance : ∀ fs gs, Decidable (allAsGood fs gs)
  | [], [] => .isTrue trivial
  | f :: fs, g :: gs =>
    have : Decidable (allAsGood fs gs) := instDecidableAllAsGood fs gs
    inferInstanceAs (Decidable (atLeastAsGood f g ∧ allAsGood fs gs))
  | [], _ :: _ => .isFalse id
  | _ :: _, [] => .isFalse id

/-- The second account has the same position as the first and has gained no less before fees: by what it
has realised, and with the open position at any quotes. -/
def noWorseOff (c c' : Cfg) (a b : State) : Prop :=
  b.pos.quantity = a.pos.quantity ∧ realisedGain c a ≤ realisedGain c' b ∧
  (0 < a.pos.quantity → b.pos.entryPrice ≤ a.pos.entryPrice) ∧
  (a.pos.quantity < 0 → a.pos.entryPrice ≤ b.pos.entryPrice) ∧
  ∀ bid ask u v, 0 < bid → 0 < ask → a.pos.unrealizedPnl c.env bid ask = .ok u →
    b.pos.unrealizedPnl c'.env bid ask = .ok v → realisedGain c a + u ≤ realisedGain c' b + v

/-- A market update that was taken without a liquidation. -/
def quietUpdate : Op × Resp → Bool
  | (.update _, .update (.ok _)) => true
  | _ => false

/-- The fills reported in an answer. -/
def answeredFills : Op × Resp → List LimitUpdate
  | (_, .update (.ok ups)) => ups
  | _ => []

/-- The second update leaves quotes within those that the first leaves, if they were so before. -/
def tighter (u v : UpdateArg) : Prop :=
  ∀ ms ms' : MarketState, ms.bid ≤ ms'.bid → ms'.ask ≤ ms.ask →
    (quotesAfter ms u).1 ≤ (quotesAfter ms' v).1 ∧ (quotesAfter ms' v).2 ≤ (quotesAfter ms u).2

/-- Two calls and their answers: market updates of which the second has the tighter quotes, the first
account not being liquidated, or market orders of the same size on the same side, both filled. -/
def tighterCalls : Op × Resp → Op × Resp → Prop
  | (.update u, .update (.ok _)), (.update v, .update _) => tighter u v
  | (.market side q _, .market (.ok _)), (.market side' q' _, .market (.ok _)) =>
    side' = side ∧ q' = q
  | _, _ => False

/-- Call by call. -/
def sameStrategyTighter : List (Op × Resp) → List (Op × Resp) → Prop
  | [], [] => True
  | x :: xs, y :: ys => tighterCalls x y ∧ sameStrategyTighter xs ys
  | _, _ => False

end Lfest.Spec
