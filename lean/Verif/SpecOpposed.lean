import Verif.SpecParts

/-!
# Accounts that trade against each other (C135)
-/

namespace Lfest.Spec

/-- Two fills of the same size on opposite sides, the buyer paying no less than the seller gets: as when
both trade at the same quotes, or with each other. -/
def opposed (f g : Fill) : Prop :=
  g.side = opposite f.side ∧ g.qty = f.qty ∧
  (f.side = .buy → g.price ≤ f.price) ∧ (f.side = .sell → f.price ≤ g.price)

instance (f g : Fill) : Decidable (opposed f g) := by unfold opposed; infer_instance

/-- Fill by fill. -/
def allOpposed : List Fill → List Fill → Prop
  | [], [] => True
  | f :: fs, g :: gs => opposed f g ∧ allOpposed fs gs
  | _, _ => False

instance : ∀ fs gs, Decidable (allOpposed fs gs)
  | [], [] => .isTrue trivial
  | f :: fs, g :: gs =>
    have : Decidable (allOpposed fs gs) := instDecidableAllOpposed fs gs
    inferInstanceAs (Decidable (opposed f g ∧ allOpposed fs gs))
  | [], _ :: _ => .isFalse id
  | _ :: _, [] => .isFalse id

/-- The same prices, fill by fill. -/
def samePrices : List Fill → List Fill → Prop
  | [], [] => True
  | f :: fs, g :: gs => g.price = f.price ∧ samePrices fs gs
  | _, _ => False

/-- Two calls and their answers: the same market update, by which nobody is liquidated, or market orders
of the same size on opposite sides, both filled. -/
def oppositeCalls : Op × Resp → Op × Resp → Prop
  | (.update u, .update (.ok _)), (.update v, .update (.ok _)) => v = u
  | (.market side q _, .market (.ok _)), (.market side' q' _, .market (.ok _)) =>
    side' = opposite side ∧ q' = q
  | _, _ => False

instance (x y : Op × Resp) : Decidable (oppositeCalls x y) := by
  unfold oppositeCalls; split <;> infer_instance

/-- Call by call. -/
def oppositeStrategies : List (Op × Resp) → List (Op × Resp) → Prop
  | [], [] => True
  | x :: xs, y :: ys => oppositeCalls x y ∧ oppositeStrategies xs ys
  | _, _ => False

instance : ∀ xs ys, Decidable (oppositeStrategies xs ys)
  | [], [] => .isTrue trivial
  | x :: xs, y :: ys =>
    have : Decidable (oppositeStrategies xs ys) := instDecidableOppositeStrategies xs ys
    inferInstanceAs (Decidable (oppositeCalls x y ∧ oppositeStrategies xs ys))
  | [], _ :: _ => .isFalse id
  | _ :: _, [] => .isFalse id

/-- A market update after which the bid is not above the ask, if it was not before. -/
def keepsOrder (u : UpdateArg) : Prop :=
  ∀ ms : MarketState, ms.bid ≤ ms.ask → (quotesAfter ms u).1 ≤ (quotesAfter ms u).2

/-- What an account has gained before fees, without its open position. -/
def realisedGain (c : Cfg) (s : State) : Int := equity s - c.start + s.feesPaid

end Lfest.Spec
