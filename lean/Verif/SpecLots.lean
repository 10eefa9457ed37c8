import Verif.Spec

/-!
# Whole lots and admissible prices

Quantities that are multiples of a step size, and prices that a price filter allows, without regard
to the mark price.
-/

namespace Lfest.Lots

open Spec

/-- Does the market only trade multiples of `t`? Quotes and candles carry no volume; an update of the
user's own type fills what it answers. -/
def wholeLots (t : Int) : UpdateArg → Prop
  | .bba _ => True
  | .trade x => t ∣ x.qty
  | .candle _ => True
  | .smart xs _ _ => ∀ x ∈ xs, t ∣ x.qty
  | .custom k => ∀ p ∈ k.fills, t ∣ p.2

/-- The market data of a call comes in multiples of `t`. -/
def lotCall (t : Int) : Op → Prop
  | .update u => wholeLots t u
  | .checkActive u => wholeLots t u
  | _ => True

/-- The filter allows the price: positive, within the bounds and on the grid. -/
def Admissible (f : PriceFilter) (p : Int) : Prop :=
  0 < p ∧ within f.minPrice f.maxPrice p ∧ onGrid f.minPrice f.tickSize p

instance (f : PriceFilter) (p : Int) : Decidable (Admissible f p) := by
  unfold Admissible within onGrid
  have : ∀ (o : Option Int) (q : Int → Prop) [DecidablePred q], Decidable (∀ m, o = some m → q m) :=
    fun o q _ => match o with
      | none => .isTrue (fun _ h => by cases h)
      | some m => if h : q m then .isTrue (fun _ e => by cases e; exact h)
        else .isFalse (fun k => h (k m rfl))
  infer_instance

end Lfest.Lots
