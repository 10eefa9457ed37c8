import Verif.SpecCut

/-!
# Orders at better prices, for C127
-/

namespace Lfest.Spec

/-- On this side, the market finds the price `p` at least as good as `q`. -/
def atLeastAsKeen : Side → Int → Int → Prop
  | .buy, p, q => q ≤ p
  | .sell, p, q => p ≤ q

instance (side : Side) (p q : Int) : Decidable (atLeastAsKeen side p q) := by
  cases side <;> simp only [atLeastAsKeen] <;> infer_instance

end Lfest.Spec
