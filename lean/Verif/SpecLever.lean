import Verif.SpecTerms

/-!
# Configurations that differ in their terms, for C138
-/

namespace Lfest.Spec

/-- The two configurations have the same filters and the same number of places for orders. -/
def sameLimits (c c' : Cfg) : Prop :=
  c'.maxOpen = c.maxOpen ∧ c'.spec.priceFilter = c.spec.priceFilter ∧
  c'.spec.quantityFilter = c.spec.quantityFilter

/-- The two configurations have the same fees. -/
def sameFees (c c' : Cfg) : Prop :=
  c'.spec.feeMaker = c.spec.feeMaker ∧ c'.spec.feeTaker = c.spec.feeTaker

/-- Was an order turned down for lack of funds? -/
def lacksFunds : Resp → Bool
  | .market (.error (.risk .notEnoughAvailableBalance)) => true
  | .limit (.error (.risk .notEnoughAvailableBalance)) => true
  | _ => false

/-- Was the position liquidated? -/
def closesOut : Resp → Bool
  | .update (.error (.risk .liquidate)) => true
  | _ => false

end Lfest.Spec
