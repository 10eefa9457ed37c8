import Verif.Spec

/-!
# Better terms, for C93
-/

namespace Lfest.Spec

/-- `c'` offers at least what `c` offers: no less money to start with, no fewer places for orders, no
higher fees, and filters that accept everything those of `c` accept. The contract, the decimals, the
build and the margin rates are the same; the sampling interval is irrelevant. -/
structure BetterTerms (c c' : Cfg) : Prop where
  env : c'.env = c.env
  money : c.start ≤ c'.start
  places : c.maxOpen ≤ c'.maxOpen
  initial : c'.spec.initMarginReq = c.spec.initMarginReq
  maintenance : c'.spec.maintenanceMargin = c.spec.maintenanceMargin
  maker : c'.spec.feeMaker ≤ c.spec.feeMaker
  taker : c'.spec.feeTaker ≤ c.spec.feeTaker
  quantities : ∀ q, quantityOk c.spec.quantityFilter q → quantityOk c'.spec.quantityFilter q
  prices : ∀ p mark, priceOk c.env c.spec.priceFilter p mark →
    priceOk c.env c'.spec.priceFilter p mark
  updates : ∀ u, updateOk c.spec.priceFilter u → updateOk c'.spec.priceFilter u

/-- Was an order turned down by the filters, for lack of funds or for lack of a place? -/
def turnedDown : Resp → Bool
  | .market (.error e) | .limit (.error e) =>
    match e with
    | .order (.goodTillCrossingRejected _ _) => false
    | .order _ | .risk .notEnoughAvailableBalance | .maxNumberOfActiveOrders => true
    | _ => false
  | _ => false

end Lfest.Spec
