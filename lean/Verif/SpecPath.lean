import Verif.Spec

/-!
# Specification for the independence of the account from the way its orders came about
-/

namespace Lfest.Spec

/-- Calls that manage limit orders. -/
def managing : Op → Prop
  | .limit _ _ _ _ => True
  | .amend _ _ _ _ _ => True
  | .cancel _ => True
  | _ => False

/-- What an order at rest offers to the market. -/
def offer (o : Limit) : Side × Int × Int := (o.side, o.price, o.remaining)

/-- The resting orders that would reduce a position of signed quantity `pos` have pairwise
different prices. -/
def reducersDiffer (os : List Limit) (pos : Int) : Prop :=
  distinctPrices (os.filter (fun o => decide (0 < opposing pos o.side)))

instance (os : List Limit) (pos : Int) : Decidable (reducersDiffer os pos) :=
  inferInstanceAs (Decidable (distinctPrices _))

end Lfest.Spec
