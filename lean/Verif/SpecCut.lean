import Verif.SpecWait
import Verif.SpecPriority
import Verif.SpecBatch

/-!
# A limit order cut into parts, for C126
-/

namespace Lfest.Spec

/-- The market update that was matched against the resting orders in a call, if any. An update that
liquidates the position fills no orders. -/
def matched : Op × Resp → Option UpdateArg
  | (.update u, .update (.ok _)) => some u
  | (.checkActive u, .unit) => some u
  | _ => none

/-- The open quantity of some orders together. -/
def openTogether (s : State) (os : List Limit) : Int := (os.map fun o => openQty s o.id).sum

/-- Some orders are parts of an order on a side at a price for `qty` contracts. -/
def partsOf (side : Side) (price qty : Int) (ps : List (Side × Int × Int)) : Prop :=
  (∀ p ∈ ps, p.1 = side ∧ p.2.1 = price) ∧ (ps.map fun p => p.2.2).sum = qty

instance (side : Side) (price qty : Int) (ps : List (Side × Int × Int)) :
    Decidable (partsOf side price qty ps) := by
  unfold partsOf; infer_instance

end Lfest.Spec
