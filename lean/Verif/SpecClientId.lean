import Verif.Spec

/-!
# Ids of the client

Specification for C151: the same history with the exchange's own ids in place of the client's.
-/

namespace Lfest.ClientId

open Spec

/-- Name the order that was cancelled by the id the exchange gave it. -/
def byOrderId : Op × Resp → Op
  | (.cancel (.userOrderId _), .limit (.ok o)) => .cancel (.orderId o.id)
  | (op, _) => op

end Lfest.ClientId
