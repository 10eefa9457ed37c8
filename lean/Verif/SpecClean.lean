import Verif.Spec

/-!
# Calls without effect

Specification for C99. A call that is turned down uses up at most an order id. Leaving out all
such calls, the same orders get smaller ids, so the calls that name orders by their id have to be
translated.
-/

namespace Lfest

open Spec

namespace Rename

-- `f` says which id an order has in the shorter history
variable (f : Nat → Nat)

def limit (o : Limit) : Limit := { o with id := f o.id }

def filledLimit (o : FilledLimit) : FilledLimit := { o with id := f o.id }

def filledMarket (o : FilledMarket) : FilledMarket := { o with id := f o.id }

def limitUpdate : LimitUpdate → LimitUpdate
  | .partiallyFilled o => .partiallyFilled (limit f o)
  | .fullyFilled o => .fullyFilled (filledLimit f o)

/-- A call with other order ids. -/
def op : Op → Op
  | .amend id side p q uid => .amend (f id) side p q uid
  | .cancel (.orderId id) => .cancel (.orderId (f id))
  | x => x

/-- An answer with other order ids. -/
def resp : Resp → Resp
  | .update (.ok us) => .update (.ok (us.map (limitUpdate f)))
  | .market (.ok o) => .market (.ok (filledMarket f o))
  | .limit (.ok o) => .limit (.ok (limit f o))
  | x => x

end Rename

/-- Did the call do anything? Market updates always do; the submission of an order and a
cancellation do if they succeed. An amendment that fails, unless because there is no such order, has
cancelled the order. -/
def effective : Op × Resp → Bool
  | (_, .update _) => true
  | (_, .unit) => true
  | (_, .market (.ok _)) => true
  | (_, .limit (.ok _)) => true
  | (.amend _ _ _ _ _, .limit (.error err)) =>
    match err with
    | .orderIdNotFound _ => false
    | .orderNoLongerActive => false
    | _ => true
  | _ => false

/-- Calls that name no orders but by amending or cancelling them. An update of the user's own type
may say which orders it fills. -/
def namesNone : Op → Prop
  | .update u => isCustom u = false ∨ mayFill u = false
  | .checkActive u => isCustom u = false ∨ mayFill u = false
  | _ => True

end Lfest
