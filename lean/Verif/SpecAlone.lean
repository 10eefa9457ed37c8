import Verif.SpecLife

/-!
# One order by itself

Specification for C146: what happens to a single limit order that the user leaves alone, computed
from the order and the market data, with no account, no position and no other orders.
-/

namespace Lfest.Alone

open Spec Life

/-- The call does not cancel or amend this order. -/
def spares (o : Limit) : Op → Prop
  | .amend id _ _ _ _ => id ≠ o.id
  | .cancel (.orderId id) => id ≠ o.id
  | .cancel (.userOrderId uid) => uid ≠ o.uid
  | _ => True

/-- The market data a call shows to the resting orders, and whether it reports what they did. An
update that liquidates the account is not shown to them. -/
def shows : Op × Resp → List (Bool × UpdateArg)
  | (.update u, .update (.ok _)) => [(true, u)]
  | (.checkActive u, _) => [(false, u)]
  | _ => []

def market (tr : List (Op × Resp)) : List (Bool × UpdateArg) := tr.flatMap shows

/-- What is heard of the order, and what is left of it, if there were nothing but this order and the
market. -/
def alone (e : Env) : Limit → List (Bool × UpdateArg) → List News × Option Limit
  | o, [] => ([], some o)
  | o, (loud, u) :: us =>
    match fillRule u o with
    | none => alone e o us
    | some q =>
      if q = o.remaining then
        (if loud = true then
          [.filled ⟨o.uid, o.side, o.price, 0, o.id, o.ts, (updateTime u).getD 0, o.price,
            o.filledQuantity + o.remaining⟩] else [], none)
      else
        ((if loud = true then [.partly (filledBy e o q)] else []) ++ (alone e (filledBy e o q) us).1,
          (alone e (filledBy e o q) us).2)

/-- The terms of an order: everything but ids and time of submission. -/
def terms (o : Limit) : Limit := { o with id := 0, uid := 0, ts := 0 }

/-- News without ids and time of submission. -/
def plain : News → News
  | .opened o => .opened (terms o)
  | .partly o => .partly (terms o)
  | .filled f => .filled { f with id := 0, uid := 0, ts := 0 }
  | .cancelled o => .cancelled (terms o)
  | .replaced q n => .replaced q (terms n)
  | .dropped => .dropped

/-- Fills of updates of the user's own type may depend on the id of an order. -/
def impersonal (u : UpdateArg) : Prop := isCustom u = false ∨ mayFill u = false

end Lfest.Alone
