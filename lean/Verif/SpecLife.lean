import Verif.SpecAudit

/-!
# The life of a limit order, as the user hears of it

What the answers of the exchange say about the limit order with one id, and the order in which these
things may be said: an order is opened, is partly filled any number of times, and ends at most once.
-/

namespace Lfest.Life

open Spec Audit

/-- What an answer can say about a limit order. -/
inductive News where
  /-- accepted, by a submission or as the new order of an amendment -/
  | opened (o : Limit)
  | partly (o : Limit)
  | filled (f : FilledLimit)
  | cancelled (o : Limit)
  /-- amended to the total quantity `qty`, which made it the order `n` -/
  | replaced (qty : Int) (n : Limit)
  /-- an amendment failed and the order is lost -/
  | dropped
  deriving DecidableEq

/-- What a report says about the order with this id. -/
def heard (id : Nat) : LimitUpdate → Option News
  | .fullyFilled f => if f.id = id then some (.filled f) else none
  | .partiallyFilled o => if o.id = id then some (.partly o) else none

/-- What a call and its answer say about the order with this id. -/
def events (id : Nat) : Op × Resp → List News
  | (.limit _ _ _ _, .limit (.ok o)) => if o.id = id then [.opened o] else []
  | (.amend i _ _ qty _, .limit (.ok n)) =>
    (if i = id then [.replaced qty n] else []) ++ (if n.id = id then [.opened n] else [])
  | (.amend i _ _ _ _, .limit (.error err)) =>
    match err with
    | .orderIdNotFound _ => []
    | .orderNoLongerActive => []
    | _ => if i = id then [.dropped] else []
  | (.cancel _, .limit (.ok o)) => if o.id = id then [.cancelled o] else []
  | (.update _, .update (.ok ups)) => ups.filterMap (heard id)
  | _ => []

/-- Everything heard of the order with this id, oldest first. -/
def life (id : Nat) (tr : List (Op × Resp)) : List News := tr.flatMap (events id)

/-- The active order with this id. -/
def now (s : State) (id : Nat) : Option Limit := s.active.find? (fun o => o.id == id)

/-- `o'` is the order `o` after further fills, with something left. -/
def Shrunk (o o' : Limit) : Prop :=
  LaterState o o' ∧ 0 < o'.remaining ∧ o'.remaining < o.remaining

/-- The report of a complete fill of `o`: all of its quantity, at its price. -/
def Finishes (o : Limit) (f : FilledLimit) : Prop :=
  f = ⟨o.uid, o.side, o.price, 0, o.id, o.ts, f.tsExecuted, o.price, o.filledQuantity + o.remaining⟩

/-- Does the event end the life of an order, last known as `o`? -/
def Ends (o : Limit) : News → Prop
  | .filled f => Finishes o f
  | .cancelled x => x = o
  | .replaced qty n => o.id < n.id ∧ n.filledQuantity = 0 ∧ n.remaining = qty - o.filledQuantity
  | .dropped => True
  | _ => False

/-- What is heard of an order after it was in state `o`, and the active order in the end: the order
is partly filled any number of times, each report giving its new state; then it is either still there
in the last reported state, or it has ended, once, and is gone. -/
def Lives (o : Limit) : List News → Option Limit → Prop
  | [], fin => fin = some o
  | .partly o' :: es, fin => Shrunk o o' ∧ Lives o' es fin
  | e :: es, fin => Ends o e ∧ es = [] ∧ fin = none

/-- The same for a user who may miss some fills: `o` and `o'` are the same order, and `o'` is not
open by more than `o`. -/
def Later (o o' : Limit) : Prop := LaterState o o' ∧ o'.remaining ≤ o.remaining

/-- As `Lives`, but any number of fills may have gone unreported. -/
def Orderly (o : Limit) : List News → Option Limit → Prop
  | [], fin => ∀ o', fin = some o' → Later o o'
  | .partly o' :: es, fin => Shrunk o o' ∧ Orderly o' es fin
  | e :: es, fin => (∃ o', Later o o' ∧ Ends o' e) ∧ es = [] ∧ fin = none

end Lfest.Life
