import Verif.Spec

/-!
# Times in the answers of the exchange (C105)

A history is a list of calls with their answers, oldest first.
-/

namespace Lfest.Spec

/-- The time a call brings: that of its market update. -/
def timeOf : Op × Resp → Option Int
  | (.update u, _) => updateTime u
  | _ => none

/-- The time after a history: that of its last market update. -/
def clockAt (tr : List (Op × Resp)) : Int := (tr.filterMap timeOf).getLast?.getD 0

/-- The limit order with this id was accepted at time `t`. -/
def receivedAt (tr : List (Op × Resp)) (id : Nat) (t : Int) : Prop :=
  ∃ earlier x later o, tr = earlier ++ x :: later ∧ accepted x = some o ∧ o.id = id ∧
    t = clockAt earlier

/-- The times in the answer of a call `x` made after the history `tr` are right: orders are received
and market orders executed at the time of the last update, limit orders are executed at the time of
the update that fills them, and whenever an order is shown again its time of receipt is the same. -/
def WellStamped (tr : List (Op × Resp)) (x : Op × Resp) : Prop :=
  match x with
  | (.limit _ _ _ _, .limit (.ok o)) => o.ts = clockAt tr
  | (.amend _ _ _ _ _, .limit (.ok o)) => o.ts = clockAt tr
  | (.cancel _, .limit (.ok o)) => receivedAt tr o.id o.ts
  | (.market _ _ _, .market (.ok f)) => f.ts = clockAt tr ∧ f.tsExecuted = clockAt tr
  | (.update u, .update (.ok ups)) =>
    (∀ o, .partiallyFilled o ∈ ups → receivedAt tr o.id o.ts) ∧
    (∀ f, .fullyFilled f ∈ ups → receivedAt tr f.id f.ts ∧ updateTime u = some f.tsExecuted)
  | _ => True

/-- Id and time of receipt of the order a call brings. -/
def receipt : Op × Resp → Option (Nat × Int)
  | (.market _ _ _, .market (.ok f)) => some (f.id, f.ts)
  | x => (accepted x).map fun o => (o.id, o.ts)

end Lfest.Spec
