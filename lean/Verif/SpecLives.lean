import Verif.SpecLife

/-!
# The fills of one order

Specification for C147: which fills the news of an order amount to, and which fills the answers to
market orders tell of.
-/

namespace Lfest.Life

open Spec

/-- The fills told of by the news of an order last known as `o`: what was open and is not any more. -/
def portions : Limit → List News → List Fill
  | o, .partly o' :: es => ⟨true, o.side, o.price, o.remaining - o'.remaining⟩ :: portions o' es
  | o, .filled _ :: _ => [⟨true, o.side, o.price, o.remaining⟩]
  | _, _ => []

/-- The fills told of by the news of an order from the beginning. -/
def tradedBy : List News → List Fill
  | .opened o :: es => portions o es
  | _ => []

/-- The fill a call tells of if it is a market order. -/
def taken : Op × Resp → List Fill
  | (.market _ _ _, .market (.ok f)) => [⟨false, f.side, f.avgFillPrice, f.filledQty⟩]
  | _ => []

/-- Is the answer that the account was liquidated? -/
def liquidates : Op × Resp → Bool
  | (.update _, .update (.error _)) => true
  | _ => false

/-- The fills each limit order had in its life, without the orders that had none. -/
def filledLives (s : State) (tr : List (Op × Resp)) : List (List Fill) :=
  ((List.range s.nextId).map (fun id => tradedBy (life id tr))).filter (fun l => !l.isEmpty)

end Lfest.Life
