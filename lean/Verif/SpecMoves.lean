import Verif.SpecPriority

/-!
# Where profit comes from

`mark` is any way to read a price off the state of the exchange, for example the mid price.
-/

namespace Lfest.Spec

/-- The fills reported between two states of a history, newest first -/
def fillsBetween (s s' : State) : List Fill :=
  (fills s'.log).take ((fills s'.log).length - (fills s.log).length)

/-- Sum, over the calls, of the position before the call times the move of the mark in the call -/
def fromMoves (c : Cfg) (mark : State → Int) (s : State) : List Op → Int
  | [] => 0
  | op :: ops => match step c s op with
    | .ok (s1, _) => s.pos.quantity * (mark s1 - mark s) + fromMoves c mark s1 ops
    | .error _ => 0

/-- Sum, over the fills, of the quantity (negative for sales) times the distance from the price of the
fill to the mark after the call -/
def fromFills (c : Cfg) (mark : State → Int) (s : State) : List Op → Int
  | [] => 0
  | op :: ops => match step c s op with
    | .ok (s1, _) => ((fillsBetween s s1).map (fun f => f.signed * (mark s1 - f.price))).sum +
        fromFills c mark s1 ops
    | .error _ => 0

/-- Sum, over the calls, of the distance the mark has moved in the call -/
def travelled (c : Cfg) (mark : State → Int) (s : State) : List Op → Int
  | [] => 0
  | op :: ops => match step c s op with
    | .ok (s1, _) => abs (mark s1 - mark s) + travelled c mark s1 ops
    | .error _ => 0

/-- Along the calls the mark is never below the bid or above the ask. -/
def betweenQuotes (c : Cfg) (mark : State → Int) (s : State) (ops : List Op) : Prop :=
  ∀ first rest t, ops = first ++ rest → run c s first = .ok t → t.ms.bid ≤ mark t ∧ mark t ≤ t.ms.ask

/-- Along the calls the position is never larger than `q`. -/
def neverLarger (c : Cfg) (q : Int) (s : State) (ops : List Op) : Prop :=
  ∀ first rest t, ops = first ++ rest → run c s first = .ok t → abs t.pos.quantity ≤ q

/-- The call submits no limit order. -/
def takesOnly : Op → Prop
  | .limit .. => False
  | .amend .. => False
  | _ => True

end Lfest.Spec
