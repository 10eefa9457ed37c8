import Verif.SpecQueue

/-!
# A complete order book with price-time priority (C133)

Both sides of the book of a real exchange. An order that comes in takes orders of the other side within
its limit, in order of their priority; what is left of it comes to rest unless it is of the kind that is
filled immediately or not at all (market orders are of this kind, with an unattractive limit).
-/

namespace Lfest.Market

open Spec

/-- What traders other than the user do: send an order, which may or may not come to rest, or withdraw
one. -/
inductive Deed where
  | order (side : Side) (i : Nat) (price : Int) (qty : Nat) (rests : Bool)
  | withdraw (i : Nat)
  deriving DecidableEq, Repr

/-- Resting orders on each side. -/
abbrev Orders := Side → List Queued

/-- Exchange one side of the book. -/
def Orders.set (m : Orders) (side : Side) (l : List Queued) : Orders :=
  fun s => if s = side then l else m s

/-- What is left of an incoming order comes to rest. -/
def settleDown (side : Side) (i : Nat) (price : Int) (left : Nat) (rests : Bool) (l : List Queued) :
    List Queued :=
  if rests = true ∧ 0 < left then join side ⟨some i, price, left⟩ l else l

/-- The book after an action, and its fills: the side of the incoming order, and the order that was
taken. -/
def deal (m : Orders) : Deed → Orders × List (Side × Queued)
  | .order side i price qty rests =>
    let t := take side.inverted price qty (m side.inverted)
    ((m.set side.inverted t.1).set side (settleDown side i price (qty - volume t.2) rests (m side)),
      t.2.map (fun x => (side, x)))
  | .withdraw i => (fun s => (m s).filter (fun x => decide (x.owner ≠ some i)), [])

/-- The book after a sequence of actions, and all fills. -/
def proceed (m : Orders) : List Deed → Orders × List (Side × Queued)
  | [] => (m, [])
  | d :: l => ((proceed (deal m d).1 l).1, (deal m d).2 ++ (proceed (deal m d).1 l).2)

/-- What the public sees of a fill. -/
def printed (x : Side × Queued) : Side × Int × Int := (x.1, x.2.price, x.2.qty)

/-- How much the user's order has been filled. -/
def ours (fs : List (Side × Queued)) : Nat := mine (fs.map Prod.snd)

end Lfest.Market
