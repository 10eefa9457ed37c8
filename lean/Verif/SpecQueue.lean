import Verif.SpecWait

/-!
# A market with price-time priority (C133, C134)

One side of the order book of a real exchange: the orders at rest, in order of their priority, those
of other traders and possibly one of the user's. It is what the fills of the simulated exchange are
compared with; nothing here is taken from the code.
-/

namespace Lfest.Market

open Spec

/-- An order at rest on the real exchange: order `i` of the other traders, or the user's (`none`). -/
structure Queued where
  owner : Option Nat
  price : Int
  qty : Nat
  deriving DecidableEq, Repr

/-- An order joins the book at the end of the queue at its price: behind all orders except those at
worse prices. -/
def join (sd : Side) (x : Queued) : List Queued → List Queued
  | [] => [x]
  | y :: ys => if better sd x.price y.price = true then x :: y :: ys else y :: join sd x ys

/-- An order of the other side comes in, to trade `v` at no worse than `limit` for it. It takes the
orders at rest in turn until it is done or its limit is reached. Returned are what is left of the book
and the fills: of which order, at which price, how much. What is left of it does not concern this side
of the book. -/
def take (sd : Side) (limit : Int) : Nat → List Queued → List Queued × List Queued
  | _, [] => ([], [])
  | v, y :: ys =>
    if v = 0 ∨ better sd limit y.price = true then (y :: ys, [])
    else if v < y.qty then ({ y with qty := y.qty - v } :: ys, [{ y with qty := v }])
    else ((take sd limit (v - y.qty) ys).1, y :: (take sd limit (v - y.qty) ys).2)

/-- What the other traders do. -/
inductive Act where
  | rest (i : Nat) (price : Int) (qty : Nat)
  | withdraw (i : Nat)
  | take (qty : Nat) (limit : Int)
  deriving DecidableEq, Repr

/-- The book after an action, and its fills. -/
def act (sd : Side) (book : List Queued) : Act → List Queued × List Queued
  | .rest i price qty => (join sd ⟨some i, price, qty⟩ book, [])
  | .withdraw i => (book.filter (fun x => decide (x.owner ≠ some i)), [])
  | .take v limit => take sd limit v book

/-- The book after a sequence of actions, and all fills. -/
def play (sd : Side) (book : List Queued) : List Act → List Queued × List Queued
  | [] => (book, [])
  | a :: l => ((play sd (act sd book a).1 l).1, (act sd book a).2 ++ (play sd (act sd book a).1 l).2)

/-- Total quantity. -/
def volume (fs : List Queued) : Nat := (fs.map Queued.qty).sum

/-- How much the user's order has been filled. -/
def mine (fs : List Queued) : Nat := volume (fs.filter (fun x => decide (x.owner = none)))

/-- What the public sees of a fill: a trade by an order of the other side. -/
def print (sd : Side) (x : Queued) : Side × Int × Int := (sd.inverted, x.price, x.qty)

/-- The trades that are fed to the simulated exchange, one by one or packed into smart candles. -/
def tape : List Op → List (Side × Int × Int)
  | [] => []
  | .update (.trade t) :: ops => (t.side, t.price, t.qty) :: tape ops
  | .update (.smart ts _ _) :: ops => ts.map (fun t => (t.side, t.price, t.qty)) ++ tape ops
  | _ :: ops => tape ops

/-- Calls other than updates from sources other than the tape; quotes are allowed. -/
def tapeOnly : Op → Prop
  | .update (.candle _) => False
  | .update (.custom _) => False
  | .checkActive _ => False
  | _ => True

/-- Was every incoming order filled completely? -/
def sated (sd : Side) (book : List Queued) : List Act → Prop
  | [] => True
  | a :: l => (∀ v limit, a = .take v limit → volume (act sd book a).2 = v) ∧
      sated sd (act sd book a).1 l

/-- What the fills amount to, before scaling: price times quantity. -/
def paid (fs : List Queued) : Int := (fs.map (fun x => x.price * (x.qty : Int))).sum

/-- Amount `a` is no worse than `b` for someone who trades on `side`: a buyer pays no more, a seller
gets no less. -/
def noWorse (side : Side) (a b : Int) : Prop :=
  match side with
  | .buy => a ≤ b
  | .sell => b ≤ a

end Lfest.Market
