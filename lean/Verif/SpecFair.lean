import Verif.SpecMoves
import Mathlib.Algebra.Order.Field.Rat

/-!
# Fair markets

Specification for C152: a market whose next moves are drawn by chance, a user who sees what has happened
so far, and what the user has at the end.
-/

namespace Lfest.Fair

open Spec

/-- The calls of a user, depending on all calls and answers so far. -/
abbrev Strategy := List (Op × Resp) → List Op

/-- Orders, amendments and cancellations: what a user can do besides passing on market data. -/
def own : Op → Prop
  | .limit .. | .market .. | .amend .. | .cancel _ => True
  | _ => False

/-- What the market may do. `news u p` is an update after which the contract is worth `p`. After it the
user makes calls. `chance x a b` goes on with `a` with probability `x`, otherwise with `b`. -/
inductive Market where
  | over
  | news (u : UpdateArg) (price : Int) (next : Market)
  | chance (x : Rat) (one other : Market)

/-- What has been given away by the fills between two states, if the contract is worth `p`: paid above
`p` by buys and received below `p` by sells. Negative if the fills were better. -/
def givenAway (p : Int) (s s' : State) : Int :=
  ((fillsBetween s s').map (fun f => f.signed * (f.price - p))).sum

/-- One way in which things can go: its probability, what the contract is worth at the end, the exchange
at the end, and what has been given away by fills -/
structure Ending where
  prob : Rat
  price : Int
  final : State
  given : Int

/-- All ways in which things can go, starting from a price, an exchange, what the user has seen, and what
has been given away before -/
def play (c : Cfg) (user : Strategy) :
    Market → Int → State → List (Op × Resp) → Int → Res (List Ending)
  | .over, p, s, _, g => .ok [⟨1, p, s, g⟩]
  | .news u p' m, _, s, seen, g => do
    let r ← step c s (.update u)
    let seen' := seen ++ [(.update u, r.2)]
    let h ← history c r.1 (user seen')
    play c user m p' h.1 (seen' ++ h.2) (g + givenAway p' s h.1)
  | .chance x a b, p, s, seen, g => do
    let one ← play c user a p s seen g
    let other ← play c user b p s seen g
    .ok (one.map (fun o => { o with prob := x * o.prob }) ++
      other.map (fun o => { o with prob := (1 - x) * o.prob }))

/-- The mean of a number over all endings -/
def mean (f : Ending → Rat) : List Ending → Rat
  | [] => 0
  | o :: os => o.prob * f o + mean f os

/-- What the account is worth after fees, those owed included, if the contract is worth `p`, in units of
`10^(-2D)`, linear contracts -/
def afterFees (c : Cfg) (s : State) (p : Int) : Int :=
  (equity s - s.pos.outstandingFees) * c.scale + s.pos.quantity * (p - s.pos.entryPrice)

/-- The mean of what the contract is worth at the end -/
def meanPrice : Int → Market → Rat
  | p, .over => p
  | _, .news _ p' m => meanPrice p' m
  | p, .chance x a b => x * meanPrice p a + (1 - x) * meanPrice p b

/-- Bid and ask after an update -/
def quotes (q : Int × Int) : UpdateArg → Int × Int
  | .bba b => (b.bid, b.ask)
  | .trade _ => q
  | .candle k => (k.bid, k.ask)
  | .smart _ b _ => (b.bid, b.ask)
  | .custom k => match k.market with
    | none => q
    | some x => (x.1, x.2.1)

/-- The update fills no buy below, and no sell above what the contract is worth after it. -/
def notGenerous (u : UpdateArg) (p : Int) : Prop :=
  ∀ o : Limit, fillRule u o ≠ none →
    match o.side with
    | .buy => p ≤ o.price
    | .sell => o.price ≤ p

/-- In the trade somebody sold at `p` or above, or bought at `p` or below. -/
def noBargain (p : Int) (t : Trade) : Prop :=
  match t.side with
  | .sell => p ≤ t.price
  | .buy => t.price ≤ p

/-- At any time the quotes enclose what the contract is worth, and this is the mean of what it is worth
at the end. -/
def fair (q : Int × Int) : Market → Prop
  | .over => True
  | .news u p m => (quotes q u).1 ≤ p ∧ p ≤ (quotes q u).2 ∧ notGenerous u p ∧ meanPrice p m = p ∧
      fair (quotes q u) m
  | .chance x a b => 0 ≤ x ∧ x ≤ 1 ∧ fair q a ∧ fair q b

/-- At any time what the contract is worth is the mean of what it is worth at the end. -/
def martingale : Market → Prop
  | .over => True
  | .news _ p m => meanPrice p m = p ∧ martingale m
  | .chance x a b => 0 ≤ x ∧ x ≤ 1 ∧ martingale a ∧ martingale b

/-- Fair but for a condition on what updates fill -/
def fairPrices (q : Int × Int) : Market → Prop
  | .over => True
  | .news u p m => (quotes q u).1 ≤ p ∧ p ≤ (quotes q u).2 ∧ meanPrice p m = p ∧
      fairPrices (quotes q u) m
  | .chance x a b => 0 ≤ x ∧ x ≤ 1 ∧ fairPrices q a ∧ fairPrices q b

end Lfest.Fair
