import Verif.SpecFair
import Verif.SpecAverage

/-!
# Fair markets for inverse contracts

Specification for C156: a contract is worth one over the price, and that is what must be fair.
-/

namespace Lfest.FairInverse

open Spec Fair

/-- The mean of one over the price at the end -/
def meanInverse : Int → Market → Rat
  | p, .over => 1 / p
  | _, .news _ p' m => meanInverse p' m
  | p, .chance x a b => x * meanInverse p a + (1 - x) * meanInverse p b

/-- At any time the quotes enclose the price, one over the price is the mean of one over the price at the
end, and no update fills a buy below or a sell above the price after it. -/
def fairInverse (q : Int × Int) : Market → Prop
  | .over => True
  | .news u p m => 0 < p ∧ (quotes q u).1 ≤ p ∧ p ≤ (quotes q u).2 ∧ notGenerous u p ∧
      meanInverse p m = 1 / p ∧ fairInverse (quotes q u) m
  | .chance x a b => 0 ≤ x ∧ x ≤ 1 ∧ fairInverse q a ∧ fairInverse q b

/-- What the account has gained before fees if the position is valued at price `p`, inverse contracts: the
profit of `q` contracts between entry price and `p` is `q / entry - q / p`. Equity is balance and margins,
without the profit of the position. -/
def markedGain (c : Cfg) (s : State) (p : Int) : Rat :=
  ((equity s - c.start + s.feesPaid + value c.env s.pos.quantity s.pos.entryPrice : Int) : Rat) -
    s.pos.quantity * c.env.scale / p

end Lfest.FairInverse
