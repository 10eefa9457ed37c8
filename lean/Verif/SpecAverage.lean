import Verif.Spec

/-!
# Averaged entry prices of inverse contracts, for C129
-/

namespace Lfest.Spec

/-- What the fills have earned in an inverse contract, where a contract is worth one over the price:
the value of everything bought, each fill at its own price, less the value of everything sold. For an
account without a position this is its profit. -/
def coins (c : Cfg) : List Fill → Int
  | [] => 0
  | f :: fs => (match f.side with
    | .buy => value c.env f.qty f.price
    | .sell => -value c.env f.qty f.price) + coins c fs

/-- Allowance for the rounding of the entry price of a position of `q` contracts: one unit, and the
value of the position at the entry price less its value at a price a little higher. -/
def averagingSlack (c : Cfg) (q entry : Int) : Int :=
  value c.env q entry - value c.env q (entry + 2 + 2 * c.scale / q) + 1

/-- The sum of these allowances over the positions after each fill -/
def averagingRounding (c : Cfg) : List Fill → Int
  | [] => 0
  | f :: fs => averagingRounding c fs +
      averagingSlack c (abs (netBought (f :: fs))) (ledger c (f :: fs)).entry

/-- After each of the fills the position is long or there is none; no entry price is rounded to 0. -/
def onlyLong (c : Cfg) (fs : List Fill) : Prop :=
  ∀ gs, gs <:+ fs → 0 ≤ netBought gs ∧ (netBought gs ≠ 0 → 0 < (ledger c gs).entry)

/-- After each of the fills the position is short or there is none; no entry price is rounded to 0. -/
def onlyShort (c : Cfg) (fs : List Fill) : Prop :=
  ∀ gs, gs <:+ fs → netBought gs ≤ 0 ∧ (netBought gs ≠ 0 → 0 < (ledger c gs).entry)

end Lfest.Spec
