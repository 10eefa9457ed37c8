import Verif.SpecFair

/-!
# Generous updates

Specification for C154: markets whose updates fill orders at prices better than what the contract is
worth afterwards, by a bounded amount.
-/

namespace Lfest.Flatter

open Spec Fair

/-- The update fills no buy further than `g` below, and no sell further than `g` above what the contract
is worth after it. -/
def generousBy (g : Int) (u : UpdateArg) (p : Int) : Prop :=
  ∀ o : Limit, fillRule u o ≠ none →
    match o.side with
    | .buy => p - g ≤ o.price
    | .sell => o.price ≤ p + g

/-- At any time the quotes enclose what the contract is worth, this is the mean of what it is worth at
the end, and no update is more generous than `g`. -/
def fairBut (g : Int) (q : Int × Int) : Market → Prop
  | .over => True
  | .news u p m => (quotes q u).1 ≤ p ∧ p ≤ (quotes q u).2 ∧ generousBy g u p ∧ meanPrice p m = p ∧
      fairBut g (quotes q u) m
  | .chance x a b => 0 ≤ x ∧ x ≤ 1 ∧ fairBut g q a ∧ fairBut g q b

end Lfest.Flatter
