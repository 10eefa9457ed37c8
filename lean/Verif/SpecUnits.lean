import Verif.SpecPriority

/-!
# The same trades in other units
-/

namespace Lfest.Spec

/-- `f'` is the fill `f` after a change of units by the factor `k`: `k` times as many contracts, of a
`k`-th of the price in a linear contract (a split of the traded asset), and of `k` times the price in
an inverse contract (a smaller unit for the quote currency, of which a contract is one). -/
def Resized (c : Cfg) (k : Int) (f f' : Fill) : Prop :=
  f'.maker = f.maker ∧ f'.side = f.side ∧ f'.qty = k * f.qty ∧
  match c.env.kind with
  | .linear => f.price = k * f'.price
  | .inverse => f'.price = k * f.price

/-- A list of fills after a change of units -/
def allResized (c : Cfg) (k : Int) : List Fill → List Fill → Prop
  | [], [] => True
  | f :: fs, f' :: fs' => Resized c k f f' ∧ allResized c k fs fs'
  | _, _ => False

end Lfest.Spec
