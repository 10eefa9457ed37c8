import Verif.SpecPriority

/-!
# The same account with more decimals
-/

namespace Lfest.Spec

/-- The second configuration says the same as the first, with `n` more decimals: contract, starting
balance and fee rates. The other settings are left open. -/
structure MoreDecimals (n : Nat) (c c' : Cfg) : Prop where
  kind : c'.env.kind = c.env.kind
  decimals : c'.env.decimals = c.env.decimals + n
  start : c'.start = 10 ^ n * c.start
  feeMaker : c'.spec.feeMaker = 10 ^ n * c.spec.feeMaker
  feeTaker : c'.spec.feeTaker = 10 ^ n * c.spec.feeTaker

/-- The same fill, written with `n` more decimals -/
def Fill.withMore (n : Nat) (f : Fill) : Fill :=
  { f with price := 10 ^ n * f.price, qty := 10 ^ n * f.qty }

/-- The larger of the two fee rates -/
def largerRate (c : Cfg) : Int :=
  if c.spec.feeMaker ≤ c.spec.feeTaker then c.spec.feeTaker else c.spec.feeMaker

end Lfest.Spec
