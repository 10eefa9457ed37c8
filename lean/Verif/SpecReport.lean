import Verif.Spec

/-!
# When a summary can be printed
-/

namespace Lfest.Spec

/-- The first entry that is not zero; zero if there is none. -/
def firstNonZero : List Int → Int
  | [] => 0
  | x :: xs => if x = 0 then firstNonZero xs else x

/-- The last entry; zero if there is none. -/
def lastOne (xs : List Int) : Int := xs.getLast?.getD 0

/-- The market states seen so far, oldest first, allow a summary: time has not gone back behind the
first time (that is not zero), and buying and holding from the first mid price (that is not zero) to
the last has a value. In linear contracts that needs a price; in inverse contracts the last price
must not be zero, unless the starting balance buys no contract at all. -/
def summarises (c : Cfg) (start : Int) (ms : List MarketState) : Prop :=
  firstNonZero (ms.map (·.ts)) ≤ lastOne (ms.map (·.ts)) ∧
  match c.env.kind with
  | .linear => ∃ m ∈ ms, mid m ≠ 0
  | .inverse => contracts c.env start (firstNonZero (ms.map mid)) = 0 ∨ lastOne (ms.map mid) ≠ 0

end Lfest.Spec
