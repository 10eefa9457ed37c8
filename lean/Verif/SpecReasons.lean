import Verif.Spec

/-! Specification for C110: what is wrong with a price, a quantity or a market update. -/

namespace Lfest.Spec

/-- The prices a market update carries, in the order in which they are looked at. -/
def pricesOf : Update → List Int
  | .bba b => [b.bid, b.ask]
  | .trade t => [t.price]
  | .candle k => [k.bid, k.ask, k.low, k.high]
  | _ => []

/-- The pairs of prices of which the first must be below the second. -/
def spreadsOf : Update → List (Int × Int)
  | .bba b => [(b.bid, b.ask)]
  | .candle k => [(k.bid, k.ask), (k.low, k.high)]
  | _ => []

/-- Is a price below the minimum? A minimum of zero does not count. -/
def tooLow (f : PriceFilter) (p : Int) : Prop := ∃ m, f.minPrice = some m ∧ m ≠ 0 ∧ p < m

/-- Is a price above the maximum? A maximum of zero does not count. -/
def tooHigh (f : PriceFilter) (p : Int) : Prop := ∃ m, f.maxPrice = some m ∧ m ≠ 0 ∧ m < p

end Lfest.Spec
