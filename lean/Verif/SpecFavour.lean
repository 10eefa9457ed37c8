import Verif.Spec

/-!
# Positions on one side only, for C130
-/

namespace Lfest.Spec

/-- After each of the fills the position is long or there is none. -/
def neverShort (fs : List Fill) : Prop := ∀ gs, gs <:+ fs → 0 ≤ netBought gs

/-- After each of the fills the position is short or there is none. -/
def neverLong (fs : List Fill) : Prop := ∀ gs, gs <:+ fs → netBought gs ≤ 0

/-- The number of purchases, or of sales, among the fills -/
def howMany (side : Side) : List Fill → Int
  | [] => 0
  | f :: fs => (if f.side = side then 1 else 0) + howMany side fs

end Lfest.Spec
