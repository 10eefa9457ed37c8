import Verif.SpecFair

/-!
# The chance to get rich

Specification for C157: with which probability something holds at the end.
-/

namespace Lfest.Fair

/-- The probability of the endings for which `ok` holds -/
def chanceOf (ok : Ending → Bool) : List Ending → Rat
  | [] => 0
  | o :: os => (if ok o then o.prob else 0) + chanceOf ok os

end Lfest.Fair
