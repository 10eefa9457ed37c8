import Verif.SpecPriority

/-!
# One account for several strategies
-/

namespace Lfest.Spec

/-- The same contract at the same fee rates. Starting balance, margins, filters and the number of
orders may differ. -/
structure SameContract (c c' : Cfg) : Prop where
  kind : c'.env.kind = c.env.kind
  decimals : c'.env.decimals = c.env.decimals
  feeMaker : c'.spec.feeMaker = c.spec.feeMaker
  feeTaker : c'.spec.feeTaker = c.spec.feeTaker

/-- An account on its own: what it was configured with and the state it is in -/
abbrev SubAccount := Cfg × State

/-- Accounts in the same contract -/
def Separate (c : Cfg) (parts : List SubAccount) : Prop :=
  ∀ a ∈ parts, SameContract c a.1 ∧ Reachable a.1 a.2

/-- All fills of some accounts -/
def allFills (parts : List SubAccount) : List Fill := parts.flatMap fun a => fills a.2.log

end Lfest.Spec
