import Verif.SpecLever

/-!
# What the account tracker sees of the balances, for C140
-/

namespace Lfest.Spec

/-- A call of the account tracker that forgets how the balance is divided into wallet and margins. -/
def blind : Event → Event
  | .sample b mid => .sample ⟨b.wallet + b.positionMargin + b.orderMargin, 0, 0⟩ mid
  | ev => ev

/-- The conditions under which terms make no difference (C138): no order lacks funds; filters and places are the
same or turn down no order; maintenance margins are the same or nobody is liquidated. -/
structure TermsNotHit (c c' : Cfg) (tr tr' : List (Op × Resp)) : Prop where
  funds : (∀ t ∈ tr, lacksFunds t.2 = false) ∧ ∀ t ∈ tr', lacksFunds t.2 = false
  limits : sameLimits c c' ∨ (∀ t ∈ tr, turnedDown t.2 = false) ∧ ∀ t ∈ tr', turnedDown t.2 = false
  liquidations : c'.spec.maintenanceMargin = c.spec.maintenanceMargin ∨
    (∀ t ∈ tr, closesOut t.2 = false) ∧ ∀ t ∈ tr', closesOut t.2 = false

end Lfest.Spec
