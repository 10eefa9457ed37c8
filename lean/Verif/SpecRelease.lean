import Verif.Spec

/-!
# Vocabulary for release builds (C102)
-/

namespace Lfest.Spec

/-- Contracts that have changed hands so far. -/
def traded (s : State) : Int := fillSum (fills s.log)

/-- Contracts that resting orders are still waiting for. -/
def resting (s : State) : Int := (s.active.map (·.remaining)).sum

/-- Before every call of the history, the contracts traded so far, those waiting in resting orders
and those the call asks for together come to at most `Q`. -/
def Room (c : Cfg) (Q : Int) (ops : List Op) : Prop :=
  ∀ before op after, ops = before ++ op :: after →
    ∀ s, run c (State.init c) before = .ok s → traded s + resting s + asked op ≤ Q

/-- A treatment of results that is right about those between `-w` and `w`. -/
def Exact (w : Int) (f : Int → Res Int) : Prop := ∀ x, -w ≤ x → x ≤ w → f x = .ok x

end Lfest.Spec
