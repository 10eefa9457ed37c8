import Verif.Spec

/-!
# Buying and holding

Specification for C148: the strategy that the benchmark of the account statistics stands for.
-/

namespace Lfest.Hold

open Spec

/-- After the first market update, buy or sell once at market, and hold from then on. -/
def strategy (u : UpdateArg) (side : Side) (q : Int) (uid : Nat) (us : List UpdateArg) : List Op :=
  .update u :: .market side q uid :: us.map Op.update

/-- The call was carried out and did not liquidate the account. -/
def done : Resp → Prop
  | .update (.ok _) => True
  | .market (.ok _) => True
  | _ => False

/-- Quotes at which one can buy and sell. -/
def quoted (m : MarketState) : Prop := 0 < m.bid ∧ m.bid ≤ m.ask

end Lfest.Hold
