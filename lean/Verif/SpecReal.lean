import Verif.Spec
import Mathlib.Analysis.SpecialFunctions.Log.Basic

/-!
# Specification of the performance figures (C77, C86)
-/

namespace Lfest.Spec

/-- The sums of the user balances at the sampling times, oldest first, from a record of tracker
calls that has the newest call first. -/
def sampledSums (log : List Event) : List Int :=
  log.reverse.filterMap (fun ev => match ev with
    | .sample b _ => some (b.wallet + b.positionMargin + b.orderMargin)
    | _ => none)

/-- The same as real amounts. -/
noncomputable def sampled (e : Env) (log : List Event) : List ℝ :=
  (sampledSums log).map (fun x : Int => (x : ℝ) / e.scale)

/-- Logarithmic returns from one value to the next. -/
noncomputable def lnReturns : List ℝ → List ℝ
  | a :: b :: rest => Real.log (b / a) :: lnReturns (b :: rest)
  | _ => []

open Classical in
/-- The losses among them. -/
noncomputable def losses (rs : List ℝ) : List ℝ := rs.filter (fun r => decide (r < 0))

/-- The mid prices at the sampling times, oldest first. -/
def sampledMids (log : List Event) : List Int :=
  log.reverse.filterMap (fun ev => match ev with
    | .sample _ mid => some mid
    | _ => none)

/-- The same as real amounts. -/
noncomputable def sampledMarket (e : Env) (log : List Event) : List ℝ :=
  (sampledMids log).map (fun x : Int => (x : ℝ) / e.scale)

/-- Return-to-VaR ratio: mean return over the size of the return at a quantile, which the estimator
`Q` gives. -/
noncomputable def rtv (Q : List ℝ → ℝ) (rs : List ℝ) : ℝ := rs.sum / rs.length / |Q rs|

end Lfest.Spec
