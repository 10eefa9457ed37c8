import Verif.Model.Tracker
import Mathlib.Analysis.SpecialFunctions.Log.Basic

/-!
# The discriminant ratio (account_tracker/full_track.rs, feature "quantiles")

Simplification: the code computes with `f32` and `f64`, the model with real numbers. The crate
`quantogram`, whose source is not part of the repository, keeps a histogram: here the values that
were added are kept, and its estimate of a quantile is an arbitrary function `Q` of them.
-/

namespace Lfest

/-- full_track.rs:66, 75-85: the last sampled balance and mid price (inside the two `LnReturn`),
and the values added to the two histograms, oldest first -/
structure Quantiles where
  prevUser : Option ℝ
  user : List ℝ
  prevMid : Option ℝ
  market : List ℝ

/-- full_track.rs:121, 129-140 -/
def Quantiles.empty : Quantiles := ⟨none, [], none, []⟩

/-- full_track.rs:295-326 `sample_user_balances`, the part on quantiles. The first sample yields no
returns. -/
noncomputable def Quantiles.sample (x : Quantiles) (balance mid : ℝ) : Quantiles :=
  { prevUser := some balance
    user := match x.prevUser with
      | none => x.user
      | some p => x.user ++ [Real.log (balance / p)]
    prevMid := some mid
    market := match x.prevMid with
      | none => x.market
      | some p => x.market ++ [Real.log (mid / p)] }

/-- full_track.rs:97 `new`, then the samples in the order of the record (newest first) -/
noncomputable def Quantiles.replay (e : Env) : List Event → Quantiles
  | [] => .empty
  | .sample b mid :: evs =>
    (Quantiles.replay e evs).sample ((b.sum : ℝ) / e.scale) ((mid : ℝ) / e.scale)
  | _ :: evs => Quantiles.replay e evs

/-- full_track.rs:263, 264 `Quantogram::mean` (external crate) -/
noncomputable def histMean (l : List ℝ) : Option ℝ := if l = [] then none else some (l.sum / l.length)

/-- full_track.rs:258-261 `Quantogram::quantile` (external crate): absent if nothing was added -/
noncomputable def histQuantile (Q : List ℝ → ℝ) (l : List ℝ) : Option ℝ :=
  if l = [] then none else some (Q l)

/-- full_track.rs:257-272 `d_ratio`; division by zero is 0 here and is NaN or infinite there -/
noncomputable def Quantiles.dRatio (Q : List ℝ → ℝ) (x : Quantiles) : Option ℝ := do
  let marketQuantile ← histQuantile Q x.market
  let userQuantile ← histQuantile Q x.user
  let marketMean ← histMean x.market
  let userMean ← histMean x.user
  let rtvAlgo := userMean / |userQuantile|
  let rtvBnh := marketMean / |marketQuantile|
  some (1 + (rtvAlgo - rtvBnh) / |rtvBnh|)

end Lfest
