import Verif.Model.Tracker
import Mathlib.Analysis.SpecialFunctions.Log.Basic

/-!
# Sharpe, sortino and kelly (account_tracker/full_track.rs)

Simplification: the code computes with `f32`, the model with real numbers. `LnReturn` and
`WelfordRolling` come from the crate `sliding_features`, whose source is not part of the
repository. They are modelled by the natural logarithm of the quotient of consecutive values and by
Welford's recurrence for mean and population variance, which is what the values in the test
full_track.rs:449-492 show.
-/

namespace Lfest

/-- full_track.rs:69-70 `WelfordRolling` (external crate): number of values, mean, and sum of
squared distances to the mean. -/
structure Welford where
  n : ℕ
  mean : ℝ
  s : ℝ

/-- full_track.rs:124-125 `WelfordRolling::default` -/
def Welford.empty : Welford := ⟨0, 0, 0⟩

/-- full_track.rs:307-309 `WelfordRolling::update` (external crate) -/
noncomputable def Welford.update (w : Welford) (x : ℝ) : Welford :=
  let mean := w.mean + (x - w.mean) / (w.n + 1)
  ⟨w.n + 1, mean, w.s + (x - w.mean) * (x - mean)⟩

/-- full_track.rs:229 `WelfordRolling::variance` (external crate) -/
noncomputable def Welford.variance (w : Welford) : ℝ := if w.n = 0 then 0 else w.s / w.n

/-- full_track.rs:215, 242 `WelfordRolling::last` (external crate): the standard deviation -/
noncomputable def Welford.last (w : Welford) : Option ℝ :=
  if w.n = 0 then none else some (Real.sqrt w.variance)

/-- full_track.rs:66, 69, 70: the last sampled balance (inside `LnReturn`), statistics of all
returns and of the negative ones -/
structure Returns where
  prev : Option ℝ
  all : Welford
  neg : Welford

/-- full_track.rs:121-125 -/
def Returns.empty : Returns := ⟨none, .empty, .empty⟩

open Classical in
/-- full_track.rs:295-316 `sample_user_balances`. The first sample yields no return. -/
noncomputable def Returns.sample (r : Returns) (balance : ℝ) : Returns :=
  match r.prev with
  | none => { r with prev := some balance }
  | some p =>
    let ret := Real.log (balance / p)
    { prev := some balance
      all := r.all.update ret
      neg := if ret < 0 then r.neg.update ret else r.neg }

/-- full_track.rs:97 `new`, then the samples in the order of the record (newest first); the
amounts are raw amounts divided by the scale. -/
noncomputable def Returns.replay (e : Env) : List Event → Returns
  | [] => .empty
  | .sample b _ :: evs => (Returns.replay e evs).sample ((b.sum : ℝ) / e.scale)
  | _ :: evs => Returns.replay e evs

open Classical in
/-- full_track.rs:214-223 `sharpe` -/
noncomputable def Returns.sharpe (r : Returns) : Option ℝ :=
  match r.all.last with
  | none => none
  | some stdDev => if stdDev = 0 then none else some (r.all.mean / stdDev)

open Classical in
/-- full_track.rs:227-237 `kelly_leverage` (the assertion on the variance holds, see C77) -/
noncomputable def Returns.kelly (r : Returns) : ℝ :=
  if r.all.variance = 0 then 0 else r.all.mean / r.all.variance

open Classical in
/-- full_track.rs:241-250 `sortino` -/
noncomputable def Returns.sortino (r : Returns) : Option ℝ :=
  match r.neg.last with
  | none => none
  | some stdDev => if stdDev = 0 then none else some (r.all.mean / stdDev)

end Lfest
