import Verif.Model.Sample32

/-!
# Sharpe, sortino and kelly in `f32` arithmetic (account_tracker/full_track.rs)

The same functions as in `Model/Performance`, with the rounding of IEEE 754 binary32. `WelfordRolling`
comes from the crate `sliding_features`, whose source is not part of the repository; it is modelled by
Welford's recurrence. The square root is an argument. The sign of zero is not modelled.
-/

namespace Lfest

/-- IEEE 754 negation, for the subtractions of `WelfordRolling::update`, called at
account_tracker/full_track.rs:308-310 (external crate). -/
def F32.neg : F32 → F32
  | .finite a => .finite (-a)
  | .inf n => .inf (!n)
  | .nan => .nan

/-- IEEE 754 addition, for `WelfordRolling::update`, called at account_tracker/full_track.rs:308-310
(external crate). -/
def F32.add : F32 → F32 → F32
  | .finite a, .finite b => .of (a + b)
  | .finite _, .inf n => .inf n
  | .inf m, .finite _ => .inf m
  | .inf m, .inf n => if m = n then .inf m else .nan
  | _, .nan => .nan
  | .nan, _ => .nan

/-- IEEE 754 subtraction, for `WelfordRolling::update`, called at
account_tracker/full_track.rs:308-310 (external crate). -/
def F32.sub (a b : F32) : F32 := a.add b.neg

/-- IEEE 754 multiplication, for `WelfordRolling::update`, called at
account_tracker/full_track.rs:308-310 (external crate). -/
def F32.mul : F32 → F32 → F32
  | .finite a, .finite b => .of (a * b)
  | .finite a, .inf n => if a = 0 then .nan else .inf (n != decide (a < 0))
  | .inf m, .finite b => if b = 0 then .nan else .inf (m != decide (b < 0))
  | .inf m, .inf n => .inf (m != n)
  | _, .nan => .nan
  | .nan, _ => .nan

/-- full_track.rs:69-70 `WelfordRolling` (external crate): number of values, mean, and sum of
squared distances to the mean. -/
structure Welford32 where
  n : ℕ
  mean : F32
  s : F32

/-- full_track.rs:124-125 `WelfordRolling::default` -/
def Welford32.empty : Welford32 := ⟨0, .finite 0, .finite 0⟩

/-- full_track.rs:308-310 `WelfordRolling::update` (external crate) -/
def Welford32.update (w : Welford32) (x : F32) : Welford32 :=
  let mean := w.mean.add ((x.sub w.mean).div (.of (w.n + 1 : ℕ)))
  ⟨w.n + 1, mean, w.s.add ((x.sub w.mean).mul (x.sub mean))⟩

/-- full_track.rs:308-310: the values given to the statistics one after the other; newest first. -/
def Welford32.ofList : List F32 → Welford32
  | [] => .empty
  | x :: xs => (Welford32.ofList xs).update x

/-- full_track.rs:229 `WelfordRolling::variance` (external crate) -/
def Welford32.variance (w : Welford32) : F32 := if w.n = 0 then .finite 0 else w.s.div (.of w.n)

/-- full_track.rs:215, 242 `WelfordRolling::last` (external crate): the standard deviation -/
def Welford32.last (sqrt : F32 → F32) (w : Welford32) : Option F32 :=
  if w.n = 0 then none else some (sqrt w.variance)

/-- full_track.rs:216, 231, 243 `== 0.0` -/
def F32.is0 : F32 → Bool
  | .finite v => decide (v = 0)
  | _ => false

/-- full_track.rs:230 `return_variance >= 0.0` -/
def F32.atLeast0 : F32 → Bool
  | .finite v => decide (0 ≤ v)
  | .inf n => !n
  | .nan => false

/-- full_track.rs:214-223 `sharpe` -/
def Returns32.sharpe (sqrt : F32 → F32) (r : Returns32) : Option F32 :=
  match (Welford32.ofList r.all).last sqrt with
  | none => none
  | some stdDev =>
    if stdDev.is0 = true then none else some ((Welford32.ofList r.all).mean.div stdDev)

/-- full_track.rs:227-237 `kelly_leverage`; `none` if the assertion on the variance fails. -/
def Returns32.kelly (r : Returns32) : Option F32 :=
  let w := Welford32.ofList r.all
  if w.variance.atLeast0 = false then none
  else if w.variance.is0 = true then some (.finite 0)
  else some (w.mean.div w.variance)

/-- full_track.rs:241-250 `sortino` -/
def Returns32.sortino (sqrt : F32 → F32) (r : Returns32) : Option F32 :=
  match (Welford32.ofList r.neg).last sqrt with
  | none => none
  | some stdDev =>
    if stdDev.is0 = true then none else some ((Welford32.ofList r.all).mean.div stdDev)

end Lfest
