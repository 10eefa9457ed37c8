import Verif.Model.Single

/-!
# Sampled returns in `f32` arithmetic (account_tracker/full_track.rs)

The balances are rounded to `f32` before their returns are taken. `LnReturn` and `WelfordRolling`
come from the crate `sliding_features`, whose source is not part of the repository: `LnReturn` is
modelled by a function `ln` applied to the `f32` quotient of consecutive values, and instead of the
statistics the model keeps the values they are given.
-/

namespace Lfest

/-- full_track.rs:66, 69, 70: the last sampled balance (inside `LnReturn`), the returns given to the
statistics of all returns, and those given to the statistics of the negative ones, newest first. -/
structure Returns32 where
  prev : Option F32
  all : List F32
  neg : List F32

/-- full_track.rs:121-125 -/
def Returns32.empty : Returns32 := ⟨none, [], []⟩

/-- full_track.rs:309 `ln_ret < 0.0` -/
def F32.below0 : F32 → Bool
  | .finite v => decide (v < 0)
  | .inf n => n
  | .nan => false

/-- full_track.rs:303-311 `sample_user_balances`. The first sample yields no return. -/
def Returns32.sample (ln : F32 → F32) (r : Returns32) (balance : F32) : Returns32 :=
  match r.prev with
  | none => { r with prev := some balance }
  | some p =>
    let ret := ln (balance.div p)
    { prev := some balance
      all := ret :: r.all
      neg := if ret.below0 = true then ret :: r.neg else r.neg }

/-- full_track.rs:97 `new`, then the samples in the order of the record (newest first).
`Into::<f64>` of a `Decimal` (303) belongs to an external crate: `toF64` takes the raw integer to the
value of the `f64`. -/
def Returns32.replay (ln : F32 → F32) (toF64 : Int → ℚ) : List Event → Returns32
  | [] => .empty
  | .sample b _ :: evs => (Returns32.replay ln toF64 evs).sample ln (.of (toF64 b.sum))
  | _ :: evs => Returns32.replay ln toF64 evs

end Lfest
