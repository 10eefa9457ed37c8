import Verif.Model.Sample32
import Verif.Model.MomentsF64

/-!
# The discriminant ratio in floating point (account_tracker/full_track.rs, feature "quantiles")

Balances and mid prices are rounded to `f32`, and so are their returns, as in `Model/Sample32.lean`.
The ratio is computed in `f64`. The crate `quantogram`, whose source is not part of the repository,
keeps a histogram: here the values that were added are kept, and its quantile and its mean are
arbitrary functions of them, absent if nothing was added.
-/

namespace Lfest

/-- `as f64` of an `f32`, full_track.rs:313 and 321: every `f32` is an `f64`. -/
def F32.widen : F32 → F64
  | .finite v => .finite v
  | .inf n => .inf n
  | .nan => .nan

/-- `f64::abs`, full_track.rs:266, 267 and 269. -/
def F64.abs : F64 → F64
  | .finite v => .finite |v|
  | .inf _ => .inf false
  | .nan => .nan

/-- full_track.rs:66, 75-85: the last sampled balance and mid price (inside the two `LnReturn`), and
the values added to the two histograms, oldest first. -/
structure QuantilesF64 where
  prevUser : Option F32
  user : List F64
  prevMid : Option F32
  market : List F64

/-- full_track.rs:121, 129-140 -/
def QuantilesF64.empty : QuantilesF64 := ⟨none, [], none, []⟩

/-- full_track.rs:303-324 `sample_user_balances`, the part on quantiles. The first sample yields no
returns. -/
def QuantilesF64.sample (ln : F32 → F32) (x : QuantilesF64) (balance mid : F32) : QuantilesF64 :=
  { prevUser := some balance
    user := match x.prevUser with
      | none => x.user
      | some p => x.user ++ [(ln (balance.div p)).widen]
    prevMid := some mid
    market := match x.prevMid with
      | none => x.market
      | some p => x.market ++ [(ln (mid.div p)).widen] }

/-- full_track.rs:97 `new`, then the samples in the order of the record (newest first). The
conversions `Into::<f64>` (303) and `to_f64` (318) of a `Decimal` belong to an external crate:
`balF64` and `midF64` take the raw integer to the value of the `f64`. -/
def QuantilesF64.replay (ln : F32 → F32) (balF64 midF64 : Int → ℚ) : List Event → QuantilesF64
  | [] => .empty
  | .sample b mid :: evs =>
    (QuantilesF64.replay ln balF64 midF64 evs).sample ln (.of (balF64 b.sum)) (.of (midF64 mid))
  | _ :: evs => QuantilesF64.replay ln balF64 midF64 evs

/-- full_track.rs:258-264 `Quantogram::quantile` and `Quantogram::mean` (external crate): absent if
nothing was added. -/
def histogram (f : List F64 → F64) (l : List F64) : Option F64 := if l = [] then none else some (f l)

/-- full_track.rs:257-270 `d_ratio`: `Q` estimates the quantile and `M` the mean. -/
def QuantilesF64.dRatio (Q M : List F64 → F64) (x : QuantilesF64) : Option F64 := do
  let marketQuantile ← histogram Q x.market
  let userQuantile ← histogram Q x.user
  let marketMean ← histogram M x.market
  let userMean ← histogram M x.user
  let rtvAlgo := userMean.div userQuantile.abs
  let rtvBnh := marketMean.div marketQuantile.abs
  some ((F64.finite 1).add ((rtvAlgo.sub rtvBnh).div rtvBnh.abs))

end Lfest
