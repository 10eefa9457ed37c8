import Verif.SpecSample
import Verif.Model.DRatioF64

/-!
# What the discriminant ratio is about (C124)
-/

namespace Lfest.Spec

/-- The `f64` of the same value. -/
def sameValue : F32 → F64
  | .finite v => .finite v
  | .inf negative => .inf negative
  | .nan => .nan

/-- The returns between consecutive amounts, which are rounded to `f32` first. -/
def seenReturns (ln : F32 → F32) (toF64 : Int → ℚ) (amounts : List Int) : List F64 :=
  (changes amounts).map fun x => sameValue (ln ((F32.of (toF64 x.2)).div (F32.of (toF64 x.1))))

/-- More than `x`, as the comparison of `f64` has it. -/
def MoreThan (x : ℚ) : F64 → Prop
  | .finite v => x < v
  | .inf negative => negative = false
  | .nan => False

/-- Less than `x`. -/
def LessThan (x : ℚ) : F64 → Prop
  | .finite v => v < x
  | .inf negative => negative = true
  | .nan => False

/-- Mean and quantile of the returns of an account and of a market, all of them numbers, and the
quantiles not zero. -/
structure Figures (Q M : List F64 → F64) (user market : List F64) where
  userMean : ℚ
  userQuantile : ℚ
  marketMean : ℚ
  marketQuantile : ℚ
  user_mean : M user = .finite userMean
  user_quantile : Q user = .finite userQuantile
  market_mean : M market = .finite marketMean
  market_quantile : Q market = .finite marketQuantile
  user_risk : userQuantile ≠ 0
  market_risk : marketQuantile ≠ 0

/-- Return-to-VaR ratio of the account, without rounding. -/
def Figures.user {Q M user market} (f : Figures Q M user market) : ℚ :=
  f.userMean / |f.userQuantile|

/-- Return-to-VaR ratio of the market, without rounding. -/
def Figures.market {Q M user market} (f : Figures Q M user market) : ℚ :=
  f.marketMean / |f.marketQuantile|

/-- Neither ratio is huge, and that of the market is not tiny either. -/
def Figures.Moderate {Q M user market} (f : Figures Q M user market) : Prop :=
  |f.user| ≤ 2 ^ 100 ∧ 1 / 2 ^ 100 ≤ |f.market| ∧ |f.market| ≤ 2 ^ 100

end Lfest.Spec
