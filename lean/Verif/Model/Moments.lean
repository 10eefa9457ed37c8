import Mathlib.Analysis.SpecialFunctions.Pow.Real

/-!
# Statistical moments (account_tracker/statistical_moments.rs)

Simplification: the code computes with `f64`, the model with real numbers. Division by zero is
NaN or infinity in the code and zero in Lean, so every theorem about a quotient assumes that its
divisor is not zero.
-/

namespace Lfest

/-- account_tracker/statistical_moments.rs:3-12 `StatisticalMoments` -/
structure StatisticalMoments where
  mean : ℝ
  stdDev : ℝ
  skew : ℝ
  excessKurtosis : ℝ

/-- account_tracker/statistical_moments.rs:15-34 `statistical_moments` -/
noncomputable def statisticalMoments (vals : List ℝ) : StatisticalMoments :=
  let mean := vals.sum / vals.length
  let n : ℝ := vals.length
  let variance := (vals.map fun v => (v - mean) ^ 2).sum / n
  let stdDev := Real.sqrt variance
  let skew := (1 / n) * (vals.map fun v => (v - mean) ^ 3).sum / variance ^ (1.5 : ℝ)
  let kurtosis := (1 / n) * (vals.map fun v => (v - mean) ^ 4).sum / variance ^ 2 - 3
  { mean, stdDev, skew, excessKurtosis := kurtosis }

end Lfest
