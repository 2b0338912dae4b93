import Mathlib.Probability.Independence.Basic
import Mathlib.MeasureTheory.MeasurableSpace.Instances
import Mathlib.Analysis.SpecialFunctions.Exp

/-!
# Random noise

What is assumed of the normal numbers that the key generation draws.
-/

namespace GoTfhe

open MeasureTheory ProbabilityTheory

/-- `q` is a family of independent noise draws with standard deviations at most `σ`: each has a symmetric law, and its
exponential moments are at most those of a normal variable with standard deviation `σ i`. Normal variables have these
properties, and so have normal variables rounded towards zero to any grid. -/
structure NoiseDraws {ι Ω : Type*} [MeasurableSpace Ω] (μ : Measure Ω) (q : ι → Ω → ℚ) (σ : ι → ℝ) : Prop where
  measurable : ∀ i, Measurable (q i)
  indep : iIndepFun q μ
  symm : ∀ i, μ.map (q i) = μ.map fun ω => -q i ω
  mgf : ∀ i (t : ℝ), ∫⁻ ω, ENNReal.ofReal (Real.exp (t * q i ω)) ∂μ ≤ ENNReal.ofReal (Real.exp (t ^ 2 * σ i ^ 2 / 2))

end GoTfhe
