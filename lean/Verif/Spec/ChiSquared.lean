import Verif.Spec.GoodnessOfFit
import Verif.Base.XR
import Verif.Base.Res
import Mathlib.Probability.Distributions.Gaussian.Real
import Mathlib.Probability.Independence.Basic
import Mathlib.MeasureTheory.Constructions.Pi

/-!
# The chi-squared distribution and repeated draws
-/

namespace Dist.Spec

open MeasureTheory ProbabilityTheory

/-- The chi-squared distribution with `m` degrees of freedom: the law of the sum of the squares of
`m` independent standard normal variables. -/
noncomputable def chiSquared (m : ℕ) : Measure ℝ :=
  (Measure.pi fun _ : Fin m => gaussianReal 0 1).map fun z => ∑ i, z i ^ 2

/-- `x 0`, `x 1`, … are independent draws from the distribution `p` on `k` categories. -/
structure IidDraws {Ω : Type*} [MeasurableSpace Ω] (P : Measure Ω) {k : ℕ} (p : Fin k → ℝ)
    (x : ℕ → Ω → Fin k) : Prop where
  measurable : ∀ i, Measurable (x i)
  indep : iIndepFun x P
  law : ∀ i j, P (x i ⁻¹' {j}) = ENNReal.ofReal (p j)

/-- How often a test at the level `α` rejects: the probability that it returns a p-value of at most
`α`. -/
noncomputable def rejectionRate {Ω : Type*} [MeasurableSpace Ω] (P : Measure Ω)
    (test : Ω → Res (Option XR)) (α : ℝ) : ℝ :=
  P.real {ω | ∃ q : ℝ, q ≤ α ∧ test ω = .ok (some (XR.fin q))}

end Dist.Spec
