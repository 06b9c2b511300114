import Mathlib.Analysis.SpecialFunctions.Gamma.Basic
import Mathlib.Analysis.SpecialFunctions.Pow.Real

/-! # Textbook special functions -/

namespace Dist.Spec

/-- The multivariate gamma function in its product form. -/
noncomputable def multiGamma (d : ℕ) (a : ℝ) : ℝ :=
  Real.pi ^ ((d * (d - 1) : ℝ) / 4) * ∏ j ∈ Finset.range d, Real.Gamma (a - j / 2)

end Dist.Spec
