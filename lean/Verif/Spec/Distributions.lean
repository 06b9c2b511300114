import Mathlib.Analysis.SpecialFunctions.Gamma.Basic
import Mathlib.Analysis.SpecialFunctions.Pow.Real
import Mathlib.Data.Nat.Choose.Basic

/-! # Textbook distributions -/

namespace Dist.Spec

/-- Negative binomial: the probability of `v` failures before the `a`-th success, each
with probability `p` (`a` real). -/
noncomputable def negBinomial (a p : ℝ) (v : ℕ) : ℝ :=
  Real.Gamma (a + v) / (Real.Gamma a * v.factorial) * (p ^ a * (1 - p) ^ v)

/-- Beta negative binomial: negative binomial with `r` successes, mixed over
`p ~ Beta(a, b)`. -/
noncomputable def betaNegBinomial (a b : ℝ) (r v : ℕ) : ℝ :=
  (v + r - 1).choose v *
    (Real.Gamma (a + r) * Real.Gamma (b + v) / Real.Gamma (a + r + (b + v)) /
      (Real.Gamma a * Real.Gamma b / Real.Gamma (a + b)))

/-- Density of the Student-t distribution with `dof` degrees of freedom, location `loc`
and squared scale `ssq`. -/
noncomputable def studentT (dof loc ssq x : ℝ) : ℝ :=
  Real.Gamma ((dof + 1) / 2) / (Real.Gamma (dof / 2) * √(dof * Real.pi * ssq)) *
    (1 + (x - loc) ^ 2 / (dof * ssq)) ^ (-(dof + 1) / 2)

end Dist.Spec
