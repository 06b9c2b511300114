import Mathlib.Data.Real.Basic

/-! # The spread of a sample -/

namespace Dist.Spec

/-- The number of values times their variance: the sum of the squared distances to the mean. -/
noncomputable def spread (vs : List ℝ) : ℝ :=
  (vs.map fun v => (v - vs.sum / vs.length) ^ 2).sum

/-- One and minus one, in turns. -/
def alternating (m : ℕ) : List ℝ := (List.replicate m [1, -1]).flatten

end Dist.Spec
