import Mathlib.Data.Real.Basic
import Mathlib.Algebra.BigOperators.Fin

/-! # Pixels -/

namespace Dist.Spec

variable {h w : ℕ}

/-- The value of the brightest pixel. -/
def brightest (image : Fin h → Fin w → ℕ) : ℕ := Finset.univ.sup fun p : Fin h × Fin w => image p.1 p.2

/-- How much darker a pixel is than the brightest one. -/
def dark (image : Fin h → Fin w → ℕ) (p : Fin h × Fin w) : ℝ := brightest image - image p.1 p.2

/-- The coordinate of place `i` of `n` places that are spread evenly from `-1` to `1`. -/
noncomputable def coordinate (n i : ℕ) : ℝ := 2 * i / (n - 1) - 1

end Dist.Spec
