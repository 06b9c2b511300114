import Mathlib.LinearAlgebra.Matrix.PosDef
import Mathlib.Analysis.SpecialFunctions.Gamma.Basic
import Mathlib.Analysis.SpecialFunctions.Pow.Real
import Verif.Base.XR
import Verif.Model.NIW

/-! # Specification vocabulary for the multivariate normal feature -/

namespace Dist.Spec

open Matrix

/-- `det` and `inv` are the determinant and the inverse of matrices of numbers. -/
structure ExactLinAlg (la : NIW.LinAlg XR) : Prop where
  det : ∀ {d : Nat} (M : Matrix (Fin d) (Fin d) ℝ),
    la.det (fun i j => .fin (M i j)) = .fin M.det
  inv : ∀ {d : Nat} (M : Matrix (Fin d) (Fin d) ℝ), M.det ≠ 0 →
    la.inv (fun i j => .fin (M i j)) = fun i j => .fin (M⁻¹ i j)

/-- Density of the multivariate Student t distribution. -/
noncomputable def mvStudentT {d : Nat} (nu : ℝ) (mu : Fin d → ℝ)
    (sigma : Matrix (Fin d) (Fin d) ℝ) (x : Fin d → ℝ) : ℝ :=
  Real.Gamma ((nu + d) / 2) / (Real.Gamma (nu / 2) * (nu * Real.pi) ^ ((d : ℝ) / 2) *
    sigma.det ^ (1 / 2 : ℝ)) *
    (1 + (x - mu) ⬝ᵥ (sigma⁻¹ *ᵥ (x - mu)) / nu) ^ (-(nu + d) / 2)

/-- Sum of a list of vectors. -/
def vecSum {d : Nat} (xs : List (Fin d → ℝ)) : Fin d → ℝ := xs.sum

/-- Sum of the squares `x xᵀ` of a list of vectors. -/
def outerSum {d : Nat} (xs : List (Fin d → ℝ)) : Matrix (Fin d) (Fin d) ℝ :=
  (xs.map fun x => vecMulVec x x).sum

end Dist.Spec
