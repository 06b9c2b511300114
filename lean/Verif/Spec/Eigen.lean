import Verif.Spec.MvNormal
import Verif.Model.NIWSample

/-! # What Eigen's decompositions are trusted to compute -/

namespace Dist.Spec

open Matrix

/-- `det` and `inv` are exact, and `LLT` of a positive definite matrix succeeds with its Cholesky
factor: lower triangular, positive on the diagonal, and a factor of the matrix. -/
structure ExactEigen (e : NIW.Eigen XR) : Prop extends ExactLinAlg e.toLinAlg where
  llt : ∀ {d : Nat} (M : Matrix (Fin d) (Fin d) ℝ), M.PosDef →
    ∃ L : Matrix (Fin d) (Fin d) ℝ, (∀ i j, i < j → L i j = 0) ∧ (∀ i, 0 < L i i) ∧
      L * Lᵀ = M ∧ e.llt (fun i j => .fin (M i j)) = some fun i j => .fin (L i j)

end Dist.Spec
