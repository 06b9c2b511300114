import Verif.Lemmas.NIWPredictive

/-! # Covariances built from a Gram matrix -/

namespace Dist

open MeasureTheory ProbabilityTheory Real Spec Matrix

variable {d : ℕ}

/-- The law of a linear image of standard normal variables depends on the covariance only. -/
theorem stdNormals_lintegral_eq {A B : Matrix (Fin d) (Fin d) ℝ} (h : A * Aᵀ = B * Bᵀ)
    {f : (Fin d → ℝ) → ENNReal} (hf : Measurable f) :
    ∫⁻ z, f (A *ᵥ z) ∂stdNormals d = ∫⁻ z, f (B *ᵥ z) ∂stdNormals d := by
  have := stdNormals_lintegral_add A (0 : Matrix (Fin d) (Fin d) ℝ) B (by simp [h]) hf
  simpa using this

/-- `Σ = C G⁻¹ Cᵀ`. -/
noncomputable def gramCov (C G : Matrix (Fin d) (Fin d) ℝ) : Matrix (Fin d) (Fin d) ℝ :=
  C * G⁻¹ * Cᵀ

theorem gramCov_posDef {C G : Matrix (Fin d) (Fin d) ℝ} (hC : C.det ≠ 0) (hG : G.PosDef) :
    (gramCov C G).PosDef := by
  have := (Matrix.IsUnit.posDef_star_right_conjugate_iff (U := C) (x := G⁻¹)
    ((Matrix.isUnit_iff_isUnit_det _).2 (isUnit_iff_ne_zero.2 hC))).2 hG.inv
  rwa [star_eq_conjTranspose, conjTranspose_eq_transpose_of_trivial] at this

end Dist
