import Mathlib.MeasureTheory.Measure.Lebesgue.Basic
import Verif.Lemmas.Bartlett
import Verif.Lemmas.Cholesky
import Verif.Spec.MvNormal

/-! # A normal vector with random mean and inverse Wishart covariance -/

namespace Dist

open MeasureTheory ProbabilityTheory Real Spec Matrix

variable {d : ℕ}

/-- The covariance made from Bartlett's matrix: `((L A) (L A)ᵀ)⁻¹`. -/
noncomputable def bartCov (L : Matrix (Fin d) (Fin d) ℝ) (c : Fin d → ℝ)
    (M : Fin d → Fin d → ℝ) : Matrix (Fin d) (Fin d) ℝ :=
  ((L * bart c M) * (L * bart c M)ᵀ)⁻¹

theorem bartCov_posDef {L : Matrix (Fin d) (Fin d) ℝ} (hL : L.det ≠ 0) {c : Fin d → ℝ}
    (hc : ∀ i, 0 < c i) {M : Fin d → Fin d → ℝ} (hM : ∀ i j, i < j → M i j = 0) :
    ((L * bart c M) * (L * bart c M)ᵀ).PosDef ∧ (bartCov L c M).PosDef := by
  have hdet : (L * bart c M).det ≠ 0 := by
    rw [det_mul, bart_det c M hM]
    exact mul_ne_zero hL (Finset.prod_pos fun i _ => hc i).ne'
  have := Matrix.PosDef.mul_conjTranspose_self (L * bart c M)
    (Matrix.vecMul_injective_of_isUnit
      ((Matrix.isUnit_iff_isUnit_det _).2 (isUnit_iff_ne_zero.2 hdet)))
  rw [conjTranspose_eq_transpose_of_trivial] at this
  exact ⟨this, this.inv⟩

/-- The matrix that turns Bartlett's solution into the value. -/
noncomputable def predMat (L : Matrix (Fin d) (Fin d) ℝ) (k : ℝ) : Matrix (Fin d) (Fin d) ℝ :=
  √k • (Lᵀ)⁻¹

theorem lintegral_two_normals {L : Matrix (Fin d) (Fin d) ℝ} (hL : L.det ≠ 0) {c : Fin d → ℝ}
    (hc : ∀ i, 0 < c i) {M : Fin d → Fin d → ℝ} (hM : ∀ i j, i < j → M i j = 0) {k₁ k₂ : ℝ}
    (h₁ : 0 < k₁) (h₂ : 0 < k₂) {f : (Fin d → ℝ) → ENNReal} (hf : Measurable f) :
    ∫⁻ x, ∫⁻ y, f (cholM (k₁ • bartCov L c M) *ᵥ x + cholM (k₂ • bartCov L c M) *ᵥ y)
      ∂stdNormals d ∂stdNormals d =
    ∫⁻ z, f (predMat L (k₁ + k₂) *ᵥ solveT d c M z) ∂stdNormals d := by
  obtain ⟨hpd, hcov⟩ := bartCov_posDef hL hc hM
  have c1 := cholM_isChol (hcov.smul h₁)
  have c2 := cholM_isChol (hcov.smul h₂)
  have hk : 0 < k₁ + k₂ := by positivity
  set X := L * bart c M with hX
  let R : Matrix (Fin d) (Fin d) ℝ := √(k₁ + k₂) • (Xᵀ)⁻¹
  let P : Matrix (Fin d) (Fin d) ℝ := cholM (k₁ • bartCov L c M)
  let Q : Matrix (Fin d) (Fin d) ℝ := cholM (k₂ • bartCov L c M)
  have hR : P * Pᵀ + Q * Qᵀ = R * Rᵀ := by
    have e1 := c1.mul
    have e2 := c2.mul
    refine (congrArg₂ (· + ·) e1 e2).trans ?_
    simp only [R, transpose_smul, smul_mul_smul_comm, Real.mul_self_sqrt hk.le]
    rw [← add_smul, transpose_nonsing_inv, transpose_transpose, ← Matrix.mul_inv_rev]
    rfl
  refine (stdNormals_lintegral_add P Q R hR hf).trans ?_
  apply lintegral_congr
  intro z
  have e : R *ᵥ z = predMat L (k₁ + k₂) *ᵥ solveT d c M z := by
    rw [← bart_inv_mulVec c (fun i => (hc i).ne') M hM, mulVec_mulVec]
    congr 1
    simp only [R, predMat, hX]
    rw [transpose_mul, Matrix.mul_inv_rev, smul_mul_assoc]
  rw [e]

/-- Linear change of variables. -/
theorem lintegral_mulVec {T : Matrix (Fin d) (Fin d) ℝ} (hT : T.det ≠ 0)
    {f : (Fin d → ℝ) → ENNReal} (hf : Measurable f) :
    ∫⁻ y, f (T *ᵥ y) = ENNReal.ofReal |T.det|⁻¹ * ∫⁻ y, f y := by
  have h := Real.map_matrix_volume_pi_eq_smul_volume_pi hT
  have hm : Measurable fun y => T *ᵥ y := (matClm T).continuous.measurable
  have e : (fun y => T *ᵥ y) = ⇑(toLin' T) := by funext y; rfl
  rw [← lintegral_map hf hm, e, h, lintegral_smul_measure, smul_eq_mul, abs_inv]

theorem quad_transpose (T : Matrix (Fin d) (Fin d) ℝ) (w : Fin d → ℝ) :
    ∑ i, (T *ᵥ w) i ^ 2 = w ⬝ᵥ ((Tᵀ * T) *ᵥ w) := by
  rw [← mulVec_mulVec, dotProduct_mulVec, ← mulVec_transpose, transpose_transpose, dotProduct]
  exact Finset.sum_congr rfl fun i _ => by ring

theorem predMat_det {psi L : Matrix (Fin d) (Fin d) ℝ} (hpsi : psi.PosDef)
    (hLd : 0 < L.det) (hm : L * Lᵀ = psi⁻¹) {k : ℝ} (hk : 0 < k) :
    0 < (predMat L k).det ∧ (predMat L k).det = k ^ ((d : ℝ) / 2) * psi.det ^ (1 / 2 : ℝ) := by
  have hd := hpsi.det_pos
  have e : (predMat L k).det = √k ^ d * (L.det)⁻¹ := by
    unfold predMat
    rw [det_smul, Fintype.card_fin, det_nonsing_inv, det_transpose, Ring.inverse_eq_inv']
  have e2 : L.det * L.det = (psi.det)⁻¹ := by
    have := congrArg det hm
    rwa [det_mul, det_transpose, det_nonsing_inv, Ring.inverse_eq_inv'] at this
  have e3 : (L.det)⁻¹ = psi.det ^ (1 / 2 : ℝ) := by
    rw [← Real.sqrt_eq_rpow]
    symm
    rw [Real.sqrt_eq_iff_mul_self_eq hd.le (by positivity), ← mul_inv, e2, inv_inv]
  have e4 : √k ^ d = k ^ ((d : ℝ) / 2) := by
    rw [Real.sqrt_eq_rpow, ← Real.rpow_natCast, ← Real.rpow_mul hk.le]
    congr 1; ring
  refine ⟨?_, by rw [e, e3, e4]⟩
  rw [e]; positivity

theorem predMat_quad {psi L : Matrix (Fin d) (Fin d) ℝ} (hpsi : psi.PosDef)
    (hLd : 0 < L.det) (hm : L * Lᵀ = psi⁻¹) {k : ℝ} (hk : 0 < k) (w : Fin d → ℝ) :
    ∑ i, ((predMat L k)⁻¹ *ᵥ w) i ^ 2 = (w ⬝ᵥ (psi⁻¹ *ᵥ w)) / k := by
  have hLu : IsUnit (Lᵀ)⁻¹.det := by
    rw [det_nonsing_inv, det_transpose, Ring.inverse_eq_inv', isUnit_iff_ne_zero]
    exact inv_ne_zero hLd.ne'
  have hLu2 : IsUnit (Lᵀ).det := by
    rw [det_transpose, isUnit_iff_ne_zero]; exact hLd.ne'
  have hs : √k ≠ 0 := (Real.sqrt_pos.2 hk).ne'
  have e : (predMat L k)⁻¹ = (√k)⁻¹ • Lᵀ := by
    apply Matrix.inv_eq_left_inv
    unfold predMat
    rw [smul_mul_smul_comm, inv_mul_cancel₀ hs, one_smul, Matrix.mul_nonsing_inv _ hLu2]
  rw [quad_transpose, e, transpose_smul, transpose_transpose, smul_mul_smul_comm, hm,
    ← mul_inv, Real.mul_self_sqrt hk.le, smul_mulVec, dotProduct_smul, smul_eq_mul]
  field_simp

theorem bartDensity_predMat {psi L : Matrix (Fin d) (Fin d) ℝ} (hpsi : psi.PosDef)
    (hLd : 0 < L.det) (hm : L * Lᵀ = psi⁻¹) {k nu : ℝ} (hk : 0 < k) (hnu : (d : ℝ) - 1 < nu) (mu v : Fin d → ℝ) :
    |(predMat L k).det|⁻¹ * bartDensity nu d ((predMat L k)⁻¹ *ᵥ (v - mu)) =
      mvStudentT (nu - d + 1) mu ((k / (nu - d + 1)) • psi) v := by
  obtain ⟨hp, hdet⟩ := predMat_det hpsi hLd hm hk
  have hdof : 0 < nu - d + 1 := by linarith
  have hd := hpsi.det_pos
  have hq : 0 ≤ (v - mu) ⬝ᵥ (psi⁻¹ *ᵥ (v - mu)) := by
    have := hpsi.inv.posSemidef.dotProduct_mulVec_nonneg (v - mu)
    simpa using this
  have hc : 0 < k / (nu - d + 1) := by positivity
  have e1 : ((k / (nu - d + 1)) • psi)⁻¹ = (k / (nu - d + 1))⁻¹ • psi⁻¹ := by
    apply Matrix.inv_eq_left_inv
    rw [smul_mul_smul_comm, inv_mul_cancel₀ hc.ne', one_smul,
      Matrix.nonsing_inv_mul _ (isUnit_iff_ne_zero.2 hd.ne')]
  unfold bartDensity mvStudentT
  rw [predMat_quad hpsi hLd hm hk, abs_of_pos hp, hdet, e1, smul_mulVec, dotProduct_smul, smul_eq_mul,
    det_smul, Fintype.card_fin]
  have e2 : (k / (nu - d + 1))⁻¹ * ((v - mu) ⬝ᵥ (psi⁻¹ *ᵥ (v - mu))) / (nu - d + 1) =
      ((v - mu) ⬝ᵥ (psi⁻¹ *ᵥ (v - mu))) / k := by
    field_simp
  have e3 : ((nu - d + 1) * π) ^ ((d : ℝ) / 2) =
      (nu - d + 1) ^ ((d : ℝ) / 2) * π ^ ((d : ℝ) / 2) := Real.mul_rpow hdof.le pi_pos.le
  have e4 : ((k / (nu - d + 1)) ^ d * psi.det) ^ (1 / 2 : ℝ) =
      k ^ ((d : ℝ) / 2) / (nu - d + 1) ^ ((d : ℝ) / 2) * psi.det ^ (1 / 2 : ℝ) := by
    rw [Real.mul_rpow (by positivity) hd.le, ← Real.rpow_natCast, ← Real.rpow_mul hc.le,
      Real.div_rpow hk.le hdof.le, show (d : ℝ) * (1 / 2) = d / 2 by ring]
  rw [e2, e3, e4, show nu - (d : ℝ) + 1 + d = nu + 1 by ring]
  have p1 := Real.rpow_pos_of_pos hdof ((d : ℝ) / 2)
  have p2 := Real.rpow_pos_of_pos pi_pos ((d : ℝ) / 2)
  have p3 := Real.rpow_pos_of_pos hk ((d : ℝ) / 2)
  have p4 := Real.rpow_pos_of_pos hd (1 / 2)
  have p5 := Gamma_pos_of_pos (show 0 < (nu - d + 1) / 2 by linarith)
  field_simp

/-- **The predictive law.** A normal vector whose mean is normal around `mu` with covariance
`k₁ Σ` and whose own covariance is `k₂ Σ`, where `Σ` is inverse Wishart with `nu` degrees of
freedom and scale `psi` in Bartlett's construction. -/
theorem niw_predictive {psi L : Matrix (Fin d) (Fin d) ℝ} (hpsi : psi.PosDef)
    (hL : IsChol psi⁻¹ L) {k₁ k₂ nu : ℝ} (h₁ : 0 < k₁) (h₂ : 0 < k₂) (hnu : (d : ℝ) - 1 < nu)
    (mu : Fin d → ℝ) {f : (Fin d → ℝ) → ENNReal} (hf : Measurable f) :
    ∫⁻ c, ∫⁻ M, ∫⁻ x, ∫⁻ y, f (mu + cholM (k₁ • bartCov L c M) *ᵥ x +
        cholM (k₂ • bartCov L c M) *ᵥ y) ∂stdNormals d ∂stdNormals d ∂lowLaw d ∂chiLaw nu d =
      ∫⁻ v, ENNReal.ofReal (mvStudentT (nu - d + 1) mu (((k₁ + k₂) / (nu - d + 1)) • psi) v) *
        f v := by
  have hk : 0 < k₁ + k₂ := by positivity
  obtain ⟨hp, -⟩ := predMat_det hpsi hL.det_pos hL.mul hk
  set T := predMat L (k₁ + k₂) with hT
  have hTm : Measurable fun y => T *ᵥ y := (matClm T).continuous.measurable
  have hTi : Measurable fun y => T⁻¹ *ᵥ y := (matClm T⁻¹).continuous.measurable
  have hfm : Measurable fun v => f (mu + v) := hf.comp (measurable_const_add mu)
  have e1 : ∫⁻ c, ∫⁻ M, ∫⁻ x, ∫⁻ y, f (mu + cholM (k₁ • bartCov L c M) *ᵥ x +
        cholM (k₂ • bartCov L c M) *ᵥ y) ∂stdNormals d ∂stdNormals d ∂lowLaw d ∂chiLaw nu d =
      ∫⁻ c, ∫⁻ M, ∫⁻ z, f (mu + T *ᵥ solveT d c M z) ∂stdNormals d ∂lowLaw d ∂chiLaw nu d := by
    apply lintegral_congr_ae
    filter_upwards [chiLaw_pos d hnu] with c hc
    apply lintegral_congr_ae
    filter_upwards [lowLaw_lower d] with M hM
    have := lintegral_two_normals hL.det_pos.ne' hc hM h₁ h₂ hfm
    rw [← this]
    apply lintegral_congr
    intro x
    apply lintegral_congr
    intro y
    rw [add_assoc]
  rw [e1, bartlett d hnu (h := fun y => f (mu + T *ᵥ y)) (hfm.comp hTm)]
  have hbm := bartDensity_measurable nu d
  have hG : Measurable fun v => ENNReal.ofReal (bartDensity nu d (T⁻¹ *ᵥ v)) * f (mu + v) :=
    (hbm.comp hTi).ennreal_ofReal.mul hfm
  have h5 := lintegral_mulVec hp.ne' hG
  have h6 : ∀ y : Fin d → ℝ, T⁻¹ *ᵥ (T *ᵥ y) = y := fun y => by
    rw [mulVec_mulVec, Matrix.nonsing_inv_mul _ (isUnit_iff_ne_zero.2 hp.ne'), one_mulVec]
  simp only [h6] at h5
  rw [h5, ← lintegral_const_mul _ hG]
  have h7 := lintegral_sub_right_eq_self (μ := (volume : Measure (Fin d → ℝ)))
    (fun v => ENNReal.ofReal |T.det|⁻¹ *
      (ENNReal.ofReal (bartDensity nu d (T⁻¹ *ᵥ v)) * f (mu + v))) mu
  rw [← h7]
  apply lintegral_congr
  intro v
  rw [← mul_assoc, ← ENNReal.ofReal_mul (by positivity), hT,
    bartDensity_predMat hpsi hL.det_pos hL.mul hk hnu, add_sub_cancel]

end Dist
