import Verif.Lemmas.RefNiwGroup

/-! # A normal vector over an independent chi variable -/

namespace Dist

open MeasureTheory ProbabilityTheory Real Spec Matrix

variable {σ : Type} [MeasurableSpace σ] {d : ℕ}

/-- The density of `z / √q` for standard normal `z`, given `q`. -/
theorem normal_scaled {q : ℝ} (hq : 0 < q) {f : (Fin d → ℝ) → ENNReal} (hf : Measurable f) :
    ∫⁻ z, f (fun i => z i / √q) ∂stdNormals d =
      ∫⁻ y, ENNReal.ofReal ((√(2 * π))⁻¹ ^ d * (q ^ ((d : ℝ) / 2) * exp (-((∑ i, y i ^ 2) / 2 * q)))) *
        f y := by
  have hs : 0 < √q := Real.sqrt_pos.2 hq
  set T : Matrix (Fin d) (Fin d) ℝ := (√q)⁻¹ • 1 with hT
  have hdet : T.det = (√q)⁻¹ ^ d := by rw [hT, det_smul, det_one, mul_one, Fintype.card_fin]
  have hinv : T⁻¹ = √q • 1 := by
    apply Matrix.inv_eq_left_inv
    rw [hT, smul_mul_smul_comm, mul_inv_cancel₀ hs.ne', one_smul, Matrix.one_mul]
  have h := stdNormals_image (T := T) (by rw [hdet]; positivity) hf
  have e1 : (fun z : Fin d → ℝ => f (T *ᵥ z)) = fun z => f (fun i => z i / √q) := by
    funext z
    congr 1
    funext i
    rw [hT, smul_mulVec, one_mulVec, Pi.smul_apply, smul_eq_mul, div_eq_inv_mul]
  rw [e1] at h
  rw [h]
  apply lintegral_congr
  intro y
  congr 2
  have e4 : √q ^ d = q ^ ((d : ℝ) / 2) := by
    rw [Real.sqrt_eq_rpow, ← Real.rpow_natCast, ← Real.rpow_mul hq.le]
    congr 1; ring
  rw [hdet, hinv, abs_of_pos (by positivity), ← inv_pow, inv_inv, e4, smul_mulVec, one_mulVec]
  unfold normDensity
  have e5 : ∑ i, (√q • y) i ^ 2 = q * ∑ i, y i ^ 2 := by
    rw [Finset.mul_sum]
    refine Finset.sum_congr rfl fun i _ => ?_
    rw [Pi.smul_apply, smul_eq_mul, mul_pow, Real.sq_sqrt hq.le]
  rw [e5, show -(q * ∑ i, y i ^ 2) / 2 = -((∑ i, y i ^ 2) / 2 * q) by ring]
  ring

/-- The density of `z / √q` with `q` chi-squared. -/
theorem normals_over_chi {k : ℝ} (hk : 0 < k) {f : (Fin d → ℝ) → ENNReal} (hf : Measurable f) :
    ∫⁻ q, ∫⁻ z, f (fun i => z i / √q) ∂stdNormals d ∂gammaMeasure (k / 2) (1 / 2) =
      ∫⁻ y, ENNReal.ofReal (bartDensity (k + d - 1) d y) * f y := by
  haveI := isProbabilityMeasure_gammaMeasure (a := k / 2) (r := 1 / 2) (by linarith) (by norm_num)
  have hm : Measurable fun p : ℝ × (Fin d → ℝ) => ENNReal.ofReal ((√(2 * π))⁻¹ ^ d *
      (p.1 ^ ((d : ℝ) / 2) * exp (-((∑ i, p.2 i ^ 2) / 2 * p.1)))) * f p.2 :=
    Measurable.mul (by fun_prop) (hf.comp measurable_snd)
  have e1 : ∫⁻ q, ∫⁻ z, f (fun i => z i / √q) ∂stdNormals d ∂gammaMeasure (k / 2) (1 / 2) =
      ∫⁻ q, ∫⁻ y : Fin d → ℝ, ENNReal.ofReal ((√(2 * π))⁻¹ ^ d *
        (q ^ ((d : ℝ) / 2) * exp (-((∑ i, y i ^ 2) / 2 * q)))) * f y ∂volume
          ∂gammaMeasure (k / 2) (1 / 2) := by
    apply lintegral_congr_ae
    filter_upwards [gamma_pos_ae _ _] with q hq
    exact normal_scaled hq hf
  rw [e1, lintegral_lintegral_swap hm.aemeasurable]
  apply lintegral_congr
  intro y
  have hS : 0 ≤ ∑ i, y i ^ 2 := Finset.sum_nonneg fun i _ => sq_nonneg _
  have h2 := gamma_moment (a := k / 2) (r := 1 / 2) (k := (d : ℝ) / 2) (t := (∑ i, y i ^ 2) / 2)
    (by linarith) (by norm_num) (by positivity) (by positivity)
  rw [lintegral_mul_const _ (by fun_prop)]
  congr 1
  have e2 : ∫⁻ q, ENNReal.ofReal ((√(2 * π))⁻¹ ^ d *
        (q ^ ((d : ℝ) / 2) * exp (-((∑ i, y i ^ 2) / 2 * q)))) ∂gammaMeasure (k / 2) (1 / 2) =
      ENNReal.ofReal ((√(2 * π))⁻¹ ^ d) * ∫⁻ q, ENNReal.ofReal
        (q ^ ((d : ℝ) / 2) * exp (-((∑ i, y i ^ 2) / 2 * q))) ∂gammaMeasure (k / 2) (1 / 2) := by
    rw [← lintegral_const_mul _ (by fun_prop)]
    apply lintegral_congr
    intro q
    rw [← ENNReal.ofReal_mul (by positivity)]
  rw [e2, h2, ← ENNReal.ofReal_mul (by positivity)]
  congr 1
  unfold bartDensity
  set S := ∑ i, y i ^ 2
  have p5 := Gamma_pos_of_pos (show 0 < k / 2 by linarith)
  have e3 : (√(2 * π))⁻¹ ^ d = (2 : ℝ) ^ (-((d : ℝ) / 2)) * (π ^ ((d : ℝ) / 2))⁻¹ := by
    rw [Real.sqrt_eq_rpow, ← Real.rpow_natCast, ← Real.rpow_neg (by positivity),
      ← Real.rpow_mul (by positivity), Real.mul_rpow (by norm_num) pi_pos.le,
      ← Real.rpow_neg pi_pos.le]
    congr 2 <;> ring
  have e4 : (1 / 2 : ℝ) ^ (k / 2) = (2 : ℝ) ^ (-(k / 2)) := by
    rw [Real.rpow_neg (by norm_num), one_div, Real.inv_rpow (by norm_num)]
  have e5 : (1 / 2 + S / 2) ^ (-(k / 2 + (d : ℝ) / 2)) =
      (1 + S) ^ (-(k / 2 + (d : ℝ) / 2)) * (2 : ℝ) ^ (k / 2 + (d : ℝ) / 2) := by
    rw [show 1 / 2 + S / 2 = (1 + S) / 2 by ring, Real.div_rpow (by positivity) (by norm_num),
      Real.rpow_neg (by norm_num : (0 : ℝ) ≤ 2), div_inv_eq_mul]
  have e6 : (2 : ℝ) ^ (-((d : ℝ) / 2)) * (2 : ℝ) ^ (-(k / 2)) * (2 : ℝ) ^ (k / 2 + (d : ℝ) / 2) = 1 := by
    rw [← Real.rpow_add (by norm_num), ← Real.rpow_add (by norm_num),
      show -((d : ℝ) / 2) + -(k / 2) + (k / 2 + (d : ℝ) / 2) = 0 by ring, Real.rpow_zero]
  rw [e3, e4, e5, show k + (d : ℝ) - 1 - d + 1 = k by ring,
    show (k + (d : ℝ) - 1 + 1) / 2 = k / 2 + d / 2 by ring,
    show -(k + (d : ℝ) - 1 + 1) / 2 = -(k / 2 + d / 2) by ring]
  have : 0 < π ^ ((d : ℝ) / 2) := by positivity
  calc _ = ((2 : ℝ) ^ (-((d : ℝ) / 2)) * (2 : ℝ) ^ (-(k / 2)) * (2 : ℝ) ^ (k / 2 + (d : ℝ) / 2)) *
      (Gamma (k / 2 + d / 2) / (Gamma (k / 2) * π ^ ((d : ℝ) / 2)) *
        (1 + S) ^ (-(k / 2 + (d : ℝ) / 2))) := by field_simp
    _ = _ := by rw [e6, one_mul]

/-- **The multivariate Student t law.** -/
theorem normals_over_chi_affine {k : ℝ} (hk : 0 < k) (mu : Fin d → ℝ)
    {S : Matrix (Fin d) (Fin d) ℝ} (hS : S.PosDef) {f : (Fin d → ℝ) → ENNReal} (hf : Measurable f) :
    ∫⁻ q, ∫⁻ z, f (fun i => mu i + (cholM S *ᵥ z) i / √q) ∂stdNormals d
        ∂gammaMeasure (k / 2) (1 / 2) =
      ∫⁻ v, ENNReal.ofReal (mvStudentT k mu ((1 / k) • S) v) * f v := by
  have hL := cholM_isChol hS.inv
  obtain ⟨hp, -⟩ := predMat_det hS hL.det_pos hL.mul one_pos
  set T := predMat (cholM S⁻¹) 1 with hT
  have hTT : cholM S * (cholM S)ᵀ = T * Tᵀ := by
    rw [(cholM_isChol hS).mul, hT]
    unfold predMat
    have : (cholM S⁻¹ * (cholM S⁻¹)ᵀ)⁻¹ = S := by
      rw [hL.mul, nonsing_inv_nonsing_inv _ (isUnit_iff_ne_zero.2 hS.det_pos.ne')]
    rw [Real.sqrt_one, one_smul, transpose_nonsing_inv, transpose_transpose, ← Matrix.mul_inv_rev,
      this]
  have hTm : Measurable fun y => T *ᵥ y := (matClm T).continuous.measurable
  have hTi : Measurable fun y => T⁻¹ *ᵥ y := (matClm T⁻¹).continuous.measurable
  have hCm : Measurable fun y => cholM S *ᵥ y := (matClm (cholM S)).continuous.measurable
  have hfm : Measurable fun v => f (mu + v) := hf.comp (measurable_const_add mu)
  have e0 : ∀ q : ℝ, ∫⁻ z, f (fun i => mu i + (cholM S *ᵥ z) i / √q) ∂stdNormals d =
      ∫⁻ z, f (mu + T *ᵥ fun i => z i / √q) ∂stdNormals d := by
    intro q
    have hg : Measurable fun y : Fin d → ℝ => f (fun i => mu i + y i / √q) := hf.comp (by fun_prop)
    have := stdNormals_map_eq hTT
    rw [← lintegral_map hg hCm, this, lintegral_map hg hTm]
    apply lintegral_congr
    intro z
    congr 1
    funext i
    rw [Pi.add_apply]
    congr 1
    simp only [mulVec, dotProduct, Finset.sum_div, mul_div_assoc]
  simp only [e0]
  rw [normals_over_chi hk (f := fun y => f (mu + T *ᵥ y)) (hfm.comp hTm)]
  have hbm := bartDensity_measurable (k + d - 1) d
  have hG : Measurable fun v => ENNReal.ofReal (bartDensity (k + d - 1) d (T⁻¹ *ᵥ v)) * f (mu + v) :=
    (hbm.comp hTi).ennreal_ofReal.mul hfm
  have h5 := lintegral_mulVec hp.ne' hG
  have h6 : ∀ y : Fin d → ℝ, T⁻¹ *ᵥ (T *ᵥ y) = y := fun y => by
    rw [mulVec_mulVec, Matrix.nonsing_inv_mul _ (isUnit_iff_ne_zero.2 hp.ne'), one_mulVec]
  simp only [h6] at h5
  rw [h5, ← lintegral_const_mul _ hG]
  have h7 := lintegral_sub_right_eq_self (μ := (volume : Measure (Fin d → ℝ)))
    (fun v => ENNReal.ofReal |T.det|⁻¹ *
      (ENNReal.ofReal (bartDensity (k + d - 1) d (T⁻¹ *ᵥ v)) * f (mu + v))) mu
  rw [← h7]
  apply lintegral_congr
  intro v
  have h8 := bartDensity_predMat hS hL.det_pos hL.mul one_pos (nu := k + d - 1) (by linarith) mu v
  rw [show k + (d : ℝ) - 1 - d + 1 = k by ring] at h8
  rw [← mul_assoc, ← ENNReal.ofReal_mul (by positivity), hT, h8, add_sub_cancel]

end Dist
