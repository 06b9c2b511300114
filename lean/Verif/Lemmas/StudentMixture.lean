import Mathlib.Probability.Distributions.Gaussian.Real
import Verif.Lemmas.GammaMoments
import Verif.Spec.Distributions

/-! # The Student-t distribution as a mixture of normal distributions -/

namespace Dist

open MeasureTheory ProbabilityTheory Real Set Spec

/-- A normal variable whose mean is normal. -/
theorem gaussian_mix (m : ℝ) (v w : NNReal) {A : Set ℝ} (hA : MeasurableSet A) :
    ∫⁻ y, gaussianReal y w A ∂gaussianReal m v = gaussianReal m (v + w) A := by
  have h := gaussianReal_conv_gaussianReal (m₁ := m) (m₂ := 0) (v₁ := v) (v₂ := w)
  rw [add_zero] at h
  have hm : MeasurableSet ((fun x : ℝ × ℝ => x.1 + x.2) ⁻¹' A) :=
    (measurable_fst.add measurable_snd) hA
  rw [← h, Measure.conv, Measure.map_apply (by fun_prop) hA, Measure.prod_apply hm]
  apply lintegral_congr
  intro y
  have h2 := gaussianReal_map_const_add (μ := 0) (v := w) y
  rw [zero_add] at h2
  rw [← h2, Measure.map_apply (by fun_prop) hA]
  rfl

/-- A normal variable whose precision is chi-square distributed. -/
theorem student_mix {nu w : ℝ} (hn : 0 < nu) (hw : 0 < w) (m : ℝ) {A : Set ℝ}
    (hA : MeasurableSet A) :
    ∫⁻ c, gaussianReal m (w / c).toNNReal A ∂gammaMeasure (nu / 2) (1 / 2) =
      ∫⁻ x in A, ENNReal.ofReal (studentT nu m (w / nu) x) := by
  have hn2 : 0 < nu / 2 := by linarith
  haveI := isProbabilityMeasure_gammaMeasure hn2 (by norm_num : (0:ℝ) < 1 / 2)
  have e : ∀ᵐ c ∂gammaMeasure (nu / 2) (1 / 2), gaussianReal m (w / c).toNNReal A =
      ∫⁻ x in A, ENNReal.ofReal ((√(2 * π * w))⁻¹) *
        ENNReal.ofReal (c ^ (1 / 2 : ℝ) * exp (-((x - m) ^ 2 / (2 * w) * c))) := by
    filter_upwards [gamma_pos_ae _ _] with c hc
    have hwc : 0 < w / c := by positivity
    rw [gaussianReal_apply m (by simpa using hwc)]
    apply lintegral_congr
    intro x
    rw [gaussianPDF, gaussianPDFReal, Real.coe_toNNReal _ hwc.le,
      ← ENNReal.ofReal_mul (by positivity), ← mul_assoc]
    congr 2
    · rw [← Real.sqrt_eq_rpow, mul_div_assoc', Real.sqrt_div (by positivity)]
      field_simp
    · congr 1
      field_simp
  rw [lintegral_congr_ae e, lintegral_lintegral_swap (by fun_prop)]
  apply lintegral_congr
  intro x
  have ht : 0 ≤ (x - m) ^ 2 / (2 * w) := by positivity
  rw [lintegral_const_mul _ (by fun_prop), gamma_moment hn2 (by norm_num) (by linarith)
    (by linarith), ← ENNReal.ofReal_mul (by positivity)]
  congr 1
  unfold studentT
  rw [show nu / 2 + 1 / 2 = (nu + 1) / 2 by ring]
  have e1 : nu * π * (w / nu) = π * w := by field_simp
  have e2 : nu * (w / nu) = w := by field_simp
  rw [e1, e2]
  have hq : 0 < 1 + (x - m) ^ 2 / w := by positivity
  have e3 : (1 / 2 : ℝ) + (x - m) ^ 2 / (2 * w) = (1 / 2) * (1 + (x - m) ^ 2 / w) := by
    field_simp
  have e4 : √(2 * π * w) = √2 * √(π * w) := by
    rw [mul_assoc, Real.sqrt_mul (by norm_num)]
  have e5 : (1 / 2 : ℝ) ^ (-((nu + 1) / 2)) = (1 / 2) ^ (-(nu / 2)) * √2 := by
    rw [show -((nu + 1) / 2) = -(nu / 2) + -(1 / 2) by ring, Real.rpow_add (by norm_num)]
    congr 1
    rw [Real.rpow_neg (by norm_num), ← Real.sqrt_eq_rpow, one_div, Real.sqrt_inv, inv_inv]
  have e6 : (1 / 2 : ℝ) ^ (nu / 2) * (1 / 2) ^ (-(nu / 2)) = 1 := by
    rw [← Real.rpow_add (by norm_num)]; simp
  rw [e3, Real.mul_rpow (by norm_num) hq.le, e4, e5, show -(nu + 1) / 2 = -((nu + 1) / 2) by ring]
  have hs2 : 0 < √2 := by positivity
  have hpw : 0 < √(π * w) := by positivity
  have hG := Gamma_pos_of_pos hn2
  have : (√2 * √(π * w))⁻¹ * ((1 / 2) ^ (nu / 2) / Gamma (nu / 2) * Gamma ((nu + 1) / 2) *
      ((1 / 2) ^ (-(nu / 2)) * √2 * (1 + (x - m) ^ 2 / w) ^ (-((nu + 1) / 2)))) =
      ((1 / 2 : ℝ) ^ (nu / 2) * (1 / 2) ^ (-(nu / 2))) * (Gamma ((nu + 1) / 2) /
        (Gamma (nu / 2) * √(π * w)) * (1 + (x - m) ^ 2 / w) ^ (-((nu + 1) / 2))) := by
    field_simp
  rw [this, e6, one_mul]

end Dist
