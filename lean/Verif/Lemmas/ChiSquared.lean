import Verif.Spec.ChiSquared
import Mathlib.Probability.Distributions.Gamma
import Mathlib.Probability.Moments.ComplexMGF
import Mathlib.Analysis.SpecialFunctions.Gaussian.GaussianIntegral
import Mathlib.Analysis.SpecialFunctions.ImproperIntegrals

/-!
# The chi-squared distribution is a gamma distribution
-/

namespace Dist.Spec

open MeasureTheory ProbabilityTheory Real Set

/-- The moment generating function of the square of a standard normal variable. -/
theorem mgf_sq_gaussian (t : ℝ) :
    ∫ z, exp (t * z ^ 2) ∂gaussianReal 0 1 = √(1 / (1 - 2 * t)) := by
  rw [integral_gaussianReal_eq_integral_smul one_ne_zero]
  have : ∀ z : ℝ, gaussianPDFReal 0 1 z • exp (t * z ^ 2) =
      (√(2 * π))⁻¹ * exp (-(1 / 2 - t) * z ^ 2) := by
    intro z
    rw [gaussianPDFReal, smul_eq_mul]
    simp only [NNReal.coe_one, mul_one, sub_zero]
    rw [mul_assoc, ← exp_add]
    congr 2
    ring
  simp only [this]
  rw [integral_const_mul, integral_gaussian, ← sqrt_inv, ← sqrt_mul (by positivity)]
  congr 1
  have hpi := pi_ne_zero
  rcases eq_or_ne t (1 / 2) with rfl | h
  · norm_num
  · have h1 : 1 - 2 * t ≠ 0 := by intro h'; apply h; linarith
    have h2 : 1 / 2 - t ≠ 0 := by intro h'; apply h; linarith
    field_simp

/-- The moment generating function of a gamma distribution. -/
theorem mgf_gamma {a r : ℝ} (ha : 0 < a) (hr : 0 < r) (t : ℝ) :
    ∫ x, exp (t * x) ∂gammaMeasure a r = if t < r then (r / (r - t)) ^ a else 0 := by
  have hg := Gamma_pos_of_pos ha
  have hm : Measurable (gammaPDF a r) := (measurable_gammaPDFReal a r).ennreal_ofReal
  have hfin : ∀ᵐ x : ℝ, gammaPDF a r x < ⊤ := .of_forall fun x => ENNReal.ofReal_lt_top
  rw [gammaMeasure, integral_withDensity_eq_integral_toReal_smul hm hfin]
  have h1 : ∀ x : ℝ, (gammaPDF a r x).toReal • exp (t * x) =
      (Ici (0 : ℝ)).indicator
        (fun x => r ^ a / Gamma a * (x ^ (a - 1) * exp (-((r - t) * x)))) x := by
    intro x
    rw [gammaPDF, smul_eq_mul, ENNReal.toReal_ofReal (gammaPDFReal_nonneg ha hr x), gammaPDFReal]
    by_cases hx : 0 ≤ x
    · rw [if_pos hx, indicator_of_mem (mem_Ici.2 hx), mul_assoc, mul_assoc, ← exp_add]
      congr 4
      ring
    · rw [if_neg hx, indicator_of_notMem (by simpa using hx), zero_mul]
  simp only [h1]
  rw [integral_indicator measurableSet_Ici, integral_Ici_eq_integral_Ioi, integral_const_mul]
  split_ifs with h
  · rw [integral_rpow_mul_exp_neg_mul_Ioi ha (by linarith), div_rpow hr.le (by linarith),
      div_rpow zero_le_one (by linarith), one_rpow]
    field_simp
  · rw [integral_undef, mul_zero]
    intro hi
    refine not_integrableOn_Ioi_rpow (a - 1) (Integrable.mono' hi (by fun_prop) ?_)
    refine (ae_restrict_iff' measurableSet_Ioi).2 (.of_forall fun x hx => ?_)
    have hx' : (0 : ℝ) < x := hx
    have h2 : 0 < x ^ (a - 1) := by positivity
    rw [norm_of_nonneg h2.le]
    refine le_mul_of_one_le_right h2.le (one_le_exp ?_)
    have : 0 ≤ (t - r) * x := mul_nonneg (by linarith) hx'.le
    linarith

instance (m : ℕ) : IsProbabilityMeasure (chiSquared m) := by
  unfold chiSquared
  exact Measure.isProbabilityMeasure_map (Measurable.aemeasurable (by fun_prop))

theorem mgf_chiSquared (m : ℕ) (t : ℝ) :
    ∫ x, exp (t * x) ∂chiSquared m = √(1 / (1 - 2 * t)) ^ m := by
  rw [chiSquared, integral_map (Measurable.aemeasurable (by fun_prop)) (by fun_prop)]
  simp only [Finset.mul_sum, exp_sum]
  rw [integral_fintype_prod_eq_pow (fun z : ℝ => exp (t * z ^ 2)), mgf_sq_gaussian]
  simp

/-- The sum of the squares of `m` independent standard normal variables has the gamma distribution
of shape `m / 2` and rate `1 / 2`. -/
theorem chiSquared_eq_gamma {m : ℕ} (hm : 0 < m) :
    chiSquared m = gammaMeasure (m / 2) (1 / 2) := by
  have hm' : (0 : ℝ) < m := by exact_mod_cast hm
  have hpm := isProbabilityMeasure_gammaMeasure (a := (m : ℝ) / 2) (r := 1 / 2) (by positivity)
    (by positivity)
  have hmgf : mgf id (chiSquared m) = mgf id (gammaMeasure (m / 2) (1 / 2)) := by
    funext t
    simp only [mgf, id]
    rw [mgf_chiSquared, mgf_gamma (by positivity) (by positivity)]
    split_ifs with h
    · have h1 : 0 < 1 - 2 * t := by linarith
      rw [show (1 : ℝ) / 2 / (1 / 2 - t) = 1 / (1 - 2 * t) by
        have : 1 / 2 - t ≠ 0 := by linarith
        field_simp, sqrt_eq_rpow, ← rpow_natCast, ← rpow_mul (by positivity)]
      congr 1
      ring
    · rw [sqrt_eq_zero_of_nonpos (one_div_nonpos.2 (by linarith)), zero_pow hm.ne']
  have hmem : (0 : ℝ) ∈ interior (integrableExpSet id (chiSquared m)) := by
    refine mem_interior.2 ⟨Iio (1 / 2), ?_, isOpen_Iio, by norm_num⟩
    intro t ht
    have h1 : 0 < 1 - 2 * t := by have := mem_Iio.1 ht; linarith
    rw [integrableExpSet, mem_setOf_eq, ← mgf_pos_iff]
    simp only [mgf, id]
    rw [mgf_chiSquared]
    positivity
  refine Measure.ext_of_charFun (funext fun t => ?_)
  rw [← complexMGF_id_mul_I, ← complexMGF_id_mul_I]
  exact eqOn_complexMGF_of_mgf hmgf (by simpa using hmem)

/-- No value has positive probability. -/
theorem chiSquared_singleton {m : ℕ} (hm : 0 < m) (c : ℝ) : chiSquared m {c} = 0 := by
  rw [chiSquared_eq_gamma hm, gammaMeasure]
  exact (withDensity_absolutelyContinuous _ _) (by simp)

/-- Every interval of positive numbers has positive probability. -/
theorem chiSquared_Ioo_pos {m : ℕ} (hm : 0 < m) {a b : ℝ} (ha : 0 ≤ a) (hab : a < b) :
    0 < chiSquared m (Ioo a b) := by
  have hm' : (0 : ℝ) < m := by exact_mod_cast hm
  rw [chiSquared_eq_gamma hm, gammaMeasure, withDensity_apply _ measurableSet_Ioo,
    setLIntegral_pos_iff (show Measurable (gammaPDF (m / 2) (1 / 2)) from
      (measurable_gammaPDFReal _ _).ennreal_ofReal)]
  refine lt_of_lt_of_le (b := volume (Ioo a b)) (by simpa using hab)
    (measure_mono fun x hx => ⟨?_, hx⟩)
  have hx0 : 0 < x := ha.trans_lt hx.1
  exact (ENNReal.ofReal_pos.2 (gammaPDFReal_pos (by positivity) (by norm_num) hx0)).ne'

end Dist.Spec
