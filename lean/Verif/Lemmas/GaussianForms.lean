import Verif.Lemmas.ChiSquaredTail
import Verif.Lemmas.GammaMoments

/-!
# Sums of squares of linear forms in independent normal variables
-/

namespace Dist.Spec

open MeasureTheory ProbabilityTheory Filter Set WithLp
open scoped Topology RealInnerProductSpace

/-- The second moment of the chi-squared distribution with one degree of freedom. -/
theorem integral_pow_four : ∫ z : ℝ, z ^ 4 ∂gaussianReal 0 1 = 3 := by
  have h := gamma_moment (a := 1 / 2) (r := 1 / 2) (k := 2) (t := 0) (by norm_num) (by norm_num)
    (by norm_num) (by norm_num)
  have e : gammaMeasure (1 / 2) (1 / 2) = chiSquared 1 := by
    rw [chiSquared_eq_gamma one_pos]; norm_num
  rw [e] at h
  have hv : (1 / 2 : ℝ) ^ (1 / 2 : ℝ) / Real.Gamma (1 / 2) * Real.Gamma (1 / 2 + 2) *
      (1 / 2 + 0) ^ (-(1 / 2 + 2 : ℝ)) = 3 := by
    have hg := Real.Gamma_pos_of_pos (show (0 : ℝ) < 1 / 2 by norm_num)
    have h2 : (0 : ℝ) < (1 / 2) ^ (1 / 2 : ℝ) := by positivity
    rw [show (1 / 2 + 2 : ℝ) = (1 / 2 + 1) + 1 by norm_num, Real.Gamma_add_one (by norm_num),
      Real.Gamma_add_one (by norm_num), add_zero, Real.rpow_neg (by norm_num),
      Real.rpow_add (by norm_num), Real.rpow_add (by norm_num), Real.rpow_one]
    field_simp
    norm_num
  rw [hv] at h
  have h3 : ∫ x, x ^ 2 ∂chiSquared 1 = 3 := by
    rw [integral_eq_lintegral_of_nonneg_ae (.of_forall fun x => sq_nonneg x) (by fun_prop)]
    have : ∫⁻ x, ENNReal.ofReal (x ^ 2) ∂chiSquared 1 = ENNReal.ofReal 3 := by
      rw [← h]
      simp
    rw [this, ENNReal.toReal_ofReal (by norm_num)]
  have hmp := (measurePreserving_eval (fun _ : Fin 1 => gaussianReal 0 1) 0).map_eq
  rw [chiSquared, integral_map (Measurable.aemeasurable (by fun_prop)) (by fun_prop)] at h3
  rw [← hmp, integral_map (Measurable.aemeasurable (by fun_prop)) (by fun_prop), ← h3]
  refine integral_congr_ae (.of_forall fun z => ?_)
  simp
  ring

variable {E : Type*} [NormedAddCommGroup E] [InnerProductSpace ℝ E] [FiniteDimensional ℝ E]
  [MeasurableSpace E] [BorelSpace E]

theorem law_inner (a : E) :
    (stdGaussian E).map (fun z => ⟪a, z⟫) = (gaussianReal 0 1).map (fun y => ‖a‖ * y) := by
  have hp1 : IsProbabilityMeasure ((stdGaussian E).map (fun z => ⟪a, z⟫)) :=
    Measure.isProbabilityMeasure_map (by fun_prop)
  have hp2 : IsProbabilityMeasure ((gaussianReal 0 1).map (fun y => ‖a‖ * y)) :=
    Measure.isProbabilityMeasure_map (by fun_prop)
  refine Measure.ext_of_charFun (funext fun t => ?_)
  rw [gaussianReal_map_const_mul, charFun_gaussianReal, charFun_apply_real,
    integral_map (by fun_prop) (by fun_prop)]
  have h := charFun_stdGaussian (t • a)
  rw [charFun_apply] at h
  simp only [inner_smul_right] at h
  simp only [real_inner_comm a] at h ⊢
  rw [show (fun x => Complex.exp (t * ⟪a, x⟫ * Complex.I)) =
    fun x => Complex.exp (((t * ⟪a, x⟫ : ℝ) : ℂ) * Complex.I) by funext x; push_cast; rfl, h]
  congr 1
  rw [norm_smul]
  push_cast
  simp [mul_pow]
  ring_nf
  rw [← Complex.ofReal_pow, sq_abs]
  push_cast
  ring

theorem integrable_inner_pow (a : E) (m : ℕ) :
    Integrable (fun z => ⟪a, z⟫ ^ m) (stdGaussian E) := by
  have h : Integrable (fun y : ℝ => y ^ m) ((stdGaussian E).map fun z => ⟪a, z⟫) := by
    rw [law_inner, gaussianReal_map_const_mul]
    have := (memLp_id_gaussianReal' (μ := ‖a‖ * 0) (v := .mk (‖a‖ ^ 2) (sq_nonneg _) * 1)
      (m : ENNReal) (by simp)).integrable_norm_pow'
    rw [← integrable_norm_iff (by fun_prop)]
    simpa using this
  rwa [integrable_map_measure (by fun_prop) (by fun_prop)] at h

theorem integral_inner_four (a : E) : ∫ z, ⟪a, z⟫ ^ 4 ∂stdGaussian E = 3 * ‖a‖ ^ 4 := by
  have h : ∫ y, y ^ 4 ∂((stdGaussian E).map fun z => ⟪a, z⟫) = 3 * ‖a‖ ^ 4 := by
    rw [law_inner, integral_map (by fun_prop) (by fun_prop)]
    simp only [mul_pow]
    rw [integral_const_mul, integral_pow_four, mul_comm]
  rwa [integral_map (by fun_prop) (by fun_prop)] at h

/-- The polarisation of the fourth moment. -/
theorem sq_mul_sq (a b z : E) : ⟪a, z⟫ ^ 2 * ⟪b, z⟫ ^ 2 =
    (⟪a + b, z⟫ ^ 4 + ⟪a - b, z⟫ ^ 4 - 2 * ⟪a, z⟫ ^ 4 - 2 * ⟪b, z⟫ ^ 4) / 12 := by
  rw [inner_add_left, inner_sub_left]
  ring

theorem integrable_sq_mul_sq (a b : E) :
    Integrable (fun z => ⟪a, z⟫ ^ 2 * ⟪b, z⟫ ^ 2) (stdGaussian E) := by
  simp only [sq_mul_sq]
  exact ((((integrable_inner_pow (a + b) 4).add (integrable_inner_pow (a - b) 4)).sub
    ((integrable_inner_pow a 4).const_mul 2)).sub ((integrable_inner_pow b 4).const_mul 2)).div_const
    12

/-- The mean of the product of two squares. -/
theorem integral_sq_mul_sq (a b : E) : ∫ z, ⟪a, z⟫ ^ 2 * ⟪b, z⟫ ^ 2 ∂stdGaussian E =
    ‖a‖ ^ 2 * ‖b‖ ^ 2 + 2 * ⟪a, b⟫ ^ 2 := by
  simp only [sq_mul_sq]
  have h1 := integrable_inner_pow (a + b) 4
  have h2 := integrable_inner_pow (a - b) 4
  have h3 := (integrable_inner_pow a 4).const_mul 2
  have h4 := (integrable_inner_pow b 4).const_mul 2
  have h12 : Integrable (fun z => ⟪a + b, z⟫ ^ 4 + ⟪a - b, z⟫ ^ 4) (stdGaussian E) := h1.add h2
  have h123 : Integrable (fun z => ⟪a + b, z⟫ ^ 4 + ⟪a - b, z⟫ ^ 4 - 2 * ⟪a, z⟫ ^ 4)
      (stdGaussian E) := h12.sub h3
  rw [integral_div, integral_sub h123 h4, integral_sub h12 h3, integral_add h1 h2, integral_const_mul, integral_const_mul]
  simp only [integral_inner_four]
  have e1 : ‖a + b‖ ^ 2 = ‖a‖ ^ 2 + 2 * ⟪a, b⟫ + ‖b‖ ^ 2 := norm_add_sq_real a b
  have e2 : ‖a - b‖ ^ 2 = ‖a‖ ^ 2 - 2 * ⟪a, b⟫ + ‖b‖ ^ 2 := norm_sub_sq_real a b
  have e3 : ‖a + b‖ ^ 4 = (‖a + b‖ ^ 2) ^ 2 := by ring
  have e4 : ‖a - b‖ ^ 4 = (‖a - b‖ ^ 2) ^ 2 := by ring
  rw [e3, e4, e1, e2]
  ring

/-- The second moment of a sum of squares of linear forms. -/
theorem integral_forms_sq {ι : Type*} (s : Finset ι) (a : ι → E) :
    ∫ z, (∑ i ∈ s, ⟪a i, z⟫ ^ 2) ^ 2 ∂stdGaussian E =
      ∑ i ∈ s, ∑ j ∈ s, (‖a i‖ ^ 2 * ‖a j‖ ^ 2 + 2 * ⟪a i, a j⟫ ^ 2) := by
  simp only [sq (∑ i ∈ s, _), Finset.sum_mul_sum]
  rw [integral_finsetSum _ fun i _ => integrable_finsetSum _ fun j _ =>
    integrable_sq_mul_sq (a i) (a j)]
  refine Finset.sum_congr rfl fun i _ => ?_
  rw [integral_finsetSum _ fun j _ => integrable_sq_mul_sq (a i) (a j)]
  exact Finset.sum_congr rfl fun j _ => integral_sq_mul_sq (a i) (a j)

/-- The second moment of the chi-squared distribution. -/
theorem integral_chiSquared_sq (m : ℕ) : ∫ y, y ^ 2 ∂chiSquared m = (m : ℝ) ^ 2 + 2 * m := by
  have h := integral_forms_sq (E := EuclideanSpace ℝ (Fin m)) Finset.univ
    fun i => EuclideanSpace.single i (1 : ℝ)
  rw [chiSquared, integral_map (Measurable.aemeasurable (by fun_prop)) (by fun_prop)]
  rw [← map_pi_eq_stdGaussian, integral_map (by fun_prop) (by fun_prop)] at h
  have e : ∀ i j : Fin m, ⟪EuclideanSpace.single i (1 : ℝ), EuclideanSpace.single j (1 : ℝ)⟫ ^ 2 =
      if i = j then 1 else 0 := by
    intro i j
    rw [EuclideanSpace.inner_single_left]
    simp [Pi.single_apply, eq_comm]
  simp only [e] at h
  simp [EuclideanSpace.inner_single_left, Finset.sum_add_distrib] at h
  rw [h]
  ring

end Dist.Spec
