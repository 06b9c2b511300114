import Mathlib.Analysis.SpecialFunctions.Gaussian.GaussianIntegral
import Mathlib.Analysis.SpecialFunctions.Gamma.Basic

/-! # The Student-t density integrates to one

Write the power as a Gamma integral, swap the integrals, and use the Gaussian one. -/

namespace Dist

open MeasureTheory Set

theorem lintegral_rpow_mul_exp {a r : ℝ} (ha : 0 < a) (hr : 0 < r) :
    ∫⁻ u in Ioi (0 : ℝ), ENNReal.ofReal (u ^ (a - 1) * Real.exp (-(r * u))) =
      ENNReal.ofReal ((1 / r) ^ a * Real.Gamma a) := by
  have h := Real.integral_rpow_mul_exp_neg_mul_Ioi ha hr
  rw [← h, ofReal_integral_eq_lintegral_ofReal]
  · apply Integrable.of_integral_ne_zero
    rw [h]
    have := Real.Gamma_pos_of_pos ha
    positivity
  · filter_upwards [ae_restrict_mem measurableSet_Ioi] with u hu
    have : (0 : ℝ) < u := hu
    simp only [Pi.zero_apply]
    positivity

theorem lintegral_gaussian {b : ℝ} (hb : 0 < b) :
    ∫⁻ y : ℝ, ENNReal.ofReal (Real.exp (-b * y ^ 2)) = ENNReal.ofReal √(Real.pi / b) := by
  rw [← integral_gaussian, ofReal_integral_eq_lintegral_ofReal (integrable_exp_neg_mul_sq hb)]
  filter_upwards with y
  simp only [Pi.zero_apply]; positivity

theorem lintegral_studentT {s l : ℝ} (hs : 0 < s) (hl : 0 < l) :
    ∫⁻ y : ℝ, ENNReal.ofReal ((1 / (1 + l * y ^ 2)) ^ (s + 1 / 2) * Real.Gamma (s + 1 / 2)) =
      ENNReal.ofReal (√(Real.pi / l) * Real.Gamma s) := by
  have e : ∀ y : ℝ, ENNReal.ofReal
      ((1 / (1 + l * y ^ 2)) ^ (s + 1 / 2) * Real.Gamma (s + 1 / 2)) =
      ∫⁻ u in Ioi (0 : ℝ), ENNReal.ofReal
        (u ^ (s + 1 / 2 - 1) * Real.exp (-((1 + l * y ^ 2) * u))) := fun y =>
    (lintegral_rpow_mul_exp (by positivity) (by positivity)).symm
  simp_rw [e]
  rw [lintegral_lintegral_swap]
  · have h : ∀ u ∈ Ioi (0 : ℝ), ∫⁻ y : ℝ, ENNReal.ofReal
        (u ^ (s + 1 / 2 - 1) * Real.exp (-((1 + l * y ^ 2) * u))) =
        ENNReal.ofReal √(Real.pi / l) *
          ENNReal.ofReal (u ^ (s - 1) * Real.exp (-(1 * u))) := by
      intro u hu
      have hu' : (0 : ℝ) < u := hu
      have e1 : ∀ y : ℝ, ENNReal.ofReal
          (u ^ (s + 1 / 2 - 1) * Real.exp (-((1 + l * y ^ 2) * u))) =
          ENNReal.ofReal (u ^ (s + 1 / 2 - 1) * Real.exp (-u)) *
            ENNReal.ofReal (Real.exp (-(l * u) * y ^ 2)) := by
        intro y
        rw [← ENNReal.ofReal_mul (by positivity), mul_assoc, ← Real.exp_add]
        congr 3; ring
      simp_rw [e1]
      rw [lintegral_const_mul' _ _ ENNReal.ofReal_ne_top, lintegral_gaussian (by positivity),
        ← ENNReal.ofReal_mul (by positivity), ← ENNReal.ofReal_mul (by positivity)]
      congr 1
      have e2 : √(Real.pi / (l * u)) = √(Real.pi / l) * u ^ (-(1 / 2) : ℝ) := by
        rw [← div_div, Real.sqrt_div' _ hu'.le, Real.rpow_neg hu'.le, ← Real.sqrt_eq_rpow]
        rfl
      have e3 : u ^ (s + 1 / 2 - 1) * u ^ (-(1 / 2) : ℝ) = u ^ (s - 1) := by
        rw [← Real.rpow_add hu']; congr 1; ring
      rw [e2, ← e3, one_mul]; ring
    rw [setLIntegral_congr_fun measurableSet_Ioi h,
      lintegral_const_mul' _ _ ENNReal.ofReal_ne_top, lintegral_rpow_mul_exp hs one_pos,
      ← ENNReal.ofReal_mul (by positivity)]
    simp
  · apply Measurable.aemeasurable
    apply ENNReal.measurable_ofReal.comp
    apply Measurable.mul
    · exact (measurable_snd).pow_const _
    · apply Real.measurable_exp.comp
      fun_prop

theorem integral_studentT {s l : ℝ} (hs : 0 < s) (hl : 0 < l) (t : ℝ) :
    ∫ x : ℝ, (1 / (1 + l * (x - t) ^ 2)) ^ (s + 1 / 2) * Real.Gamma (s + 1 / 2) =
      √(Real.pi / l) * Real.Gamma s := by
  rw [integral_sub_right_eq_self
    (fun x : ℝ => (1 / (1 + l * x ^ 2)) ^ (s + 1 / 2) * Real.Gamma (s + 1 / 2)) t,
    integral_eq_lintegral_of_nonneg_ae, lintegral_studentT hs hl, ENNReal.toReal_ofReal]
  · have := Real.Gamma_pos_of_pos hs
    positivity
  · filter_upwards with y
    have := Real.Gamma_pos_of_pos (show 0 < s + 1 / 2 by positivity)
    simp only [Pi.zero_apply]; positivity
  · apply Measurable.aestronglyMeasurable
    apply Measurable.mul_const
    apply Measurable.pow_const
    fun_prop

end Dist
