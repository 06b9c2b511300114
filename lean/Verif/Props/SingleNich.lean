import Verif.Lemmas.SingleNich
import Verif.Spec.Distributions
import Mathlib.MeasureTheory.Integral.Bochner.Set
import Mathlib.MeasureTheory.Measure.Lebesgue.Basic
import Mathlib.Analysis.Real.Pi.Bounds

/-!
# C76: the predictive density of the normal model in single precision

`score_value` multiplies a `fast_log` by half the number of observations, and `fast_log` is a step
function with steps of `2^-14`.
-/

namespace Dist

open FloatOps FloatNotation

namespace Single

variable {lib : Libm}

/-- The value `score_value` computes for the number nearest to `x`, after a million observations of
mean zero and variance one. -/
noncomputable def millionScore (lib : Libm) (x : ℝ) : ℝ :=
  ((nichMillion lib).scoreValue (nichPrior lib) ⟨nearest x⟩).val

/-- The constant part of the score. -/
noncomputable def millionBase (lib : Libm) : ℝ :=
  (NICH.Scorer.init (nichPrior lib) (nichMillion lib)).score.val

theorem million_lambda : ∃ lam : ℝ, (1 - 1 / 2 ^ 19 ≤ lam ∧ lam ≤ 1) ∧
    nearest (2 ^ 20 / nearest (nearest (2 ^ 20 + 1) * 1)) = lam ∧ nearest lam = lam := by
  have e1 : nearest ((2 : ℝ) ^ 20 + 1) = 2 ^ 20 + 1 :=
    near_eq 1048577 0 (by norm_num) (by norm_num) (by norm_num)
  refine ⟨_, ⟨?_, ?_⟩, rfl, nearest.idem _⟩
  · rw [e1, mul_one, e1]
    have h : nearest (1 - 1 / 2 ^ 19) = 1 - 1 / 2 ^ 19 :=
      near_eq 524287 (-19) (by norm_num) (by norm_num) (by norm_num)
    rw [← h]
    exact nearest.rounding.mono (by norm_num)
  · rw [e1, mul_one, e1]
    have h : nearest 1 = 1 := near_eq 1 0 (by norm_num) (by norm_num) (by norm_num)
    rw [← h]
    exact nearest.rounding.mono (by rw [h]; norm_num)

theorem million_scorer : ∃ lam : ℝ, (1 - 1 / 2 ^ 19 ≤ lam ∧ lam ≤ 1) ∧
    NICH.Scorer.init (nichPrior lib) (nichMillion lib) =
      ⟨⟨nearest (lgammaNuf lib (2 ^ 20) + nearest (1 / 2 *
          logf (nearest (lam / nearest (nearest Real.pi * 2 ^ 20)))))⟩,
        ⟨nearest (nearest (-(1 / 2) * 2 ^ 20) - 1 / 2)⟩, ⟨nearest (lam / 2 ^ 20)⟩, ⟨0⟩⟩ := by
  obtain ⟨lam, hb, hl, -⟩ := million_lambda
  refine ⟨lam, hb, ?_⟩
  have h1 : nearest (((1 : ℤ) : ℝ) / ((1 : ℕ) : ℝ)) = 1 := by
    rw [show (((1 : ℤ) : ℝ) / ((1 : ℕ) : ℝ)) = 1 by norm_num]
    exact near_eq 1 0 (by norm_num) (by norm_num) (by norm_num)
  have h2 : nearest (((1 : ℤ) : ℝ) / ((2 : ℕ) : ℝ)) = 1 / 2 := by
    rw [show (((1 : ℤ) : ℝ) / ((2 : ℕ) : ℝ)) = 1 / 2 by norm_num]
    exact near_eq 1 (-1) (by norm_num) (by norm_num) (by norm_num)
  unfold NICH.Scorer.init
  simp only [million_post]
  refine NICH.Scorer.mk.injEq .. ▸ ⟨?_, ?_, ?_, rfl⟩
  all_goals
    refine Single.mk.injEq .. ▸ ?_
    simp only [val_add, val_sub, val_mul, val_div, val_lit, val_log, val_lgammaNu, val_pi, val_neg,
      h1, h2, hl]

theorem million_value (x : ℝ) : ∃ lam : ℝ, (1 - 1 / 2 ^ 19 ≤ lam ∧ lam ≤ 1) ∧
    millionScore lib x = nearest (millionBase lib + nearest (nearest (nearest (-(1 / 2) * 2 ^ 20) - 1 / 2) *
      logf (nearest (1 + nearest (nearest (lam / 2 ^ 20) * nearest (nearest x * nearest x)))))) := by
  obtain ⟨lam, hb, hs⟩ := million_scorer (lib := lib)
  refine ⟨lam, hb, ?_⟩
  have h1 : nearest (((1 : ℤ) : ℝ) / ((1 : ℕ) : ℝ)) = 1 := by
    rw [show (((1 : ℤ) : ℝ) / ((1 : ℕ) : ℝ)) = 1 by norm_num]
    exact near_eq 1 0 (by norm_num) (by norm_num) (by norm_num)
  have hx : nearest (nearest x - 0) = nearest x := by rw [sub_zero, nearest.idem]
  unfold millionScore NICH.Group.scoreValue NICH.Scorer.eval NICH.sqr
  rw [show millionBase lib = nearest (lgammaNuf lib (2 ^ 20) + nearest (1 / 2 *
          logf (nearest (lam / nearest (nearest Real.pi * 2 ^ 20))))) by unfold millionBase; rw [hs]]
  rw [hs]
  simp only [val_add, val_sub, val_mul, val_div, val_lit, val_log, h1, hx]

/-- **C76 (flat).** After a million observations of mean zero and variance one, `score_value` returns
the same number for every value within 7.5 standard deviations of the mean. -/
theorem C76_nich_flat (x : ℝ) (hx : |x| ≤ 15 / 2) : millionScore lib x = millionBase lib := by
  obtain ⟨lam, ⟨l1, l2⟩, hv⟩ := million_value (lib := lib) x
  have hm := nearest.rounding.mono
  have hx' := abs_le.1 hx
  have e15 : nearest (15 / 2) = 15 / 2 := near_eq 15 (-1) (by norm_num) (by norm_num) (by norm_num)
  have e15' : nearest (-(15 / 2)) = -(15 / 2) := near_eq (-15) (-1) (by norm_num) (by norm_num) (by norm_num)
  have n1 : nearest x ≤ 15 / 2 := by rw [← e15]; exact hm hx'.2
  have n2 : -(15 / 2) ≤ nearest x := by rw [← e15']; exact hm hx'.1
  have s1 : nearest (nearest x * nearest x) ≤ 225 / 4 := by
    have e : nearest (225 / 4) = 225 / 4 := near_eq 225 (-2) (by norm_num) (by norm_num) (by norm_num)
    rw [← e]
    exact hm (by nlinarith)
  have s0 : 0 ≤ nearest (nearest x * nearest x) := by
    rw [← Factor.nearest_zero]; exact hm (mul_self_nonneg _)
  have p1 : nearest (lam / 2 ^ 20) ≤ 1 / 2 ^ 20 := by
    have e : nearest (1 / 2 ^ 20) = 1 / 2 ^ 20 := near_eq 1 (-20) (by norm_num) (by norm_num) (by norm_num)
    rw [← e]
    exact hm (by gcongr)
  have p0 : 0 ≤ nearest (lam / 2 ^ 20) := by
    have : 0 ≤ lam / 2 ^ 20 := div_nonneg (le_trans (by norm_num) l1) (by positivity)
    rw [← Factor.nearest_zero]; exact hm this
  have t1 : nearest (nearest (lam / 2 ^ 20) * nearest (nearest x * nearest x)) ≤ 225 / 2 ^ 22 := by
    have e : nearest (225 / 2 ^ 22) = 225 / 2 ^ 22 := near_eq 225 (-22) (by norm_num) (by norm_num) (by norm_num)
    rw [← e]
    refine hm ?_
    calc nearest (lam / 2 ^ 20) * nearest (nearest x * nearest x) ≤ 1 / 2 ^ 20 * (225 / 4) :=
          mul_le_mul p1 s1 s0 (by positivity)
      _ = _ := by norm_num
  have t0 : 0 ≤ nearest (nearest (lam / 2 ^ 20) * nearest (nearest x * nearest x)) := by
    rw [← Factor.nearest_zero]; exact hm (mul_nonneg p0 s0)
  set t := nearest (nearest (lam / 2 ^ 20) * nearest (nearest x * nearest x)) with ht
  have w1 : nearest (1 + t) < 1 + 1 / 2 ^ 14 := by
    have e : nearest (1 + 225 / 2 ^ 22) = 1 + 225 / 2 ^ 22 :=
      near_eq 4194529 (-22) (by norm_num) (by norm_num) (by norm_num)
    have : nearest (1 + t) ≤ 1 + 225 / 2 ^ 22 := by rw [← e]; exact hm (by linarith)
    refine this.trans_lt (by norm_num)
  have w0 : 1 ≤ nearest (1 + t) := by
    have e : nearest 1 = 1 := near_eq 1 0 (by norm_num) (by norm_num) (by norm_num)
    rw [← e]; exact hm (by rw [e]; linarith)
  rw [hv, logf_step (nearest.idem _) w0 w1, mul_zero, Factor.nearest_zero, add_zero]
  unfold millionBase
  obtain ⟨lam', -, hs⟩ := million_scorer (lib := lib)
  rw [hs]
  exact nearest.idem _

theorem million_base_ge : -1 ≤ millionBase lib := by
  obtain ⟨lam, ⟨l1, l2⟩, hs⟩ := million_scorer (lib := lib)
  have hm := nearest.rounding.mono
  have hu := Factor.ulp_nonneg
  have hlam : 0 < lam := lt_of_lt_of_le (by norm_num) l1
  have hpi := Real.pi_pos
  have hpi3 := Real.pi_gt_three
  have hpi4 := Real.pi_lt_d2
  -- the factor lambda / (pi nu)
  have f1 : Factor ulp (nearest Real.pi) Real.pi := Factor.round (le_trans (by norm_num) hpi3.le)
  have f2 : Factor ulp (nearest Real.pi * 2 ^ 20) (Real.pi * 2 ^ 20) := by
    have := f1.mul (Factor.refl (x := (2 : ℝ) ^ 20) (by positivity))
    rwa [add_zero] at this
  have hp0 : 3 ≤ nearest Real.pi := by
    have e : nearest 3 = 3 := near_eq 3 0 (by norm_num) (by norm_num) (by norm_num)
    rw [← e]; exact hm hpi3.le
  have f3 : Factor (ulp + ulp) (nearest (nearest Real.pi * 2 ^ 20)) (Real.pi * 2 ^ 20) :=
    f2.rnd (Or.inr (by nlinarith))
  have f4 := (Factor.refl hlam.le).div f3 (by positivity)
  set L := logf (nearest (lam / nearest (nearest Real.pi * 2 ^ 20))) with hL
  have hP1 := f3.half (by unfold ulp; norm_num)
  have hP2 := f3.double (by unfold ulp; norm_num)
  have hPpos : 0 < nearest (nearest Real.pi * 2 ^ 20) := f3.pos (by positivity)
  have hlog := logf_factor f4
    (by
      rw [le_div_iff₀ hPpos]
      calc 1 / 2 ^ 126 * nearest (nearest Real.pi * 2 ^ 20) ≤ 1 / 2 ^ 126 * (3.15 * 2 ^ 20 * 2) := by
            gcongr; exact hP2.trans (by gcongr)
        _ ≤ 1 - 1 / 2 ^ 19 := by norm_num
        _ ≤ lam := l1)
    (by
      rw [div_lt_iff₀ hPpos]
      have : 3 * 2 ^ 20 / 2 ≤ nearest (nearest Real.pi * 2 ^ 20) := by
        refine le_trans ?_ hP1; gcongr
      calc lam ≤ 1 := l2
        _ < 2 ^ 127 * (3 * 2 ^ 20 / 2) := by norm_num
        _ ≤ _ := by gcongr)
  rw [← hL, Real.log_div hlam.ne' (by positivity), Real.log_mul hpi.ne' (by positivity), Real.log_pow] at hlog
  have hul : 1 / 2 ^ 13 + ulp + (0 + (ulp + ulp)) ≤ 1 / 2 ^ 12 := by unfold ulp; norm_num
  obtain ⟨b1, b2⟩ := abs_le.1 (hlog.trans hul)
  -- the exact values
  have g1 : -(1 / 2 ^ 18) ≤ Real.log lam := by
    have := Real.one_sub_inv_le_log_of_pos hlam
    have h3 : lam⁻¹ ≤ (1 - 1 / 2 ^ 19)⁻¹ := inv_anti₀ (by norm_num) l1
    have h4 : ((1 : ℝ) - 1 / 2 ^ 19)⁻¹ ≤ 1 + 1 / 2 ^ 18 := by norm_num
    linarith
  have g2 : Real.log lam ≤ 0 := Real.log_nonpos hlam.le l2
  have g3 : Real.log Real.pi ≤ 2 * Real.log 2 - 0.21 := by
    have h4 := Real.log_le_sub_one_of_pos (x := Real.pi / 4) (by positivity)
    rw [Real.log_div hpi.ne' (by norm_num), show (4 : ℝ) = 2 ^ 2 by norm_num, Real.log_pow] at h4
    push_cast at h4
    linarith
  have g4 : 0 ≤ Real.log Real.pi := Real.log_nonneg (by linarith)
  have d1 := Real.log_two_gt_d9
  have d2 := Real.log_two_lt_d9
  have hnorm : IsNormal ((2 : ℝ) ^ 20) :=
    ⟨near_eq 1 20 (by norm_num) (by norm_num) (by norm_num), by norm_num, by norm_num⟩
  have ha := lgammaNuf_near (lib := lib) hnorm (by norm_num) (by norm_num)
  have hh := LG.halfStep_asymp (x := (2 : ℝ) ^ 20 / 2) (by norm_num)
  unfold LG.halfStep at hh
  have e19 : Real.log ((2 : ℝ) ^ 20 / 2) = 19 * Real.log 2 := by
    rw [show ((2 : ℝ) ^ 20 / 2) = 2 ^ 19 by norm_num, Real.log_pow]; norm_num
  rw [e19] at hh
  set A := lgammaNuf lib (2 ^ 20) with hA
  set G := Real.log (Real.Gamma ((2 : ℝ) ^ 20 / 2 + 1 / 2)) - Real.log (Real.Gamma ((2 : ℝ) ^ 20 / 2)) with hG
  clear_value A G
  have a1 := (abs_le.1 ha).1
  have a2 := (abs_le.1 hh).1
  have n1 : (1 : ℝ) / (8 * (2 ^ 20 / 2)) ≤ 1 / 10 ^ 5 := by norm_num
  have n2 : (1 : ℝ) / (36 * (2 ^ 20 / 2) ^ 3) ≤ 1 / 10 ^ 5 := by norm_num
  have hhalf := nearest.error (1 / 2 * L)
  have habs : |1 / 2 * L| ≤ 16 := by
    rw [abs_le]
    push_cast at b1 b2
    constructor <;> norm_num at b1 b2 ⊢ <;> linarith
  have h24 : (2⁻¹ : ℝ) ^ 24 * |1 / 2 * L| + 2⁻¹ ^ 150 ≤ 1 / 10 ^ 5 := by
    calc (2⁻¹ : ℝ) ^ 24 * |1 / 2 * L| + 2⁻¹ ^ 150 ≤ 2⁻¹ ^ 24 * 16 + 2⁻¹ ^ 150 := by gcongr
      _ ≤ _ := by norm_num
  have c1 := (abs_le.1 (hhalf.trans h24)).1
  have hfin : -1 ≤ A + nearest (1 / 2 * L) := by
    push_cast at b1
    norm_num at b1 c1 a1 a2 n1 n2 ⊢
    linarith
  unfold millionBase
  rw [hs]
  have e : nearest (-1) = -1 := near_eq (-1) 0 (by norm_num) (by norm_num) (by norm_num)
  rw [← e]
  exact hm hfin

open MeasureTheory in
/-- **C76 (false of the code).** After a million observations of mean zero and variance one, the
exponential of `score_value`, which should be a probability density, integrates to more than 5. -/
theorem C76_nich_mass_fails : 5 < ∫⁻ x : ℝ, ENNReal.ofReal (Real.exp (millionScore lib x)) := by
  have h1 : ∫⁻ x in Set.Icc (-(15 / 2) : ℝ) (15 / 2), ENNReal.ofReal (Real.exp (millionScore lib x)) =
      ENNReal.ofReal (Real.exp (millionBase lib)) * volume (Set.Icc (-(15 / 2) : ℝ) (15 / 2)) := by
    rw [← setLIntegral_const]
    refine setLIntegral_congr_fun measurableSet_Icc fun x hx => ?_
    rw [C76_nich_flat x (abs_le.2 ⟨hx.1, hx.2⟩)]
  have h2 : (1 : ℝ) / 2.7182818286 ≤ Real.exp (millionBase lib) := by
    have := Real.exp_one_lt_d9
    calc (1 : ℝ) / 2.7182818286 ≤ 1 / Real.exp 1 := by gcongr
      _ = Real.exp (-1) := by rw [Real.exp_neg, one_div]
      _ ≤ _ := Real.exp_le_exp.2 million_base_ge
  calc (5 : ENNReal) < ENNReal.ofReal (1 / 2.7182818286 * 15) := by
        rw [show (5 : ENNReal) = ENNReal.ofReal 5 by norm_num]
        exact (ENNReal.ofReal_lt_ofReal_iff (by norm_num)).2 (by norm_num)
    _ ≤ ENNReal.ofReal (Real.exp (millionBase lib) * 15) := by
        apply ENNReal.ofReal_le_ofReal; gcongr
    _ = ENNReal.ofReal (Real.exp (millionBase lib)) * volume (Set.Icc (-(15 / 2) : ℝ) (15 / 2)) := by
        rw [Real.volume_Icc, ← ENNReal.ofReal_mul (Real.exp_pos _).le]; norm_num
    _ = _ := h1.symm
    _ ≤ _ := setLIntegral_le_lintegral _ _

/-- **C76 (contrast).** The same group scores the mean and a value seven standard deviations away
alike, although the logarithms of the exact predictive densities differ by more than 24. -/
theorem C76_nich_contrast : millionScore lib 7 = millionScore lib 0 ∧
    24 < Real.log (Spec.studentT (2 ^ 20) 0 ((2 ^ 20 + 1) / 2 ^ 20) 0) -
      Real.log (Spec.studentT (2 ^ 20) 0 ((2 ^ 20 + 1) / 2 ^ 20) 7) := by
  constructor
  · rw [C76_nich_flat 7 (by rw [abs_of_pos (by norm_num)]; norm_num), C76_nich_flat 0 (by norm_num)]
  · have hG1 : 0 < Real.Gamma (((2 : ℝ) ^ 20 + 1) / 2) := Real.Gamma_pos_of_pos (by positivity)
    have hG2 : 0 < Real.Gamma ((2 : ℝ) ^ 20 / 2) := Real.Gamma_pos_of_pos (by positivity)
    have hpi := Real.pi_pos
    have hC : 0 < Real.Gamma (((2 : ℝ) ^ 20 + 1) / 2) / (Real.Gamma ((2 : ℝ) ^ 20 / 2) *
        √((2 : ℝ) ^ 20 * Real.pi * ((2 ^ 20 + 1) / 2 ^ 20))) := by positivity
    unfold Spec.studentT
    rw [Real.log_mul hC.ne' (by positivity), Real.log_mul hC.ne' (by positivity),
      Real.log_rpow (by positivity), Real.log_rpow (by positivity)]
    have e0 : (1 : ℝ) + (0 - 0) ^ 2 / (2 ^ 20 * ((2 ^ 20 + 1) / 2 ^ 20)) = 1 := by norm_num
    have e7 : (1 : ℝ) + (7 - 0) ^ 2 / (2 ^ 20 * ((2 ^ 20 + 1) / 2 ^ 20)) = 1 + 49 / (2 ^ 20 + 1) := by
      norm_num
    rw [e0, e7, Real.log_one]
    have := LG.le_log_one_add (u := 49 / (2 ^ 20 + 1)) (by positivity)
    generalize Real.Gamma (((2 : ℝ) ^ 20 + 1) / 2) / (Real.Gamma ((2 : ℝ) ^ 20 / 2) *
        √((2 : ℝ) ^ 20 * Real.pi * ((2 ^ 20 + 1) / 2 ^ 20))) = C
    norm_num at this ⊢
    linarith

/-- The group is the one reached from the prior: its posterior parameters are those of a million
observations, and computed without any rounding error. -/
example : (nichPrior lib).plusGroup (nichMillion lib) = ⟨⟨0⟩, ⟨2 ^ 20⟩, ⟨1⟩, ⟨2 ^ 20⟩⟩ := million_post

end Single

end Dist
