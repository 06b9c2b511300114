import Verif.Lemmas.SingleNich
import Verif.Spec.Distributions

/-! # Rounding errors of the score of the normal model -/

namespace Dist

open FloatOps FloatNotation

namespace Single

theorem err_le {y B : ℝ} (h : |y| ≤ B) (hB : 1 / 2 ^ 100 ≤ B) : |nearest y - y| ≤ 1 / 2 ^ 23 * B := by
  have := nearest.error y
  have h1 : (2⁻¹ : ℝ) ^ 150 ≤ 2⁻¹ ^ 24 * B := by
    calc (2⁻¹ : ℝ) ^ 150 ≤ 2⁻¹ ^ 24 * (1 / 2 ^ 100) := by norm_num
      _ ≤ _ := by gcongr
  have h2 : (2⁻¹ : ℝ) ^ 24 * |y| ≤ 2⁻¹ ^ 24 * B := by gcongr
  calc |nearest y - y| ≤ 2⁻¹ ^ 24 * B + 2⁻¹ ^ 24 * B := by linarith
    _ = _ := by norm_num; ring

/-- The logarithm of the Student-t density. -/
theorem log_studentT {nu lam D : ℝ} (hn : 0 < nu) (hl : 0 < lam) (mu : ℝ) :
    Real.log (Spec.studentT nu mu (1 / lam) (mu + D)) =
      LG.halfStep (nu / 2) + 1 / 2 * Real.log (lam / (Real.pi * nu)) -
        (nu + 1) / 2 * Real.log (1 + lam * D ^ 2 / nu) := by
  have hpi := Real.pi_pos
  have hG1 : 0 < Real.Gamma ((nu + 1) / 2) := Real.Gamma_pos_of_pos (by positivity)
  have hG2 : 0 < Real.Gamma (nu / 2) := Real.Gamma_pos_of_pos (by positivity)
  have hsq : 0 < √(nu * Real.pi * (1 / lam)) := Real.sqrt_pos.2 (by positivity)
  have e1 : (1 : ℝ) + (mu + D - mu) ^ 2 / (nu * (1 / lam)) = 1 + lam * D ^ 2 / nu := by
    rw [add_sub_cancel_left]; congr 1; field_simp
  have hp : 0 < 1 + lam * D ^ 2 / nu := by positivity
  unfold Spec.studentT
  rw [e1, Real.log_mul (by positivity) (by positivity), Real.log_rpow hp,
    Real.log_div hG1.ne' (by positivity), Real.log_mul hG2.ne' hsq.ne', Real.log_sqrt (by positivity)]
  have e2 : Real.log (nu * Real.pi * (1 / lam)) = -Real.log (lam / (Real.pi * nu)) := by
    rw [← Real.log_inv]; congr 1; field_simp
  rw [e2]
  unfold LG.halfStep
  rw [show nu / 2 + 1 / 2 = (nu + 1) / 2 by ring]
  ring

/-- A crude bound of the first term. -/
theorem halfStep_bound {nu : ℝ} (h1 : 1 / 16 ≤ nu) (h2 : nu ≤ 2 ^ 32) : |LG.halfStep (nu / 2)| ≤ 20 := by
  have d1 := Real.log_two_gt_d9
  have d2 := Real.log_two_lt_d9
  have big : ∀ x : ℝ, 1 ≤ x → x ≤ 2 ^ 33 → |LG.halfStep x| ≤ 14 := by
    intro x hx hx2
    have h := LG.halfStep_asymp hx
    have hl0 : 0 ≤ Real.log x := Real.log_nonneg hx
    have hl1 : Real.log x ≤ 33 * Real.log 2 := by
      have := Real.log_le_log (by linarith) hx2
      rwa [Real.log_pow, Nat.cast_ofNat] at this
    have i1 : 1 / (8 * x) ≤ 1 / 8 := by
      rw [div_le_div_iff₀ (by positivity) (by norm_num)]; linarith
    have i0 : 0 ≤ 1 / (8 * x) := by positivity
    have i2 : 1 / (36 * x ^ 3) ≤ 1 / 36 := by
      have : (1 : ℝ) ≤ x ^ 3 := one_le_pow₀ hx
      rw [div_le_div_iff₀ (by positivity) (by norm_num)]; linarith
    obtain ⟨a, b⟩ := abs_le.1 h
    rw [abs_le]
    constructor <;> linarith
  have hs := LG.halfStep_shift (n := nu) (by linarith) 1
  norm_num [Finset.sum_range_succ] at hs
  have hb := big (nu / 2 + 1) (by linarith) (by linarith)
  have hn : 0 < nu := by linarith
  have hlog : |Real.log nu - Real.log (nu + 1)| ≤ 3 := by
    have h3 : Real.log nu ≤ Real.log (nu + 1) := Real.log_le_log hn (by linarith)
    have h4 : Real.log (nu + 1) - Real.log nu ≤ 3 := by
      rw [← Real.log_div (by positivity) hn.ne']
      have : (nu + 1) / nu ≤ 17 := by rw [div_le_iff₀ hn]; linarith
      have h5 : Real.log ((nu + 1) / nu) ≤ Real.log 17 := Real.log_le_log (by positivity) this
      have h6 : Real.log 17 ≤ 3 := by
        rw [Real.log_le_iff_le_exp (by norm_num)]
        have := Real.exp_one_gt_d9
        have e : Real.exp 3 = Real.exp 1 ^ 3 := by rw [← Real.exp_nat_mul]; norm_num
        rw [e]
        calc (17 : ℝ) ≤ 2.7182818283 ^ 3 := by norm_num
          _ ≤ _ := by gcongr
      linarith
    rw [abs_le]; constructor <;> linarith
  rw [hs]
  obtain ⟨p1, p2⟩ := abs_le.1 hb
  obtain ⟨q1, q2⟩ := abs_le.1 hlog
  rw [abs_le]
  constructor <;> linarith

/-- `lambda` of the scorer. -/
theorem lambda_factor {kappa ssq : ℝ} (hk1 : 1 / 2 ^ 10 ≤ kappa) (hk2 : kappa ≤ 2 ^ 40)
    (hs1 : 1 / 2 ^ 20 ≤ ssq) (hs2 : ssq ≤ 2 ^ 20) :
    Factor (3 * ulp) (nearest (kappa / nearest (nearest (kappa + 1) * ssq))) (kappa / ((kappa + 1) * ssq)) ∧
      1 / 2 ^ 31 ≤ kappa / ((kappa + 1) * ssq) ∧ kappa / ((kappa + 1) * ssq) ≤ 2 ^ 20 := by
  have hk : 0 < kappa := lt_of_lt_of_le (by positivity) hk1
  have hs : 0 < ssq := lt_of_lt_of_le (by positivity) hs1
  have f1 : Factor ulp (nearest (kappa + 1)) (kappa + 1) := Factor.round (by
    have : (1 : ℝ) / 2 ^ 126 ≤ 1 := by norm_num
    linarith)
  have f2 := f1.mul (Factor.refl hs.le)
  have hh := f2.half (by unfold ulp; norm_num)
  have hks : (1 : ℝ) / 2 ^ 20 ≤ (kappa + 1) * ssq := by nlinarith
  have f3 := f2.rnd (Or.inr (le_trans (by
    have : (1 : ℝ) / 2 ^ 126 ≤ 1 / 2 ^ 20 / 2 := by norm_num
    linarith) hh))
  have f4 := (Factor.refl hk.le).div f3 (by positivity)
  have low : 1 / 2 ^ 31 ≤ kappa / ((kappa + 1) * ssq) := by
    rw [le_div_iff₀ (by positivity)]
    have h1 : (kappa + 1) * ssq ≤ (kappa + 1) * 2 ^ 20 := by gcongr
    calc 1 / 2 ^ 31 * ((kappa + 1) * ssq) ≤ 1 / 2 ^ 31 * ((kappa + 1) * 2 ^ 20) := by gcongr
      _ = (kappa + 1) / 2 ^ 11 := by ring
      _ ≤ kappa := by
        rw [div_le_iff₀ (by positivity)]
        have : 1 / 2 ^ 10 * 2 ^ 10 ≤ kappa * 2 ^ 10 := by gcongr
        norm_num at this ⊢
        linarith
  have high : kappa / ((kappa + 1) * ssq) ≤ 2 ^ 20 := by
    rw [div_le_iff₀ (by positivity)]
    have h1 : (kappa + 1) * (1 / 2 ^ 20) ≤ (kappa + 1) * ssq := by gcongr
    calc kappa ≤ kappa + 1 := by linarith
      _ = 2 ^ 20 * ((kappa + 1) * (1 / 2 ^ 20)) := by ring
      _ ≤ _ := by gcongr
  have hh4 := f4.half (by unfold ulp; norm_num)
  have f5 := f4.rnd (Or.inr (le_trans (by
    have : (1 : ℝ) / 2 ^ 126 ≤ 1 / 2 ^ 31 / 2 := by norm_num
    linarith) hh4))
  exact ⟨f5.mono (le_of_eq (by ring)), low, high⟩

/-- The square of a difference. -/
theorem sqr_factor {D : ℝ} (h1 : 1 / 2 ^ 30 ≤ |D|) :
    Factor (3 * ulp) (nearest (nearest D * nearest D)) (D ^ 2) := by
  have hu := Factor.ulp_nonneg
  have hD : |nearest D| = nearest D ∨ |nearest D| = -nearest D := abs_choice _
  have f1 : Factor ulp |nearest D| |D| := by
    have h0 : 0 < |D| := lt_of_lt_of_le (by positivity) h1
    have he := nearest.error D
    have h3 : (2⁻¹ : ℝ) ^ 150 ≤ 2⁻¹ ^ 24 * |D| := by
      calc (2⁻¹ : ℝ) ^ 150 ≤ 2⁻¹ ^ 24 * (1 / 2 ^ 30) := by norm_num
        _ ≤ _ := by gcongr
    have h4 : |nearest D - D| ≤ 1 / 2 ^ 23 * |D| := by
      calc |nearest D - D| ≤ 2⁻¹ ^ 24 * |D| + 2⁻¹ ^ 24 * |D| := by linarith
        _ = _ := by norm_num; ring
    have l : |D| - |nearest D| ≤ 1 / 2 ^ 23 * |D| :=
      (abs_sub_abs_le_abs_sub D (nearest D)).trans (by rw [abs_sub_comm]; exact h4)
    have u : |nearest D| - |D| ≤ 1 / 2 ^ 23 * |D| := (abs_sub_abs_le_abs_sub _ _).trans h4
    have e1 : (1 : ℝ) + ulp ≤ Real.exp ulp := by rw [add_comm]; exact Real.add_one_le_exp _
    have e2 : Real.exp (-ulp) ≤ 1 / (1 + ulp) := by
      rw [Real.exp_neg, ← one_div]
      have : (0 : ℝ) < 1 + ulp := by linarith
      gcongr
    have e3 : 1 / (1 + ulp) ≤ 1 - 1 / 2 ^ 23 := by unfold ulp; norm_num
    refine ⟨h0.le, ?_, ?_⟩
    · calc |D| * Real.exp (-ulp) ≤ |D| * (1 - 1 / 2 ^ 23) := by gcongr; exact e2.trans e3
        _ ≤ _ := by linarith
    · have : (1 : ℝ) + 1 / 2 ^ 23 ≤ 1 + ulp := by unfold ulp; norm_num
      calc |nearest D| ≤ |D| * (1 + 1 / 2 ^ 23) := by linarith
        _ ≤ |D| * Real.exp ulp := by gcongr; linarith
  have f2 := f1.mul f1
  rw [abs_mul_abs_self, abs_mul_abs_self] at f2
  have hh := f2.half (by unfold ulp; norm_num)
  have hsq : 1 / 2 ^ 60 ≤ D * D := by
    rw [← abs_mul_abs_self D]
    calc (1 : ℝ) / 2 ^ 60 = 1 / 2 ^ 30 * (1 / 2 ^ 30) := by norm_num
      _ ≤ _ := by gcongr
  have f3 := f2.rnd (Or.inr (le_trans (by
    have : (1 : ℝ) / 2 ^ 126 ≤ 1 / 2 ^ 60 / 2 := by norm_num
    linarith) hh))
  rw [pow_two]
  exact f3.mono (le_of_eq (by ring))

/-- `1 + precision * sqr(value - mean)`. -/
theorem temp_factor {p' p D : ℝ} (hp : Factor (4 * ulp) p' p) (hp1 : 1 / 2 ^ 62 ≤ p) (hp2 : p ≤ 2 ^ 24)
    (hD : |D| ≤ 2 ^ 30) :
    Factor (8 * ulp) (1 + nearest (p' * nearest (nearest D * nearest D))) (1 + p * D ^ 2) ∧
      1 + p * D ^ 2 ≤ 2 ^ 85 := by
  have hu := Factor.ulp_nonneg
  have hp0 : 0 < p := lt_of_lt_of_le (by positivity) hp1
  have hup : 1 + p * D ^ 2 ≤ 2 ^ 85 := by
    have : D ^ 2 ≤ (2 ^ 30) ^ 2 := by rw [← sq_abs]; gcongr
    calc 1 + p * D ^ 2 ≤ 1 + 2 ^ 24 * (2 ^ 30) ^ 2 := by gcongr
      _ ≤ _ := by norm_num
  refine ⟨?_, hup⟩
  rcases le_or_gt (1 / 2 ^ 30) |D| with h | h
  · have f1 := sqr_factor h
    have f2 := hp.mul f1
    have hh := f2.half (by unfold ulp; norm_num)
    have hsq : 1 / 2 ^ 60 ≤ D ^ 2 := by
      rw [← sq_abs]
      calc (1 : ℝ) / 2 ^ 60 = (1 / 2 ^ 30) ^ 2 := by norm_num
        _ ≤ _ := by gcongr
    have hlow : 1 / 2 ^ 122 ≤ p * D ^ 2 := by
      calc (1 : ℝ) / 2 ^ 122 = 1 / 2 ^ 62 * (1 / 2 ^ 60) := by norm_num
        _ ≤ _ := by gcongr
    have f3 := f2.rnd (Or.inr (le_trans (by
      have : (1 : ℝ) / 2 ^ 126 ≤ 1 / 2 ^ 122 / 2 := by norm_num
      linarith) hh))
    have f4 := ((Factor.refl (x := (1 : ℝ)) zero_le_one).mono (by positivity : (0 : ℝ) ≤ 8 * ulp)).add
      (f3.mono (le_of_eq (by ring : ulp + (4 * ulp + 3 * ulp) = 8 * ulp)))
    exact f4
  · -- both are one up to rounding
    have hm := nearest.rounding.mono
    have hz := Factor.nearest_zero
    have e30 : nearest (1 / 2 ^ 30) = 1 / 2 ^ 30 := near_eq 1 (-30) (by norm_num) (by norm_num) (by norm_num)
    have e30' : nearest (-(1 / 2 ^ 30)) = -(1 / 2 ^ 30) := near_eq (-1) (-30) (by norm_num) (by norm_num) (by norm_num)
    obtain ⟨d1, d2⟩ := abs_lt.1 h
    have n1 : nearest D ≤ 1 / 2 ^ 30 := by rw [← e30]; exact hm d2.le
    have n2 : -(1 / 2 ^ 30) ≤ nearest D := by rw [← e30']; exact hm d1.le
    have s1 : nearest (nearest D * nearest D) ≤ 1 / 2 ^ 60 := by
      have e : nearest (1 / 2 ^ 60) = 1 / 2 ^ 60 := near_eq 1 (-60) (by norm_num) (by norm_num) (by norm_num)
      rw [← e]
      refine hm ?_
      have : nearest D * nearest D ≤ (1 / 2 ^ 30) * (1 / 2 ^ 30) := by nlinarith
      refine this.trans (by norm_num)
    have s0 : 0 ≤ nearest (nearest D * nearest D) := by rw [← hz]; exact hm (mul_self_nonneg _)
    have hp' : p' ≤ 2 ^ 25 := (hp.double (by unfold ulp; norm_num)).trans (by norm_num at hp2 ⊢; linarith)
    have hp0' := hp.nonneg'
    have t1 : nearest (p' * nearest (nearest D * nearest D)) ≤ 1 / 2 ^ 35 := by
      have e : nearest (1 / 2 ^ 35) = 1 / 2 ^ 35 := near_eq 1 (-35) (by norm_num) (by norm_num) (by norm_num)
      rw [← e]
      refine hm ?_
      calc p' * nearest (nearest D * nearest D) ≤ 2 ^ 25 * (1 / 2 ^ 60) := mul_le_mul hp' s1 s0 (by positivity)
        _ = _ := by norm_num
    have t0 : 0 ≤ nearest (p' * nearest (nearest D * nearest D)) := by
      rw [← hz]; exact hm (mul_nonneg hp0' s0)
    have w1 : p * D ^ 2 ≤ 1 / 2 ^ 35 := by
      have : D ^ 2 ≤ (1 / 2 ^ 30) ^ 2 := by rw [← sq_abs]; gcongr
      calc p * D ^ 2 ≤ 2 ^ 24 * (1 / 2 ^ 30) ^ 2 := by gcongr
        _ ≤ _ := by norm_num
    have w0 : 0 ≤ p * D ^ 2 := by positivity
    have e8 : 1 + 1 / 2 ^ 35 ≤ Real.exp (8 * ulp) := by
      refine le_trans ?_ (Real.add_one_le_exp _)
      unfold ulp; norm_num
    refine ⟨by linarith, ?_, ?_⟩
    · rw [Real.exp_neg, ← div_eq_mul_inv, div_le_iff₀ (Real.exp_pos _)]
      calc 1 + p * D ^ 2 ≤ 1 + 1 / 2 ^ 35 := by linarith
        _ ≤ Real.exp (8 * ulp) := e8
        _ ≤ _ := le_mul_of_one_le_left (Real.exp_pos _).le (by linarith)
    · calc 1 + nearest (p' * nearest (nearest D * nearest D)) ≤ 1 + 1 / 2 ^ 35 := by linarith
        _ ≤ Real.exp (8 * ulp) := e8
        _ ≤ _ := le_mul_of_one_le_left (Real.exp_pos _).le (by linarith)

end Single

end Dist
