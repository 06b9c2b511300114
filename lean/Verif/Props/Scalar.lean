import Verif.Model.Scalar
import Verif.Model.NICH
import Verif.Spec.Scalar
import Verif.Spec.Distributions
import Verif.Lemmas.NIW
import Verif.Lemmas.SingleNichScore
import Verif.Lemmas.StudentT
import Mathlib.Probability.Distributions.Beta
import Mathlib.Data.Nat.Choose.Basic

/-!
# C78: the scalar functions in exact arithmetic
-/

namespace Dist

open FloatOps FloatNotation Scalar

/-- The C library in exact arithmetic. -/
noncomputable def exactC : CLib XR := ⟨FloatOps.lgamma, FloatOps.log⟩

/-- Euler's integral. -/
theorem euler_integral {a b : ℝ} (ha : 0 < a) (hb : 0 < b) :
    Real.Gamma a * Real.Gamma b / Real.Gamma (a + b) =
      ∫ t in (0 : ℝ)..1, t ^ (a - 1) * (1 - t) ^ (b - 1) := by
  have h := ProbabilityTheory.beta_eq_betaIntegralReal a b ha hb
  unfold ProbabilityTheory.beta at h
  rw [h]
  have : Complex.betaIntegral a b = ((∫ t in (0 : ℝ)..1, t ^ (a - 1) * (1 - t) ^ (b - 1) : ℝ) : ℂ) := by
    unfold Complex.betaIntegral
    rw [← intervalIntegral.integral_ofReal]
    refine intervalIntegral.integral_congr fun t ht => ?_
    rw [Set.uIcc_of_le zero_le_one, Set.mem_Icc] at ht
    rw [Complex.ofReal_mul, Complex.ofReal_cpow ht.1, Complex.ofReal_cpow (by linarith [ht.2])]
    push_cast
    rfl
  rw [this, Complex.ofReal_re]

/-- **C78 (`log_beta`).** For positive arguments both versions return the logarithm of Euler's integral;
otherwise both return minus infinity. -/
theorem C78_log_beta (a b : ℝ) :
    (0 < a → 0 < b →
      logBeta exactC (.fin a) (.fin b) =
        .num (.fin (Real.log (∫ t in (0 : ℝ)..1, t ^ (a - 1) * (1 - t) ^ (b - 1)))) ∧
      fastLogBeta (.fin a) (.fin b) =
        (.num (.fin (Real.log (∫ t in (0 : ℝ)..1, t ^ (a - 1) * (1 - t) ^ (b - 1)))) : Ext XR)) ∧
    (a ≤ 0 ∨ b ≤ 0 → logBeta exactC (.fin a) (.fin b) = .negInf ∧
      fastLogBeta (.fin a) (.fin b) = (.negInf : Ext XR)) := by
  have h0 : (((0 : ℤ) : ℝ) / ((1 : ℕ) : ℝ)) = 0 := by norm_num
  refine ⟨fun ha hb => ?_, fun h => ?_⟩
  · have la : FloatOps.le (XR.fin a) (XR.fin 0) = false := XR.le_fin_false.2 ha
    have lb : FloatOps.le (XR.fin b) (XR.fin 0) = false := XR.le_fin_false.2 hb
    have key : (lgamma (XR.fin a) + lgamma (XR.fin b) - lgamma (XR.fin a + XR.fin b) : XR) =
        .fin (Real.log (∫ t in (0 : ℝ)..1, t ^ (a - 1) * (1 - t) ^ (b - 1))) := by
      rw [← euler_integral ha hb, XR.fin_add, XR.lgamma_fin ha, XR.lgamma_fin hb,
        XR.lgamma_fin (by linarith), XR.fin_add, XR.fin_sub, XR.fin_inj]
      have g1 := Real.Gamma_pos_of_pos ha
      have g2 := Real.Gamma_pos_of_pos hb
      have g3 := Real.Gamma_pos_of_pos (add_pos ha hb)
      rw [Real.log_div (by positivity) g3.ne', Real.log_mul g1.ne' g2.ne']
    unfold logBeta fastLogBeta
    rw [XR.lit_eq, h0, la, lb]
    exact ⟨congrArg Ext.num key, congrArg Ext.num key⟩
  · have hc : (FloatOps.le (XR.fin a) (XR.fin 0) || FloatOps.le (XR.fin b) (XR.fin 0)) = true := by
      rw [Bool.or_eq_true]
      exact h.imp (XR.le_fin _ _).2 (XR.le_fin _ _).2
    unfold logBeta fastLogBeta
    rw [XR.lit_eq, h0, if_pos hc, if_pos hc]
    exact ⟨rfl, rfl⟩

/-- **C78 (`log_binom`).** Both versions return the logarithm of the binomial coefficient. -/
theorem C78_log_binom (n k : ℕ) (h : k ≤ n) :
    logBinom exactC (.fin n) (.fin k) = .fin (Real.log (n.choose k)) ∧
    fastLogBinom (.fin n) (.fin k) = (.fin (Real.log (n.choose k)) : XR) := by
  have e1 : (n : ℝ) - k = ((n - k : ℕ) : ℝ) := by rw [Nat.cast_sub h]
  have f : ∀ m : ℕ, (lgamma (.fin (m + 1 : ℝ)) : XR) = .fin (Real.log m.factorial) := fun m => by
    rw [XR.lgamma_fin (by positivity), Real.Gamma_nat_eq_factorial]
  have key : (lgamma (XR.fin n + lit 1 1) - (lgamma (XR.fin k + lit 1 1) +
      lgamma (XR.fin n - XR.fin k + lit 1 1)) : XR) = .fin (Real.log (n.choose k)) := by
    have h1 : (((1 : ℤ) : ℝ) / ((1 : ℕ) : ℝ)) = 1 := by norm_num
    simp only [XR.lit_eq, XR.fin_add, XR.fin_sub, h1]
    rw [e1, f, f, f]
    simp only [XR.fin_add, XR.fin_sub, XR.fin_inj]
    have p1 : (0 : ℝ) < k.factorial := by exact_mod_cast k.factorial_pos
    have p2 : (0 : ℝ) < (n - k).factorial := by exact_mod_cast (n - k).factorial_pos
    have p3 : (0 : ℝ) < n.choose k := by exact_mod_cast Nat.choose_pos h
    have := Nat.choose_mul_factorial_mul_factorial h
    rw [← this]
    push_cast
    rw [Real.log_mul (by positivity) p2.ne', Real.log_mul p3.ne' p1.ne']
    ring
  exact ⟨key, key⟩

/-- **C78 (Student t).** With `nu` and `lambda` positive both versions return the logarithm of the
Student-t density with squared scale `1 / lambda`, and its exponential integrates to one. -/
theorem C78_student_t (nu mu lam : ℝ) (hn : 0 < nu) (hl : 0 < lam) :
    (∀ x, scoreStudentT exactC (.fin x) (.fin nu) (.fin mu) (.fin lam) =
      .fin (Real.log (Spec.studentT nu mu (1 / lam) x))) ∧
    (∀ x, fastScoreStudentT (.fin x) (.fin nu) (.fin mu) (.fin lam) =
      (.fin (Real.log (Spec.studentT nu mu (1 / lam) x)) : XR)) ∧
    (∀ x, 0 < Spec.studentT nu mu (1 / lam) x) ∧
    ∫ x, Spec.studentT nu mu (1 / lam) x = 1 := by
  have hpi := Real.pi_pos
  have h1 : (((1 : ℤ) : ℝ) / ((1 : ℕ) : ℝ)) = 1 := by norm_num
  have h2 : (((1 : ℤ) : ℝ) / ((2 : ℕ) : ℝ)) = 1 / 2 := by norm_num
  have h0 : (((0 : ℤ) : ℝ) / ((1 : ℕ) : ℝ)) = 0 := by norm_num
  have val : ∀ x, Real.log (Spec.studentT nu mu (1 / lam) x) =
      Real.log (Real.Gamma (nu / 2 + 1 / 2)) - Real.log (Real.Gamma (nu / 2)) +
        1 / 2 * Real.log (lam / (Real.pi * nu)) +
        (-(1 / 2) * nu - 1 / 2) * Real.log (1 + lam * ((x - mu) * (x - mu)) / nu) := fun x => by
    have := Single.log_studentT (D := x - mu) hn hl mu
    rw [add_sub_cancel] at this
    rw [this, pow_two]
    unfold LG.halfStep
    ring
  have pos : ∀ x, 0 < Spec.studentT nu mu (1 / lam) x := fun x => by
    have hG1 : 0 < Real.Gamma ((nu + 1) / 2) := Real.Gamma_pos_of_pos (by positivity)
    have hG2 : 0 < Real.Gamma (nu / 2) := Real.Gamma_pos_of_pos (by positivity)
    unfold Spec.studentT
    positivity
  have arg : ∀ x, 0 < 1 + lam * ((x - mu) * (x - mu)) / nu := fun x => by
    have := mul_self_nonneg (x - mu)
    positivity
  refine ⟨fun x => ?_, fun x => ?_, pos, ?_⟩
  · rw [val]
    unfold scoreStudentT exactC
    simp only [XR.lit_eq, h1, h2, XR.pi_eq, XR.fin_mul, XR.fin_add, XR.fin_sub, XR.fin_neg]
    rw [XR.fin_div _ _ (by positivity), XR.fin_div _ _ hn.ne', XR.fin_add, XR.log_fin (by positivity),
      XR.log_fin (arg x), XR.lgamma_fin (by positivity), XR.lgamma_fin (by positivity)]
    simp only [XR.fin_mul, XR.fin_add, XR.fin_sub]
    rw [show nu * (1 / 2) = nu / 2 by ring]
  · rw [val]
    unfold fastScoreStudentT
    simp only [XR.lit_eq, h0, h1, h2, XR.pi_eq, XR.fin_mul, XR.fin_add, XR.fin_sub, XR.fin_neg]
    rw [XR.fin_div _ _ (by positivity), XR.fin_div _ _ hn.ne', XR.fin_add, XR.log_fin (by positivity),
      XR.log_fin (arg x), XR.lgammaNu_fin hn]
    simp only [XR.fin_mul, XR.fin_add, XR.fin_sub, zero_add]
  · have hs2 : 0 < nu / 2 := by positivity
    have hl2 : 0 < lam / nu := by positivity
    have G1 := Real.Gamma_pos_of_pos (show 0 < nu / 2 + 1 / 2 by positivity)
    have G2 := Real.Gamma_pos_of_pos hs2
    have e : (fun x : ℝ => Spec.studentT nu mu (1 / lam) x) =
        fun x : ℝ => (1 / (√(Real.pi / (lam / nu)) * Real.Gamma (nu / 2))) *
          ((1 / (1 + lam / nu * (x - mu) ^ 2)) ^ (nu / 2 + 1 / 2) * Real.Gamma (nu / 2 + 1 / 2)) := by
      funext x
      have hq : 0 < 1 + lam / nu * (x - mu) ^ 2 := by positivity
      refine Real.log_injOn_pos (pos x) (show _ ∈ Set.Ioi (0 : ℝ) by
        simp only [Set.mem_Ioi]; positivity) ?_
      rw [val, Real.log_mul (by positivity) (by positivity), Real.log_mul (by positivity) G1.ne',
        Real.log_rpow (by positivity), one_div (_ * _), one_div (1 + _), Real.log_inv, Real.log_inv,
        Real.log_mul (by positivity) G2.ne', Real.log_sqrt (by positivity),
        Real.log_div Real.pi_pos.ne' hl2.ne', Real.log_div hl.ne' (by positivity),
        Real.log_mul hpi.ne' hn.ne', Real.log_div hl.ne' hn.ne',
        show lam * ((x - mu) * (x - mu)) / nu = lam / nu * (x - mu) ^ 2 by ring]
      ring
    rw [e, MeasureTheory.integral_const_mul, integral_studentT hs2 hl2, one_div,
      inv_mul_cancel₀ (by positivity)]

/-- **C78 (Student t, use).** The predictive score of the normal model is the Student-t score at the
posterior parameters. -/
theorem C78_student_t_nich (sh : NICH.Shared XR) (g : NICH.Group XR) (mu kappa ssq nu : ℝ)
    (hp : sh.plusGroup g = ⟨.fin mu, .fin kappa, .fin ssq, .fin nu⟩)
    (hk : 0 < kappa) (hs : 0 < ssq) (hn : 0 < nu) (x : ℝ) :
    g.scoreValue sh (.fin x) =
      fastScoreStudentT (.fin x) (.fin nu) (.fin mu) (.fin (kappa / ((kappa + 1) * ssq))) := by
  have hpi := Real.pi_pos
  have h1 : (((1 : ℤ) : ℝ) / ((1 : ℕ) : ℝ)) = 1 := by norm_num
  have h2 : (((1 : ℤ) : ℝ) / ((2 : ℕ) : ℝ)) = 1 / 2 := by norm_num
  have hl : 0 < kappa / ((kappa + 1) * ssq) := by positivity
  rw [(C78_student_t nu mu _ hn hl).2.1]
  have := Single.log_studentT (D := x - mu) hn hl mu
  rw [add_sub_cancel] at this
  rw [this]
  unfold NICH.Group.scoreValue NICH.Scorer.init NICH.Scorer.eval NICH.sqr
  rw [hp]
  simp only [XR.lit_eq, h1, h2, XR.pi_eq, XR.fin_mul, XR.fin_add, XR.fin_sub, XR.fin_neg]
  rw [XR.fin_div _ _ (by positivity)]
  generalize kappa / ((kappa + 1) * ssq) = lam at *
  have arg : 0 < 1 + lam / nu * ((x - mu) * (x - mu)) := by
    have := mul_self_nonneg (x - mu)
    positivity
  rw [XR.fin_div _ _ (by positivity), XR.fin_div _ _ hn.ne', XR.fin_mul, XR.fin_add,
    XR.log_fin (by positivity), XR.log_fin arg, XR.lgammaNu_fin hn]
  simp only [XR.fin_mul, XR.fin_add, XR.fin_inj]
  unfold LG.halfStep
  rw [show lam * (x - mu) ^ 2 / nu = lam / nu * ((x - mu) * (x - mu)) by ring]
  ring

/-- **C78 (`lmultigamma`).** Up to dimension 65536 the function returns the logarithm of the multivariate
gamma function; in dimension zero it fails the assertion in debug builds. -/
theorem C78_lmultigamma (lvl d : ℕ) (a : ℝ) (hd : 0 < d) (hd2 : d ≤ 65536) (ha : ((d : ℝ) - 1) / 2 < a) :
    NIW.lmultigamma lvl d (XR.fin a) = .ok (.fin (Real.log (Spec.multiGamma d a))) ∧
    (1 ≤ lvl → NIW.lmultigamma lvl 0 (XR.fin a) = .fail) := by
  refine ⟨?_, fun h => ?_⟩
  · rw [NIW.lmultigamma_eq lvl hd ha]
    have hlt : d * (d - 1) < 4294967296 := by
      calc d * (d - 1) ≤ 65536 * 65535 := Nat.mul_le_mul hd2 (by omega)
        _ < _ := by norm_num
    rw [Nat.mod_eq_of_lt hlt]
    congr 2
    have hg : ∀ j ∈ Finset.range d, Real.Gamma (a - j / 2) ≠ 0 := fun j hj => by
      have : (j : ℝ) + 1 ≤ d := by exact_mod_cast Finset.mem_range.1 hj
      exact (Real.Gamma_pos_of_pos (by linarith)).ne'
    unfold Spec.multiGamma
    rw [Real.log_mul (by have := Real.pi_pos; positivity) (Finset.prod_ne_zero_iff.2 hg),
      Real.log_rpow Real.pi_pos, Real.log_prod hg]
    push_cast [Nat.cast_sub (show 1 ≤ d from hd)]
    ring
  · unfold NIW.lmultigamma
    rw [show distAssert lvl 1 (0 < 0) = .fail by simp [distAssert, h]]
    rfl

/-- The product form satisfies the textbook recursion. -/
theorem C78_multigamma_recursion (d : ℕ) (a : ℝ) :
    Spec.multiGamma (d + 1) a = Real.pi ^ ((d : ℝ) / 2) * Real.Gamma a * Spec.multiGamma d (a - 1 / 2) := by
  have hpi := Real.pi_pos
  unfold Spec.multiGamma
  rw [Finset.prod_range_succ']
  have e : Real.pi ^ ((((d + 1 : ℕ) : ℝ) * (((d + 1 : ℕ) : ℝ) - 1)) / 4) =
      Real.pi ^ ((d : ℝ) / 2) * Real.pi ^ ((d * (d - 1) : ℝ) / 4) := by
    rw [← Real.rpow_add hpi]
    congr 1
    push_cast
    ring
  have e2 : ∀ j : ℕ, a - ((j + 1 : ℕ) : ℝ) / 2 = a - 1 / 2 - j / 2 := fun j => by push_cast; ring
  simp only [e2]
  rw [e]
  simp only [Nat.cast_zero, zero_div, sub_zero]
  ring

/-- **C78 (`lmultigamma` in large dimensions).** From dimension 65537 on `d * (d - 1)` wraps: there the
result is off by `2^30 log π`. -/
theorem C78_lmultigamma_wraps (lvl : ℕ) (a : ℝ) (ha : 32768 < a) :
    NIW.lmultigamma lvl 65537 (XR.fin a) =
      .ok (.fin (Real.log (Spec.multiGamma 65537 a) - 2 ^ 30 * Real.log Real.pi)) := by
  rw [NIW.lmultigamma_eq lvl (by norm_num) (by norm_num; linarith)]
  have hg : ∀ j ∈ Finset.range 65537, Real.Gamma (a - j / 2) ≠ 0 := fun j hj => by
    have : (j : ℝ) + 1 ≤ (65537 : ℕ) := by exact_mod_cast Finset.mem_range.1 hj
    push_cast at this
    exact (Real.Gamma_pos_of_pos (by linarith)).ne'
  unfold Spec.multiGamma
  rw [Real.log_mul (by have := Real.pi_pos; positivity) (Finset.prod_ne_zero_iff.2 hg),
    Real.log_rpow Real.pi_pos, Real.log_prod hg]
  generalize (∑ j ∈ Finset.range 65537, Real.log (Real.Gamma (a - j / 2))) = S
  congr 2
  norm_num
  ring

/-- `B(2, 3) = 1/12`, five choose two, the density of Cauchy's distribution and `Γ_2(2)`. -/
example : logBeta exactC (.fin 2) (.fin 3) =
    .num (.fin (Real.log (∫ t in (0 : ℝ)..1, t ^ ((2 : ℝ) - 1) * (1 - t) ^ ((3 : ℝ) - 1)))) :=
  ((C78_log_beta 2 3).1 (by norm_num) (by norm_num)).1

example : fastLogBeta (.fin 0) (.fin 3) = (.negInf : Ext XR) := ((C78_log_beta 0 3).2 (Or.inl le_rfl)).2

example : fastLogBinom (.fin (5 : ℕ)) (.fin (2 : ℕ)) = (.fin (Real.log 10) : XR) := by
  have := (C78_log_binom 5 2 (by norm_num)).2
  rwa [show ((Nat.choose 5 2 : ℕ) : ℝ) = 10 by norm_num [Nat.choose]] at this

example : fastScoreStudentT (.fin 0) (.fin 1) (.fin 0) (.fin 1) =
    (.fin (Real.log (Spec.studentT 1 0 (1 / 1) 0)) : XR) :=
  (C78_student_t 1 0 1 one_pos one_pos).2.1 0

example : NIW.lmultigamma 1 2 (XR.fin 2) = .ok (.fin (Real.log (Spec.multiGamma 2 2))) :=
  (C78_lmultigamma 1 2 2 (by norm_num) (by norm_num) (by norm_num)).1

end Dist
