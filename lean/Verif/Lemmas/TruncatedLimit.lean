import Verif.Lemmas.GaussianForms

/-!
# The limit law of the statistic of some of the categories
-/

namespace Dist.Spec

open MeasureTheory ProbabilityTheory Filter Set WithLp
open scoped Topology RealInnerProductSpace BoundedContinuousFunction

variable {Ω : Type*} [MeasurableSpace Ω] {P : Measure Ω} {k : ℕ} {p : Fin k → ℝ}
  {x : ℕ → Ω → Fin k}

/-- What is left of a vector without its part in the direction of the unit vector `u`. -/
noncomputable def remainder {k : ℕ} (u : EuclideanSpace ℝ (Fin k)) (z : EuclideanSpace ℝ (Fin k)) :
    EuclideanSpace ℝ (Fin k) := z - ⟪u, z⟫ • u

theorem continuous_remainder (u : EuclideanSpace ℝ (Fin k)) : Continuous (remainder u) := by
  unfold remainder; fun_prop

theorem inner_remainder (u z t : EuclideanSpace ℝ (Fin k)) : ⟪remainder u z, t⟫ = ⟪z, remainder u t⟫ := by
  simp only [remainder, inner_sub_left, inner_sub_right, inner_smul_left, inner_smul_right,
    conj_trivial, real_inner_comm u z]
  ring

theorem charFun_remainder {u : EuclideanSpace ℝ (Fin k)} (hu : ‖u‖ = 1)
    (t : EuclideanSpace ℝ (Fin k)) :
    charFun ((stdGaussian (EuclideanSpace ℝ (Fin k))).map (remainder u)) t =
      Complex.exp (-((‖t‖ ^ 2 - ⟪u, t⟫ ^ 2 : ℝ) : ℂ) / 2) := by
  have hn : ‖remainder u t‖ ^ 2 = ‖t‖ ^ 2 - ⟪u, t⟫ ^ 2 := by
    rw [remainder, norm_sub_sq_real, norm_smul, hu, inner_smul_right, mul_one, real_inner_comm,
      Real.norm_eq_abs, sq_abs]
    ring
  rw [← hn, charFun_apply,
    integral_map (continuous_remainder u).measurable.aemeasurable (by fun_prop)]
  have h := charFun_stdGaussian (remainder u t)
  rw [charFun_apply] at h
  push_cast
  rw [← h]
  simp only [inner_remainder]

theorem countVec_limit [IsProbabilityMeasure P] (hx : IidDraws P p x) (h0 : ∀ j, 0 < p j)
    (hp : ∑ j, p j = 1) {g : EuclideanSpace ℝ (Fin k) → ℝ} (hg : Continuous g) :
    TendstoInDistribution (fun n ω => g (countVec p x n ω)) atTop
      (fun z => g (remainder (rootVec p) z)) (fun _ => P)
      (stdGaussian (EuclideanSpace ℝ (Fin k))) := by
  have hc := continuous_remainder (rootVec p)
  have hu := norm_rootVec h0 hp
  have h1 : TendstoInDistribution (countVec p x) atTop (remainder (rootVec p)) (fun _ => P)
      (stdGaussian (EuclideanSpace ℝ (Fin k))) := by
    refine ⟨fun n => (measurable_countVec hx n).aemeasurable, hc.measurable.aemeasurable, ?_⟩
    refine ProbabilityMeasure.tendsto_iff_tendsto_charFun.2 fun t => ?_
    simp only [ProbabilityMeasure.coe_mk]
    rw [charFun_remainder hu]
    exact charFun_countVec hx h0 hp t
  exact h1.continuous_comp hg

/-- The component of the standardised vector of counts. -/
theorem countVec_apply (h0 : ∀ j, 0 < p j) {n : ℕ} (hn : 0 < n) (ω : Ω) (j : Fin k) :
    (countVec p x n ω) j ^ 2 = pearsonTerm n (p j) (occurrences (fun i : Fin n => x i ω) j) := by
  have hn' : (0 : ℝ) < n := by exact_mod_cast hn
  have hsum : ∑ i ∈ Finset.range n, (if x i ω = j then (1 : ℝ) else 0) =
      occurrences (fun i : Fin n => x i ω) j := by
    rw [Finset.sum_range fun i => if x i ω = j then (1 : ℝ) else 0, occurrences]
    simp
  have hc : (countVec p x n ω) j =
      (√n)⁻¹ * ((occurrences (fun i : Fin n => x i ω) j : ℝ) / √(p j) - n * √(p j)) := by
    rw [← hsum, Finset.sum_div]
    simp [countVec, indVec, Finset.sum_sub_distrib]
  have hp := Real.sqrt_pos.2 (h0 j)
  rw [hc, pearsonTerm, mul_pow, inv_pow, Real.sq_sqrt hn'.le]
  have h1 : (occurrences (fun i : Fin n => x i ω) j : ℝ) / √(p j) - n * √(p j) =
      (occurrences (fun i : Fin n => x i ω) j - n * p j) / √(p j) := by
    rw [sub_div, mul_div_assoc, Real.div_sqrt]
  rw [h1, div_pow, Real.sq_sqrt (h0 j).le]
  field_simp

theorem remainder_apply (z : EuclideanSpace ℝ (Fin k)) (j : Fin k) :
    (remainder (rootVec p) z) j = z j - √(p j) * ∑ i, √(p i) * z i := by
  simp only [remainder, rootVec, PiLp.sub_apply, PiLp.smul_apply, smul_eq_mul, PiLp.inner_apply,
    RCLike.inner_apply, conj_trivial]
  rw [mul_comm]
  congr 2
  exact Finset.sum_congr rfl fun i _ => mul_comm _ _

/-- The statistic of the categories `J`, as a function of the standardised counts. -/
noncomputable def partForm (p : Fin k → ℝ) (J : Finset (Fin k)) (y : EuclideanSpace ℝ (Fin k)) : ℝ :=
  ∑ j ∈ J, y j ^ 2 / (1 - p j)

theorem continuous_partForm (p : Fin k → ℝ) (J : Finset (Fin k)) : Continuous (partForm p J) := by
  unfold partForm; fun_prop

theorem partForm_countVec (h0 : ∀ j, 0 < p j) (J : Finset (Fin k)) {n : ℕ} (hn : 0 < n) (ω : Ω) :
    partForm p J (countVec p x n ω) =
      ∑ j ∈ J, scaledDeviation n (p j) (occurrences (fun i : Fin n => x i ω) j) := by
  refine Finset.sum_congr rfl fun j _ => ?_
  rw [countVec_apply h0 hn, scaledDeviation, pearsonTerm, div_div]

/-- The linear forms in the limit. -/
noncomputable def limitForm (p : Fin k → ℝ) (j : Fin k) : EuclideanSpace ℝ (Fin k) :=
  (√(1 - p j))⁻¹ • remainder (rootVec p) (EuclideanSpace.single j 1)

theorem partForm_remainder (h1 : ∀ j, p j < 1) (J : Finset (Fin k)) (z : EuclideanSpace ℝ (Fin k)) :
    partForm p J (remainder (rootVec p) z) = ∑ j ∈ J, ⟪limitForm p j, z⟫ ^ 2 := by
  refine Finset.sum_congr rfl fun j _ => ?_
  have hq : 0 < 1 - p j := by linarith [h1 j]
  rw [limitForm, inner_smul_left, inner_remainder, EuclideanSpace.inner_single_left, conj_trivial,
    mul_pow, inv_pow, Real.sq_sqrt hq.le]
  simp
  ring

theorem inner_limitForm (h0 : ∀ j, 0 < p j) (h1 : ∀ j, p j < 1) (hp : ∑ j, p j = 1) (i j : Fin k) :
    ⟪limitForm p i, limitForm p j⟫ =
      if i = j then 1 else -(√(p i) * √(p j) / (√(1 - p i) * √(1 - p j))) := by
  have hu := norm_rootVec h0 hp
  have ho : ⟪rootVec p, remainder (rootVec p) (EuclideanSpace.single j 1)⟫ = 0 := by
    rw [remainder, inner_sub_right, inner_smul_right, real_inner_self_eq_norm_sq, hu]
    ring
  have hi : √(1 - p i) ≠ 0 := (Real.sqrt_pos.2 (by linarith [h1 i])).ne'
  have hj : √(1 - p j) ≠ 0 := (Real.sqrt_pos.2 (by linarith [h1 j])).ne'
  have e : ⟪remainder (rootVec p) (EuclideanSpace.single i 1),
      remainder (rootVec p) (EuclideanSpace.single j 1)⟫ =
      (if i = j then 1 else 0) - √(p i) * √(p j) := by
    rw [remainder.eq_def (rootVec p) (EuclideanSpace.single i 1), inner_sub_left, inner_smul_left, ho,
      EuclideanSpace.inner_single_left, remainder_apply]
    simp [Pi.single_apply, Finset.sum_ite_eq']
  rw [limitForm, limitForm, inner_smul_left, inner_smul_right, e, conj_trivial]
  split_ifs with h
  · subst h
    rw [Real.mul_self_sqrt (h0 i).le, ← mul_assoc, ← mul_inv,
      Real.mul_self_sqrt (by linarith [h1 i]), inv_mul_cancel₀ (by linarith [h1 i])]
  · rw [zero_sub]
    field_simp

/-- The second moment in the limit exceeds that of the chi-squared distribution. -/
theorem limit_second_moment (h0 : ∀ j, 0 < p j) (h1 : ∀ j, p j < 1) (hp : ∑ j, p j = 1)
    {J : Finset (Fin k)} (hJ : 2 ≤ J.card) :
    ∫ y, y ^ 2 ∂chiSquared J.card < ∫ z, partForm p J (remainder (rootVec p) z) ^ 2
      ∂stdGaussian (EuclideanSpace ℝ (Fin k)) := by
  simp only [partForm_remainder h1]
  rw [integral_forms_sq, integral_chiSquared_sq]
  have hn : ∀ j, ‖limitForm p j‖ ^ 2 = 1 := fun j => by
    rw [← real_inner_self_eq_norm_sq, inner_limitForm h0 h1 hp, if_pos rfl]
  simp only [hn, mul_one, Finset.sum_add_distrib, ← Finset.mul_sum]
  obtain ⟨a, ha, b, hb, hab⟩ := Finset.one_lt_card.1 hJ
  have hd : (J.card : ℝ) < ∑ i ∈ J, ∑ j ∈ J, ⟪limitForm p i, limitForm p j⟫ ^ 2 := by
    have hrow : ∀ i ∈ J, (1 : ℝ) ≤ ∑ j ∈ J, ⟪limitForm p i, limitForm p j⟫ ^ 2 := fun i hi => by
      refine le_trans (le_of_eq ?_) (Finset.single_le_sum (f := fun j =>
        ⟪limitForm p i, limitForm p j⟫ ^ 2) (fun j _ => sq_nonneg _) hi)
      rw [inner_limitForm h0 h1 hp, if_pos rfl, one_pow]
    have hstrict : (1 : ℝ) < ∑ j ∈ J, ⟪limitForm p a, limitForm p j⟫ ^ 2 := by
      have h2 : ⟪limitForm p a, limitForm p a⟫ ^ 2 + ⟪limitForm p a, limitForm p b⟫ ^ 2 ≤
          ∑ j ∈ J, ⟪limitForm p a, limitForm p j⟫ ^ 2 := by
        rw [← Finset.sum_pair hab (f := fun j => ⟪limitForm p a, limitForm p j⟫ ^ 2)]
        refine Finset.sum_le_sum_of_subset_of_nonneg ?_ fun _ _ _ => sq_nonneg _
        intro c hc
        rcases Finset.mem_insert.1 hc with rfl | hc
        · exact ha
        · rwa [Finset.mem_singleton.1 hc]
      rw [inner_limitForm h0 h1 hp, if_pos rfl, inner_limitForm h0 h1 hp, if_neg hab] at h2
      have := Real.sqrt_pos.2 (h0 a)
      have := Real.sqrt_pos.2 (h0 b)
      have := Real.sqrt_pos.2 (show 0 < 1 - p a by linarith [h1 a])
      have := Real.sqrt_pos.2 (show 0 < 1 - p b by linarith [h1 b])
      have : 0 < √(p a) * √(p b) / (√(1 - p a) * √(1 - p b)) := by positivity
      nlinarith
    calc (J.card : ℝ) = ∑ _i ∈ J, (1 : ℝ) := by simp
      _ < _ := Finset.sum_lt_sum hrow ⟨a, ha, hstrict⟩
  simp
  nlinarith

end Dist.Spec
