import Verif.Lemmas.ChiSquared
import Mathlib.Probability.CentralLimitTheorem
import Mathlib.Probability.Distributions.Gaussian.Multivariate
import Mathlib.MeasureTheory.Measure.LevyConvergence
import Mathlib.MeasureTheory.Measure.Portmanteau

/-!
# The limit law of Pearson's statistic
-/

namespace Dist.Spec

open MeasureTheory ProbabilityTheory Filter WithLp
open scoped Topology RealInnerProductSpace

variable {Ω : Type*} [MeasurableSpace Ω] {P : Measure Ω} {k : ℕ} {p : Fin k → ℝ}
  {x : ℕ → Ω → Fin k}

/-- The standardised indicator vector of a category. -/
noncomputable def indVec (p : Fin k → ℝ) (a : Fin k) : EuclideanSpace ℝ (Fin k) :=
  toLp 2 fun j => (if a = j then 1 else 0) / √(p j) - √(p j)

/-- The square roots of the probabilities. -/
noncomputable def rootVec (p : Fin k → ℝ) : EuclideanSpace ℝ (Fin k) := toLp 2 fun j => √(p j)

theorem inner_indVec (t : EuclideanSpace ℝ (Fin k)) (a : Fin k) :
    ⟪indVec p a, t⟫ = t a / √(p a) - ⟪rootVec p, t⟫ := by
  simp only [indVec, rootVec, PiLp.inner_apply, RCLike.inner_apply, conj_trivial]
  have : ∀ j, t j * ((if a = j then 1 else 0) / √(p j) - √(p j)) =
      (if a = j then t j / √(p j) else 0) - t j * √(p j) := by
    intro j; split_ifs <;> ring
  simp [this, Finset.sum_sub_distrib]

theorem norm_rootVec (h0 : ∀ j, 0 < p j) (hp : ∑ j, p j = 1) : ‖rootVec p‖ = 1 := by
  rw [EuclideanSpace.norm_eq]
  simp only [rootVec, Real.norm_eq_abs, sq_abs]
  simp [fun j => Real.sq_sqrt (h0 j).le, hp]

theorem integral_draw [IsProbabilityMeasure P] (hx : IidDraws P p x) (h0 : ∀ j, 0 < p j)
    (i : ℕ) (f : Fin k → ℝ) : ∫ ω, f (x i ω) ∂P = ∑ j, p j * f j := by
  have h := integral_map (μ := P) (φ := x i) (hx.measurable i).aemeasurable
    (f := f) (by fun_prop)
  rw [← h]
  have hpm : IsProbabilityMeasure (P.map (x i)) :=
    Measure.isProbabilityMeasure_map (hx.measurable i).aemeasurable
  rw [integral_fintype (.of_finite)]
  refine Finset.sum_congr rfl fun j _ => ?_
  rw [Measure.real, Measure.map_apply (hx.measurable i) (measurableSet_singleton j), hx.law i j,
    ENNReal.toReal_ofReal (h0 j).le, smul_eq_mul]

theorem identDistrib_draw [IsProbabilityMeasure P] (hx : IidDraws P p x) (i : ℕ) :
    IdentDistrib (x i) (x 0) P P := by
  refine ⟨(hx.measurable i).aemeasurable, (hx.measurable 0).aemeasurable, ?_⟩
  refine Measure.ext_of_singleton fun j => ?_
  rw [Measure.map_apply (hx.measurable i) (measurableSet_singleton j),
    Measure.map_apply (hx.measurable 0) (measurableSet_singleton j), hx.law, hx.law]

/-- The standardised vector of counts after `n` draws. -/
noncomputable def countVec (p : Fin k → ℝ) (x : ℕ → Ω → Fin k) (n : ℕ) (ω : Ω) :
    EuclideanSpace ℝ (Fin k) :=
  (√n)⁻¹ • ∑ i ∈ Finset.range n, indVec p (x i ω)

theorem measurable_countVec (hx : IidDraws P p x) (n : ℕ) : Measurable (countVec p x n) := by
  unfold countVec
  have h : ∀ i, Measurable fun ω => indVec p (x i ω) := fun i =>
    (measurable_of_finite (indVec p)).comp (hx.measurable i)
  fun_prop

theorem variance_draw [IsProbabilityMeasure P] (hx : IidDraws P p x) (h0 : ∀ j, 0 < p j)
    (hp : ∑ j, p j = 1) (t : EuclideanSpace ℝ (Fin k)) :
    (∫ ω, ⟪indVec p (x 0 ω), t⟫ ∂P = 0) ∧
      Var[fun ω => ⟪indVec p (x 0 ω), t⟫; P] = ‖t‖ ^ 2 - ⟪rootVec p, t⟫ ^ 2 := by
  set c := ⟪rootVec p, t⟫ with hc
  have hs : ∀ j, √(p j) ≠ 0 := fun j => (Real.sqrt_pos.2 (h0 j)).ne'
  have hcs : ∑ j, √(p j) * t j = c := by
    rw [hc]
    simp only [rootVec, PiLp.inner_apply, RCLike.inner_apply, conj_trivial]
    exact Finset.sum_congr rfl fun j _ => mul_comm _ _
  have h1 : ∫ ω, ⟪indVec p (x 0 ω), t⟫ ∂P = 0 := by
    rw [integral_draw hx h0 0 fun a => ⟪indVec p a, t⟫]
    simp only [inner_indVec, ← hc]
    have : ∀ j, p j * (t j / √(p j) - c) = √(p j) * t j - p j * c := by
      intro j
      have h2 := Real.mul_self_sqrt (h0 j).le
      have := hs j
      rw [mul_sub]
      congr 1
      field_simp
      linear_combination (-t j) * h2
    simp only [this, Finset.sum_sub_distrib, hcs, ← Finset.sum_mul, hp]
    ring
  refine ⟨h1, ?_⟩
  have hm : Measurable fun ω => ⟪indVec p (x 0 ω), t⟫ :=
    (measurable_of_finite (fun a => ⟪indVec p a, t⟫)).comp (hx.measurable 0)
  rw [variance_of_integral_eq_zero hm.aemeasurable h1]
  rw [show (fun ω => ⟪indVec p (x 0 ω), t⟫ ^ 2) =
    fun ω => (fun a => ⟪indVec p a, t⟫ ^ 2) (x 0 ω) from rfl]
  rw [integral_draw hx h0 0 fun a => ⟪indVec p a, t⟫ ^ 2]
  simp only [inner_indVec, ← hc]
  have : ∀ j, p j * (t j / √(p j) - c) ^ 2 = t j ^ 2 - 2 * c * (√(p j) * t j) + p j * c ^ 2 := by
    intro j
    have h2 : (t j / √(p j)) ^ 2 * p j = t j ^ 2 := by
      rw [div_pow, Real.sq_sqrt (h0 j).le]; field_simp [(h0 j).ne']
    have h3 : t j / √(p j) * p j = √(p j) * t j := by
      conv_lhs => rw [show p j = √(p j) * √(p j) from (Real.mul_self_sqrt (h0 j).le).symm]
      have := hs j
      rw [Real.sqrt_mul_self (hs j |> fun _ => Real.sqrt_nonneg _)]
      field_simp
    linear_combination h2 - 2 * c * h3
  simp only [this, Finset.sum_add_distrib, Finset.sum_sub_distrib, ← Finset.mul_sum, hcs,
    ← Finset.sum_mul, hp, EuclideanSpace.real_norm_sq_eq]
  ring

theorem charFun_countVec [IsProbabilityMeasure P] (hx : IidDraws P p x) (h0 : ∀ j, 0 < p j)
    (hp : ∑ j, p j = 1) (t : EuclideanSpace ℝ (Fin k)) :
    Tendsto (fun n => charFun (P.map (countVec p x n)) t) atTop
      (𝓝 (Complex.exp (-((‖t‖ ^ 2 - ⟪rootVec p, t⟫ ^ 2 : ℝ) : ℂ) / 2))) := by
  obtain ⟨h1, hv⟩ := variance_draw hx h0 hp t
  set X : ℕ → Ω → ℝ := fun i ω => ⟪indVec p (x i ω), t⟫ with hX
  have hX0 : MemLp (X 0) 2 P := by
    have hf : MemLp (fun a => ⟪indVec p a, t⟫) 2 (P.map (x 0)) := by
      have : IsProbabilityMeasure (P.map (x 0)) :=
        Measure.isProbabilityMeasure_map (hx.measurable 0).aemeasurable
      exact MemLp.of_discrete
    exact hf.comp_of_map (hx.measurable 0).aemeasurable
  have hclt := tendstoInDistribution_inv_sqrt_mul_sum_sub (P := P) (X := X)
    (Y := (id : ℝ → ℝ)) (P' := gaussianReal 0 Var[X 0; P].toNNReal) HasLaw.id hX0
    (hx.indep.comp (fun _ a => ⟪indVec p a, t⟫) (fun _ => measurable_of_finite _))
    (fun i => (identDistrib_draw hx i).comp (measurable_of_finite (fun a => ⟪indVec p a, t⟫)))
  have h2 := ProbabilityMeasure.tendsto_iff_tendsto_charFun.1 hclt.tendsto 1
  have hX1 : P[X 0] = 0 := h1
  have hnn : 0 ≤ ‖t‖ ^ 2 - ⟪rootVec p, t⟫ ^ 2 := by
    rw [← hv]; exact variance_nonneg _ _
  have hv' : Var[X 0; P] = ‖t‖ ^ 2 - ⟪rootVec p, t⟫ ^ 2 := hv
  simp only [ProbabilityMeasure.coe_mk, hX1, mul_zero, sub_zero, Measure.map_id,
    charFun_gaussianReal, hv'] at h2
  have e : ∀ n, charFun (P.map (countVec p x n)) t =
      charFun (P.map fun ω => (√n)⁻¹ * ∑ i ∈ Finset.range n, X i ω) 1 := by
    intro n
    have hm : Measurable fun ω => (√n)⁻¹ * ∑ i ∈ Finset.range n, X i ω := by
      refine Measurable.const_mul (Finset.measurable_fun_sum _ fun i _ => ?_) _
      exact (measurable_of_finite (fun a => ⟪indVec p a, t⟫)).comp (hx.measurable i)
    rw [charFun_apply, charFun_apply_real, integral_map (measurable_countVec hx n).aemeasurable
      (by fun_prop), integral_map hm.aemeasurable (by fun_prop)]
    refine integral_congr_ae (.of_forall fun ω => ?_)
    simp only [countVec, hX, real_inner_smul_left, sum_inner]
    simp
  simp only [e]
  convert h2 using 2
  simp [Real.coe_toNNReal _ hnn]
  ring_nf

/-- The squared length of the part of a vector that is orthogonal to a unit vector. -/
theorem norm_sq_orthogonal {E : Type*} [NormedAddCommGroup E] [InnerProductSpace ℝ E]
    [FiniteDimensional ℝ E] {u : E} (hu : ‖u‖ = 1) (t : E) :
    ‖(ℝ ∙ u)ᗮ.orthogonalProjectionOnto t‖ ^ 2 = ‖t‖ ^ 2 - ⟪u, t⟫ ^ 2 := by
  have h1 := Submodule.norm_sq_eq_add_norm_sq_projection t (ℝ ∙ u)
  have h2 : ‖(ℝ ∙ u).orthogonalProjectionOnto t‖ ^ 2 = ⟪u, t⟫ ^ 2 := by
    have h3 : ‖(ℝ ∙ u).starProjection t‖ = ‖⟪u, t⟫ • u‖ := by
      rw [Submodule.starProjection_unit_singleton ℝ hu]
    rw [norm_smul, hu, mul_one, Real.norm_eq_abs] at h3
    rw [← sq_abs ⟪u, t⟫, ← h3]
    rfl
  linarith

theorem charFun_orthogonal {E : Type*} [NormedAddCommGroup E] [InnerProductSpace ℝ E]
    [FiniteDimensional ℝ E] [MeasurableSpace E] [BorelSpace E] {u : E} (hu : ‖u‖ = 1) (t : E) :
    charFun ((stdGaussian (ℝ ∙ u)ᗮ).map Subtype.val) t =
      Complex.exp (-((‖t‖ ^ 2 - ⟪u, t⟫ ^ 2 : ℝ) : ℂ) / 2) := by
  rw [← norm_sq_orthogonal hu t, charFun_apply, integral_map (by fun_prop) (by fun_prop)]
  have := charFun_stdGaussian ((ℝ ∙ u)ᗮ.orthogonalProjectionOnto t)
  rw [charFun_apply] at this
  push_cast
  rw [← this]
  congr 1
  funext y
  congr 3
  rw [real_inner_comm, real_inner_comm]
  exact (Submodule.inner_orthogonalProjectionOnto_eq_of_mem_left y t).symm

theorem norm_sq_law {E : Type*} [NormedAddCommGroup E] [InnerProductSpace ℝ E]
    [FiniteDimensional ℝ E] [MeasurableSpace E] [BorelSpace E] :
    (stdGaussian E).map (fun y => ‖y‖ ^ 2) = chiSquared (Module.finrank ℝ E) := by
  rw [stdGaussian, Measure.map_map (by fun_prop) (by fun_prop), chiSquared]
  congr 1
  funext z
  simp only [Function.comp_apply]
  rw [← real_inner_self_eq_norm_sq, (stdOrthonormalBasis ℝ E).orthonormal.inner_sum]
  simp [sq]

/-- The squared length of the standardised vector of counts is Pearson's statistic. -/
theorem norm_sq_countVec (h0 : ∀ j, 0 < p j) {n : ℕ} (hn : 0 < n) (ω : Ω) :
    ‖countVec p x n ω‖ ^ 2 =
      ∑ j, pearsonTerm n (p j) (occurrences (fun i : Fin n => x i ω) j) := by
  have hn' : (0 : ℝ) < n := by exact_mod_cast hn
  rw [EuclideanSpace.real_norm_sq_eq]
  refine Finset.sum_congr rfl fun j _ => ?_
  have hsum : ∑ i ∈ Finset.range n, (if x i ω = j then (1 : ℝ) else 0) =
      occurrences (fun i : Fin n => x i ω) j := by
    rw [Finset.sum_range fun i => if x i ω = j then (1 : ℝ) else 0, occurrences]
    simp
  have hc : (countVec p x n ω) j =
      (√n)⁻¹ * ((occurrences (fun i : Fin n => x i ω) j : ℝ) / √(p j) - n * √(p j)) := by
    rw [← hsum, Finset.sum_div]
    simp [countVec, indVec, Finset.sum_sub_distrib]
  have hp := Real.sqrt_pos.2 (h0 j)
  rw [hc, pearsonTerm, mul_pow, inv_pow, Real.sq_sqrt hn'.le]
  have h1 : (occurrences (fun i : Fin n => x i ω) j : ℝ) / √(p j) - n * √(p j) =
      (occurrences (fun i : Fin n => x i ω) j - n * p j) / √(p j) := by
    rw [sub_div, mul_div_assoc, Real.div_sqrt]
  rw [h1, div_pow, Real.sq_sqrt (h0 j).le]
  field_simp

theorem tendsto_map_measure {E : Type*} [TopologicalSpace E] [MeasurableSpace E] [BorelSpace E]
    {μ : ℕ → ProbabilityMeasure E} {ν : ProbabilityMeasure E} (h : Tendsto μ atTop (𝓝 ν))
    {g : E → ℝ} (hg : Continuous g) {S : Set ℝ}
    (hf : (ν : Measure E).map g (frontier S) = 0) :
    Tendsto (fun n => (μ n : Measure E).map g S) atTop (𝓝 ((ν : Measure E).map g S)) := by
  have h2 := ProbabilityMeasure.tendsto_map_of_tendsto_of_continuous _ _ h hg
  have h3 := ProbabilityMeasure.tendsto_measure_of_null_frontier_of_tendsto' h2 (E := S) (by
    simpa only [ProbabilityMeasure.toMeasure_map] using hf)
  simpa only [ProbabilityMeasure.toMeasure_map] using h3

/-- **The limit law of Pearson's statistic**, on sets whose boundary it does not charge. -/
theorem pearson_limit [IsProbabilityMeasure P] (hx : IidDraws P p x) (h0 : ∀ j, 0 < p j)
    (hp : ∑ j, p j = 1) {E : Set ℝ} (hE : MeasurableSet E)
    (hf : chiSquared (k - 1) (frontier E) = 0) :
    Tendsto (fun n : ℕ => P {ω |
      ∑ j, pearsonTerm n (p j) (occurrences (fun i : Fin n => x i ω) j) ∈ E}) atTop
      (𝓝 (chiSquared (k - 1) E)) := by
  have hu := norm_rootVec h0 hp
  have hk : 0 < k := by
    rcases Nat.eq_zero_or_pos k with rfl | h
    · simp at hp
    · exact h
  have hm : ∀ n, AEMeasurable (countVec p x n) P := fun n => (measurable_countVec hx n).aemeasurable
  have hpm : ∀ n, IsProbabilityMeasure (P.map (countVec p x n)) := fun n =>
    Measure.isProbabilityMeasure_map (hm n)
  have hpl : IsProbabilityMeasure
      ((stdGaussian (ℝ ∙ rootVec p)ᗮ).map (Subtype.val : (ℝ ∙ rootVec p)ᗮ → _)) :=
    Measure.isProbabilityMeasure_map (by fun_prop)
  have h1 : Tendsto (β := ProbabilityMeasure (EuclideanSpace ℝ (Fin k)))
      (fun n => ⟨P.map (countVec p x n), hpm n⟩) atTop (𝓝 ⟨_, hpl⟩) := by
    refine ProbabilityMeasure.tendsto_iff_tendsto_charFun.2 fun t => ?_
    simp only [ProbabilityMeasure.coe_mk]
    rw [charFun_orthogonal hu]
    exact charFun_countVec hx h0 hp t
  have hg : Continuous fun y : EuclideanSpace ℝ (Fin k) => ‖y‖ ^ 2 := by fun_prop
  have hlim : ((stdGaussian (ℝ ∙ rootVec p)ᗮ).map (Subtype.val : (ℝ ∙ rootVec p)ᗮ → _)).map
      (fun y => ‖y‖ ^ 2) = chiSquared (k - 1) := by
    rw [Measure.map_map (by fun_prop) (by fun_prop)]
    have : Fact (Module.finrank ℝ (EuclideanSpace ℝ (Fin k)) = (k - 1) + 1) :=
      ⟨by simp; omega⟩
    have hr : Module.finrank ℝ (ℝ ∙ rootVec p)ᗮ = k - 1 :=
      Submodule.finrank_orthogonal_span_singleton (by
        intro h; rw [h, norm_zero] at hu; exact zero_ne_one hu)
    rw [← hr, ← norm_sq_law]
    rfl
  have h3 : Tendsto (fun n => ((P.map (countVec p x n)).map fun y => ‖y‖ ^ 2) E) atTop
      (𝓝 (chiSquared (k - 1) E)) := by
    rw [← hlim] at hf ⊢
    exact tendsto_map_measure h1 hg hf
  refine h3.congr' ?_
  filter_upwards [eventually_gt_atTop 0] with n hn
  rw [Measure.map_map (by fun_prop) (measurable_countVec hx n),
    Measure.map_apply ((by fun_prop : Measurable fun y : EuclideanSpace ℝ (Fin k) => ‖y‖ ^ 2).comp
      (measurable_countVec hx n)) hE]
  congr 1
  ext ω
  simp only [Set.mem_preimage, Function.comp_apply, Set.mem_setOf_eq, norm_sq_countVec h0 hn]

end Dist.Spec
