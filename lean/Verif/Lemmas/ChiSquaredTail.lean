import Verif.Lemmas.PearsonLimit
import Verif.Lemmas.GoodnessOfFit
import Mathlib.Probability.CDF
import Mathlib.Probability.Distributions.Exponential
import Mathlib.Probability.HasLawExists
import Mathlib.Probability.ProbabilityMassFunction.Constructions

/-!
# Tails of the chi-squared distribution, and the rejection of hypotheses
-/

namespace Dist.Spec

open MeasureTheory ProbabilityTheory Filter Set
open scoped Topology

theorem chiSquared_tail_eq (m : ℕ) (y : ℝ) :
    (chiSquared m).real (Ioi y) = 1 - cdf (chiSquared m) y := by
  rw [cdf_eq_real, ← compl_Iic, measureReal_compl measurableSet_Iic]
  simp

theorem continuous_cdf_chiSquared {m : ℕ} (hm : 0 < m) : Continuous (cdf (chiSquared m)) := by
  refine continuous_iff_continuousAt.2 fun y => ?_
  rw [(monotone_cdf _).continuousAt_iff_leftLim_eq_rightLim, (cdf (chiSquared m)).rightLim_eq]
  have h := (cdf (chiSquared m)).measure_singleton y
  rw [measure_cdf, chiSquared_singleton hm] at h
  have h2 := ENNReal.ofReal_eq_zero.1 h.symm
  have h3 := (monotone_cdf (chiSquared m)).leftLim_le (le_refl y)
  linarith

theorem chiSquared_Iic_zero {m : ℕ} (hm : 0 < m) : chiSquared m (Iic 0) = 0 := by
  refine le_antisymm ?_ zero_le
  rw [← chiSquared_singleton hm 0, chiSquared,
    Measure.map_apply (by fun_prop) measurableSet_Iic,
    Measure.map_apply (by fun_prop) (measurableSet_singleton _)]
  refine measure_mono fun z hz => ?_
  simp only [mem_preimage, mem_Iic, mem_singleton_iff] at hz ⊢
  exact le_antisymm hz (Finset.sum_nonneg fun i _ => sq_nonneg _)

theorem cdf_chiSquared_nonpos {m : ℕ} (hm : 0 < m) {y : ℝ} (hy : y ≤ 0) :
    cdf (chiSquared m) y = 0 := by
  have h : cdf (chiSquared m) 0 = 0 := by
    rw [cdf_eq_real, Measure.real, chiSquared_Iic_zero hm, ENNReal.toReal_zero]
  exact le_antisymm (h ▸ monotone_cdf _ hy) (cdf_nonneg _ _)

theorem cdf_chiSquared_lt {m : ℕ} (hm : 0 < m) {a b : ℝ} (ha : 0 ≤ a) (hab : a < b) :
    cdf (chiSquared m) a < cdf (chiSquared m) b := by
  have h := chiSquared_Ioo_pos hm ha hab
  have h2 : chiSquared m (Ioc a b) =
      ENNReal.ofReal (cdf (chiSquared m) b - cdf (chiSquared m) a) := by
    conv_lhs => rw [← measure_cdf (chiSquared m)]
    exact StieltjesFunction.measure_Ioc _ _ _
  have h3 := lt_of_lt_of_le h (measure_mono Ioo_subset_Ioc_self)
  rw [h2] at h3
  have := ENNReal.ofReal_pos.1 h3
  linarith

/-- The critical value of the level `α`. -/
theorem exists_critical {m : ℕ} (hm : 0 < m) {α : ℝ} (h0 : 0 < α) (h1 : α < 1) :
    ∃ c, 0 < c ∧ (chiSquared m).real (Ioi c) = α := by
  have hr : 1 - α ∈ range (cdf (chiSquared m)) := by
    refine mem_range_of_exists_le_of_exists_ge (continuous_cdf_chiSquared hm) ⟨0, ?_⟩ ?_
    · rw [cdf_chiSquared_nonpos hm le_rfl]; linarith
    · obtain ⟨y, hy⟩ := (Tendsto.eventually_const_le
        (show 1 - α < 1 by linarith) (tendsto_cdf_atTop (chiSquared m))).exists
      exact ⟨y, hy⟩
  obtain ⟨c, hc⟩ := hr
  refine ⟨c, ?_, by rw [chiSquared_tail_eq, hc]; ring⟩
  by_contra hn
  rw [cdf_chiSquared_nonpos hm (not_lt.1 hn)] at hc
  linarith

/-- The survival function is at most that of the critical value from there on. -/
theorem tail_le_iff {m : ℕ} (hm : 0 < m) {c : ℝ} (hc : 0 < c) (y : ℝ) :
    (chiSquared m).real (Ioi y) ≤ (chiSquared m).real (Ioi c) ↔ c ≤ y := by
  rw [chiSquared_tail_eq, chiSquared_tail_eq]
  constructor
  · intro h
    by_contra hn
    rcases le_or_gt 0 y with hy | hy
    · have := cdf_chiSquared_lt hm hy (not_le.1 hn)
      linarith
    · have h1 := cdf_chiSquared_lt hm le_rfl hc
      rw [cdf_chiSquared_nonpos hm le_rfl] at h1
      rw [cdf_chiSquared_nonpos hm hy.le] at h
      linarith
  · intro h
    have := monotone_cdf (chiSquared m) h
    linarith

theorem tail_lt {m : ℕ} (hm : 0 < m) {a b : ℝ} (ha : 0 ≤ a) (hab : a < b) :
    (chiSquared m).real (Ioi b) < (chiSquared m).real (Ioi a) := by
  rw [chiSquared_tail_eq, chiSquared_tail_eq]
  have := cdf_chiSquared_lt hm ha hab
  linarith

theorem chiSquared_Ici {m : ℕ} (hm : 0 < m) (c : ℝ) :
    chiSquared m (Ici c) = chiSquared m (Ioi c) := by
  refine measure_congr (Ioi_ae_eq_Ici' (chiSquared_singleton hm c)).symm

/-- With two degrees of freedom the tail is an exponential. -/
theorem tail_two {c : ℝ} (hc : 0 ≤ c) : (chiSquared 2).real (Ioi c) = Real.exp (-(c / 2)) := by
  have h : chiSquared 2 = expMeasure (1 / 2) := by
    rw [chiSquared_eq_gamma (by norm_num), expMeasure]
    norm_num
  rw [chiSquared_tail_eq, h, cdf_expMeasure_eq (by norm_num), if_pos hc]
  ring_nf

variable {Ω : Type*} [MeasurableSpace Ω] {P : Measure Ω} {k : ℕ} {p : Fin k → ℝ}
  {x : ℕ → Ω → Fin k}

/-- Pearson's statistic exceeds `c` with the probability that a chi-squared variable does, in the
limit. -/
theorem pearson_tail [IsProbabilityMeasure P] (hx : IidDraws P p x) (hk : 2 ≤ k)
    (h0 : ∀ j, 0 < p j) (hp : ∑ j, p j = 1) (c : ℝ) :
    Tendsto (fun n : ℕ => P.real {ω | c ≤
      ∑ j, pearsonTerm n (p j) (occurrences (fun i : Fin n => x i ω) j)}) atTop
      (𝓝 ((chiSquared (k - 1)).real (Ioi c))) := by
  have hm : 0 < k - 1 := by omega
  have h := pearson_limit hx h0 hp (E := Ici c) measurableSet_Ici
    (by rw [frontier_Ici]; exact chiSquared_singleton hm c)
  rw [chiSquared_Ici hm] at h
  exact (ENNReal.tendsto_toReal (measure_ne_top _ _)).comp h

theorem iidDraws_exists {p : Fin k → ℝ} (h0 : ∀ j, 0 ≤ p j) (hp : ∑ j, p j = 1) :
    ∃ (Ω : Type) (_ : MeasurableSpace Ω) (P : Measure Ω) (x : ℕ → Ω → Fin k),
      IsProbabilityMeasure P ∧ IidDraws P p x := by
  have hs : ∑ j, ENNReal.ofReal (p j) = 1 := by
    rw [← ENNReal.ofReal_sum_of_nonneg fun j _ => h0 j, hp, ENNReal.ofReal_one]
  obtain ⟨Ω, mΩ, P, X, hm, hl, hi, hP⟩ := exists_iid ℕ (PMF.ofFintype _ hs).toMeasure
  refine ⟨Ω, mΩ, P, X, hP, hm, hi, fun i j => ?_⟩
  rw [← Measure.map_apply (hm i) (measurableSet_singleton j), (hl i).map_eq,
    PMF.toMeasure_apply_singleton _ _ (measurableSet_singleton j), PMF.ofFintype_apply]

end Dist.Spec
