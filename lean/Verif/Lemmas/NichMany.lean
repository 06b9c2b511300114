import Verif.Lemmas.IdealRng
import Verif.Lemmas.NormalMany

/-! # Normal data drawn given a mean and a variance drawn once -/

namespace Dist

open Spec MeasureTheory ProbabilityTheory

variable {σ : Type} [MeasurableSpace σ]

/-- A chi-squared variable, a mean given it and `n` numbers given both; `w` is `nu * sigmasq`. -/
noncomputable def nichDraws (I : IdealRng σ) (mu kappa w nu : ℝ) (n : ℕ) (s : σ) :
    (Fin n → ℝ) × σ :=
  let c := I.chisq (nu, s)
  let y := I.normal ((mu, √(w / c.1 / kappa)), c.2)
  drawVec (fun q : (ℝ × ℝ) × σ => I.normal ((q.1.2, √(w / q.1.1)), q.2)) n ((c.1, y.1), y.2)

/-- The law of the numbers is a mixture of products of normal densities. -/
theorem nich_many (I : IdealRng σ) (mu : ℝ) {kappa w nu : ℝ} (hk : 0 < kappa) (hw : 0 < w)
    (hv : 0 < nu) (n : ℕ) {A : Set (Fin n → ℝ)} (hA : MeasurableSet A) {B : Set σ}
    (hB : MeasurableSet B) :
    I.P (nichDraws I mu kappa w nu n ⁻¹' (A ×ˢ B)) =
      (∫⁻ x in A, ∫⁻ c, ∫⁻ y, ∏ i, gaussianPDF y (w / c).toNNReal (x i)
        ∂gaussianReal mu (w / c / kappa).toNNReal ∂gammaMeasure (nu / 2) (1 / 2)) * I.P B := by
  haveI : IsProbabilityMeasure (gammaMeasure (nu / 2) (1 / 2)) :=
    isProbabilityMeasure_gammaMeasure (by positivity) (by norm_num)
  let E : (ℝ × ℝ) × σ → ℝ × σ := fun q => I.normal ((q.1.2, √(w / q.1.1)), q.2)
  have hnorm := I.normal_meas
  have hE : Measurable E := hnorm.comp (by fun_prop)
  let D : ℝ × σ → ℝ × σ := fun q => I.normal ((mu, √(w / q.1 / kappa)), q.2)
  have hD : Measurable D := hnorm.comp (by fun_prop)
  have hchi : Measurable fun s => I.chisq (nu, s) := I.chisq_meas.comp measurable_prodMk_left
  let R : ℝ × σ → (Fin n → ℝ) × σ := fun q => drawVec E n ((q.1, (D q).1), (D q).2)
  have hR : Measurable R := (drawVec_meas hE n).comp (by fun_prop)
  have hset : nichDraws I mu kappa w nu n ⁻¹' (A ×ˢ B) =
      (fun s => R (I.chisq (nu, s))) ⁻¹' (A ×ˢ B) := rfl
  have hAB := hA.prod hB
  let f : (Fin n → ℝ) × σ → ENNReal := (A ×ˢ B).indicator fun _ => 1
  have hf : Measurable f := Measurable.indicator measurable_const hAB
  have hABm : MeasurableSet ((fun s => R (I.chisq (nu, s))) ⁻¹' (A ×ˢ B)) := (hR.comp hchi) hAB
  rw [hset, ← lintegral_indicator_one hABm]
  have e1 : ∀ s, ((fun s => R (I.chisq (nu, s))) ⁻¹' (A ×ˢ B)).indicator (1 : σ → ENNReal) s =
    f (R (I.chisq (nu, s))) := fun s => rfl
  have hlhs : ∫⁻ s, ((fun s => R (I.chisq (nu, s))) ⁻¹' (A ×ˢ B)).indicator 1 s ∂I.P =
      ∫⁻ s, f (R (I.chisq (nu, s))) ∂I.P := lintegral_congr e1
  refine hlhs.trans ?_
  rw [I.chisq_lintegral (f := fun q => f (R q)) hv (hf.comp hR)]
  have e2 : ∀ᵐ c ∂gammaMeasure (nu / 2) (1 / 2), ∫⁻ s, f (R (c, s)) ∂I.P =
      (∫⁻ x in A, ∫⁻ y, ∏ i, gaussianPDF y (w / c).toNNReal (x i)
        ∂gaussianReal mu (w / c / kappa).toNNReal) * I.P B := by
    filter_upwards [gamma_pos_ae _ _] with c hc
    have h1 : 0 < √(w / c / kappa) := by positivity
    have h2 : 0 < √(w / c) := by positivity
    have hwc : 0 < w / c := by positivity
    have hv0 : (w / c).toNNReal ≠ 0 := by
      rw [Ne, Real.toNNReal_eq_zero, not_le]; positivity
    have hm2 : Measurable fun q : ℝ × σ => f (drawVec E n ((c, q.1), q.2)) :=
      hf.comp ((drawVec_meas hE n).comp (by fun_prop))
    have := I.normal_lintegral mu h1 hm2
    refine this.trans ?_
    rw [Real.sq_sqrt (by positivity)]
    have e3 : ∀ y, ∫⁻ s, f (drawVec E n ((c, y), s)) ∂I.P =
        (∫⁻ x, A.indicator (fun x => ∏ i, gaussianPDF y (w / c).toNNReal (x i)) x) * I.P B := by
      intro y
      have hlaw := I.normal_law y _ h2
      rw [Real.sq_sqrt hwc.le] at hlaw
      rw [drawVec_lintegral hE (θ := (c, y)) hlaw n hf]
      have hfm : Measurable fun x => ∫⁻ s, f (x, s) ∂I.P := hf.lintegral_prod_right'
      rw [lintegral_gaussians y hv0 n hfm, ← lintegral_mul_const']
      · apply lintegral_congr
        intro x
        by_cases hx : x ∈ A
        · have : ∫⁻ s, f (x, s) ∂I.P = I.P B := by
            have e4 : ∀ s, f (x, s) = B.indicator 1 s := by
              intro s
              by_cases hsB : s ∈ B <;> simp [f, hx, hsB]
            rw [lintegral_congr e4, lintegral_indicator_one hB]
          rw [this, Set.indicator_of_mem hx]
        · have : ∫⁻ s, f (x, s) ∂I.P = 0 := by
            have e4 : ∀ s, f (x, s) = 0 := by
              intro s
              simp [f, hx]
            rw [lintegral_congr e4, lintegral_zero]
          rw [this, Set.indicator_of_notMem hx, mul_zero, zero_mul]
      · exact measure_ne_top _ _
    have hg : Measurable fun q : ℝ × (Fin n → ℝ) => ∏ i, gaussianPDF q.1 (w / c).toNNReal (q.2 i) := by
      refine Finset.measurable_prod _ fun i _ => ?_
      unfold gaussianPDF gaussianPDFReal
      fun_prop
    simp_rw [e3]
    rw [lintegral_mul_const' _ _ (measure_ne_top _ _)]
    congr 1
    simp_rw [lintegral_indicator hA]
    exact lintegral_lintegral_swap hg.aemeasurable
  rw [lintegral_congr_ae e2, lintegral_mul_const' _ _ (measure_ne_top _ _)]
  congr 1
  let H : ℝ → (Fin n → ℝ) → ENNReal := fun c x =>
    ENNReal.ofReal (√(kappa / (kappa + n)) * ((√(2 * Real.pi * (w / c)))⁻¹ ^ n *
      Real.exp (-((∑ i, (x i - (∑ i, x i) / n) ^ 2 + n * kappa * (mu - (∑ i, x i) / n) *
        (mu - (∑ i, x i) / n) / (kappa + n)) / (2 * (w / c))))))
  have hH : ∀ᵐ c ∂gammaMeasure (nu / 2) (1 / 2), ∀ x : Fin n → ℝ,
      ∫⁻ y, ∏ i, gaussianPDF y (w / c).toNNReal (x i)
        ∂gaussianReal mu (w / c / kappa).toNNReal = H c x := by
    filter_upwards [gamma_pos_ae _ _] with c hc x
    exact gaussians_mean hk (by positivity) x _ _ rfl rfl
  have hHm : Measurable fun q : ℝ × (Fin n → ℝ) => H q.1 q.2 := by
    have hx : ∀ i : Fin n, Measurable fun q : ℝ × (Fin n → ℝ) => q.2 i := fun i =>
      (measurable_pi_apply i).comp measurable_snd
    have hsum : Measurable fun q : ℝ × (Fin n → ℝ) => ∑ i, q.2 i :=
      Finset.measurable_sum _ fun i _ => hx i
    have hsq : Measurable fun q : ℝ × (Fin n → ℝ) => ∑ i, (q.2 i - (∑ i, q.2 i) / n) ^ 2 :=
      Finset.measurable_sum _ fun i _ => ((hx i).sub (hsum.div_const _)).pow_const 2
    simp only [H]
    fun_prop
  have e6 : ∫⁻ c, (∫⁻ x in A, ∫⁻ y, ∏ i, gaussianPDF y (w / c).toNNReal (x i)
      ∂gaussianReal mu (w / c / kappa).toNNReal) ∂gammaMeasure (nu / 2) (1 / 2) =
      ∫⁻ c, (∫⁻ x in A, H c x) ∂gammaMeasure (nu / 2) (1 / 2) := by
    apply lintegral_congr_ae
    filter_upwards [hH] with c hc
    exact lintegral_congr hc
  have e7 : ∀ x : Fin n → ℝ, ∫⁻ c, ∫⁻ y, ∏ i, gaussianPDF y (w / c).toNNReal (x i)
      ∂gaussianReal mu (w / c / kappa).toNNReal ∂gammaMeasure (nu / 2) (1 / 2) =
      ∫⁻ c, H c x ∂gammaMeasure (nu / 2) (1 / 2) := by
    intro x
    apply lintegral_congr_ae
    filter_upwards [hH] with c hc
    exact hc x
  simp_rw [e7]
  rw [e6]
  exact lintegral_lintegral_swap hHm.aemeasurable

end Dist
