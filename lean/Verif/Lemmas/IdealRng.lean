import Verif.Spec.IdealRng
import Verif.Lemmas.GammaMoments

/-! # Sequential draws from an ideal source -/

namespace Dist.Spec

open MeasureTheory ProbabilityTheory

variable {σ β : Type} [MeasurableSpace σ] [MeasurableSpace β]

/-- Integration over the state before a draw, turned into integration over the value drawn and
the state after it. -/
theorem HasLaw.lintegral {P : Measure σ} [SFinite P] {d : σ → β × σ} {μ : Measure β}
    (h : HasLaw P d μ) (hd : Measurable d) {f : β × σ → ENNReal} (hf : Measurable f) :
    ∫⁻ s, f (d s) ∂P = ∫⁻ y, ∫⁻ s, f (y, s) ∂P ∂μ := by
  rw [← lintegral_map hf hd, h, lintegral_prod _ hf.aemeasurable]

/-- What holds for almost every value holds for almost every state before the draw. -/
theorem HasLaw.ae {P : Measure σ} [IsProbabilityMeasure P] {d : σ → β × σ} {μ : Measure β}
    [SFinite μ] (h : HasLaw P d μ) (hd : Measurable d) {p : β → Prop} (hp : ∀ᵐ y ∂μ, p y) :
    ∀ᵐ s ∂P, p (d s).1 := by
  have : ∀ᵐ q ∂P.map d, p q.1 := by
    rw [h]
    exact Measure.quasiMeasurePreserving_fst.ae hp
  exact ae_of_ae_map hd.aemeasurable this

/-- What holds for almost every state holds after the draw. -/
theorem HasLaw.ae_state {P : Measure σ} [IsProbabilityMeasure P] {d : σ → β × σ} {μ : Measure β}
    [SFinite μ] (h : HasLaw P d μ) (hd : Measurable d) {p : σ → Prop} (hp : ∀ᵐ s ∂P, p s) :
    ∀ᵐ s ∂P, p (d s).2 := by
  have : ∀ᵐ q ∂P.map d, p q.2 := by
    rw [h]
    exact Measure.quasiMeasurePreserving_snd.ae hp
  exact ae_of_ae_map hd.aemeasurable this

namespace IdealRng

variable (I : IdealRng σ)

instance : IsProbabilityMeasure I.P := I.prob

theorem gamma_lintegral {a b : ℝ} (ha : 0 < a) (hb : 0 < b) {f : ℝ × σ → ENNReal}
    (hf : Measurable f) :
    ∫⁻ s, f (I.gamma ((a, b), s)) ∂I.P = ∫⁻ y, ∫⁻ s, f (y, s) ∂I.P ∂gammaMeasure a (1 / b) :=
  (I.gamma_law a b ha hb).lintegral (I.gamma_meas.comp measurable_prodMk_left) hf

theorem normal_lintegral (m : ℝ) {b : ℝ} (hb : 0 < b) {f : ℝ × σ → ENNReal} (hf : Measurable f) :
    ∫⁻ s, f (I.normal ((m, b), s)) ∂I.P =
      ∫⁻ y, ∫⁻ s, f (y, s) ∂I.P ∂gaussianReal m (b ^ 2).toNNReal :=
  (I.normal_law m b hb).lintegral (I.normal_meas.comp measurable_prodMk_left) hf

theorem chisq_lintegral {a : ℝ} (ha : 0 < a) {f : ℝ × σ → ENNReal} (hf : Measurable f) :
    ∫⁻ s, f (I.chisq (a, s)) ∂I.P =
      ∫⁻ y, ∫⁻ s, f (y, s) ∂I.P ∂gammaMeasure (a / 2) (1 / 2) :=
  (I.chisq_law a ha).lintegral (I.chisq_meas.comp measurable_prodMk_left) hf

theorem poisson_lintegral {a : ℝ} (ha : 0 < a) {f : ℕ × σ → ENNReal} (hf : Measurable f) :
    ∫⁻ s, f (I.poisson (a, s)) ∂I.P =
      ∫⁻ y, ∫⁻ s, f (y, s) ∂I.P ∂poissonMeasure a.toNNReal :=
  (I.poisson_law a ha).lintegral (I.poisson_meas.comp measurable_prodMk_left) hf

theorem negBinomial_lintegral {r : ℕ} {p : ℝ} (hr : 0 < r) (h0 : 0 < p) (h1 : p < 1)
    {f : ℕ × σ → ENNReal} (hf : Measurable f) :
    ∫⁻ s, f (I.negBinomial r (p, s)) ∂I.P =
      ∫⁻ y, ∫⁻ s, f (y, s) ∂I.P ∂negBinomialMeasure r p :=
  (I.negBinomial_law r p hr h0 h1).lintegral
    ((I.negBinomial_meas r).comp measurable_prodMk_left) hf

theorem unif_lintegral {f : ℝ × σ → ENNReal} (hf : Measurable f) :
    ∫⁻ s, f (I.unif s) ∂I.P = ∫⁻ y in Set.Ico 0 1, ∫⁻ s, f (y, s) ∂I.P :=
  I.unif_law.lintegral I.unif_meas hf

end IdealRng

/-- Indicator of a value and a set of states, integrated over the states. -/
theorem lintegral_indicator_prod (P : Measure σ) (A : Set β) {B : Set σ} (hB : MeasurableSet B)
    (y : β) :
    ∫⁻ s, (A ×ˢ B).indicator (fun _ => (1 : ENNReal)) (y, s) ∂P =
      A.indicator (fun _ => P B) y := by
  by_cases hy : y ∈ A
  · rw [Set.indicator_of_mem hy]
    have : ∀ s, (A ×ˢ B).indicator (fun _ => (1 : ENNReal)) (y, s) = B.indicator (fun _ => 1) s := by
      intro s
      by_cases hs : s ∈ B <;> simp [hy, hs]
    simp_rw [this]
    rw [lintegral_indicator hB]; simp
  · rw [Set.indicator_of_notMem hy]
    have : ∀ s, (A ×ˢ B).indicator (fun _ => (1 : ENNReal)) (y, s) = 0 := by
      intro s
      simp [hy]
    simp_rw [this]; simp

end Dist.Spec
