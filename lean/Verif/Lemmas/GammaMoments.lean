import Mathlib.Probability.Distributions.Gamma
import Mathlib.MeasureTheory.Integral.Lebesgue.Basic
import Mathlib.MeasureTheory.Measure.Prod
import Mathlib.MeasureTheory.Constructions.Pi
import Mathlib.MeasureTheory.Integral.Pi
import Mathlib.Tactic.Positivity
import Mathlib.Tactic.FieldSimp
import Mathlib.Tactic.Ring
import Mathlib.Tactic.Linarith

/-! # Moments of independent gamma variables -/

namespace Dist

open MeasureTheory ProbabilityTheory Real Set

/-- A gamma variable is positive almost surely. -/
theorem gamma_pos_ae (a r : ℝ) : ∀ᵐ x ∂gammaMeasure a r, 0 < x := by
  have h0 : ∀ᵐ x : ℝ, x ≠ 0 := by
    have : (volume : Measure ℝ) {0} = 0 := by simp
    rw [ae_iff]; simpa using this
  rw [gammaMeasure]
  have hm : Measurable (gammaPDF a r) := (measurable_gammaPDFReal a r).ennreal_ofReal
  rw [ae_withDensity_iff hm]
  filter_upwards [h0] with x hx h
  by_contra hc
  apply h
  apply gammaPDF_of_neg
  rcases lt_or_eq_of_le (not_lt.1 hc) with h | h
  · exact h
  · exact absurd h hx

/-- `∫ t^(k-1) e^(-t s) dt = Γ(k) s^(-k)`. -/
theorem lintegral_rpow_exp {k s : ℝ} (hk : 0 < k) (hs : 0 < s) :
    ∫⁻ t in Ioi 0, ENNReal.ofReal (t ^ (k - 1) * exp (-(s * t))) =
      ENNReal.ofReal (Gamma k * s ^ (-k)) := by
  have h := lintegral_gammaPDF_eq_one hk hs
  have hsplit : ∫⁻ x, gammaPDF k s x = ∫⁻ x in Ioi 0, gammaPDF k s x := by
    rw [← lintegral_indicator measurableSet_Ioi]
    apply lintegral_congr_ae
    have h0 : ∀ᵐ x : ℝ, x ≠ 0 := by
      have : (volume : Measure ℝ) {0} = 0 := by simp
      rw [ae_iff]; simpa using this
    filter_upwards [h0] with x hx
    by_cases hx0 : 0 < x
    · simp [hx0]
    · have : x < 0 := lt_of_le_of_ne (not_lt.1 hx0) hx
      simp [hx0, gammaPDF_of_neg this]
  rw [hsplit] at h
  have hg := Gamma_pos_of_pos hk
  have e : ∀ x ∈ Ioi (0 : ℝ), gammaPDF k s x =
      ENNReal.ofReal (s ^ k / Gamma k) * ENNReal.ofReal (x ^ (k - 1) * exp (-(s * x))) := by
    intro x hx
    rw [gammaPDF_of_nonneg (le_of_lt hx), ← ENNReal.ofReal_mul (by positivity), mul_assoc]
  rw [setLIntegral_congr_fun measurableSet_Ioi e, lintegral_const_mul _ (by fun_prop)] at h
  have hc : ENNReal.ofReal (s ^ k / Gamma k) ≠ 0 := by
    rw [ne_eq, ENNReal.ofReal_eq_zero, not_le]; positivity
  have h2 : ENNReal.ofReal (s ^ k / Gamma k) * ENNReal.ofReal (Gamma k * s ^ (-k)) = 1 := by
    rw [← ENNReal.ofReal_mul (by positivity), rpow_neg hs.le]
    have : s ^ k / Gamma k * (Gamma k * (s ^ k)⁻¹) = 1 := by
      have : 0 < s ^ k := by positivity
      field_simp
    rw [this, ENNReal.ofReal_one]
  rw [← h2] at h
  exact (ENNReal.mul_right_inj hc ENNReal.ofReal_ne_top).1 h

/-- Moments of a gamma variable tilted by `e^(-t x)`. -/
theorem gamma_moment {a r k t : ℝ} (ha : 0 < a) (hr : 0 < r) (hk : 0 < a + k) (ht : 0 < r + t) :
    ∫⁻ x, ENNReal.ofReal (x ^ k * exp (-(t * x))) ∂gammaMeasure a r =
      ENNReal.ofReal (r ^ a / Gamma a * Gamma (a + k) * (r + t) ^ (-(a + k))) := by
  have hg := Gamma_pos_of_pos ha
  have hg2 := Gamma_pos_of_pos hk
  have hm : Measurable (gammaPDF a r) := (measurable_gammaPDFReal a r).ennreal_ofReal
  rw [gammaMeasure, lintegral_withDensity_eq_lintegral_mul _ hm (by fun_prop)]
  have h1 := lintegral_gammaPDF_eq_one hk ht
  have h0 : ∀ᵐ x : ℝ, x ≠ 0 := by
    have : (volume : Measure ℝ) {0} = 0 := by simp
    rw [ae_iff]; simpa using this
  have e : ∀ᵐ x : ℝ, (gammaPDF a r * fun x => ENNReal.ofReal (x ^ k * exp (-(t * x)))) x =
      ENNReal.ofReal (r ^ a / Gamma a * Gamma (a + k) * (r + t) ^ (-(a + k))) *
        gammaPDF (a + k) (r + t) x := by
    filter_upwards [h0] with x hx
    simp only [Pi.mul_apply]
    rcases lt_or_gt_of_ne hx with hx | hx
    · rw [gammaPDF_of_neg hx, gammaPDF_of_neg hx]; simp
    · rw [gammaPDF_of_nonneg hx.le, gammaPDF_of_nonneg hx.le, ← ENNReal.ofReal_mul (by positivity),
        ← ENNReal.ofReal_mul (by positivity)]
      congr 1
      rw [rpow_neg ht.le, show a + k - 1 = (a - 1) + k by ring, rpow_add hx,
        show -((r + t) * x) = -(r * x) + -(t * x) by ring, exp_add]
      have : 0 < (r + t) ^ (a + k) := by positivity
      field_simp
  have hm2 : Measurable (gammaPDF (a + k) (r + t)) :=
    (measurable_gammaPDFReal _ _).ennreal_ofReal
  rw [lintegral_congr_ae e, lintegral_const_mul _ hm2, h1, mul_one]

/-- The beta integral of the second kind. -/
theorem lintegral_beta_second {k A : ℝ} (hk : 0 < k) (hA : 0 < A) :
    ∫⁻ t in Ioi 0, ENNReal.ofReal (t ^ (k - 1) * (1 + t) ^ (-(A + k))) =
      ENNReal.ofReal (Gamma k * Gamma A / Gamma (A + k)) := by
  have hAk : 0 < A + k := by linarith
  haveI := isProbabilityMeasure_gammaMeasure hAk one_pos
  have e : ∀ t ∈ Ioi (0 : ℝ), ENNReal.ofReal (t ^ (k - 1) * (1 + t) ^ (-(A + k))) =
      ∫⁻ w, ENNReal.ofReal (t ^ (k - 1) * exp (-(w * t))) ∂gammaMeasure (A + k) 1 := by
    intro t ht
    have ht : 0 < t := ht
    have := gamma_moment (a := A + k) (r := 1) (k := 0) (t := t) hAk one_pos (by linarith)
      (by linarith)
    simp only [rpow_zero, one_mul, add_zero, one_rpow] at this
    rw [ENNReal.ofReal_mul (by positivity)]
    rw [show (1 + t) ^ (-(A + k)) = 1 / Gamma (A + k) * Gamma (A + k) * (1 + t) ^ (-(A + k)) by
      have := (Gamma_pos_of_pos hAk).ne'
      field_simp]
    rw [← this, ← lintegral_const_mul _ (by fun_prop)]
    apply lintegral_congr
    intro w
    rw [← ENNReal.ofReal_mul (by positivity), mul_comm w t]
  rw [setLIntegral_congr_fun measurableSet_Ioi e, lintegral_lintegral_swap (by fun_prop)]
  have e2 : ∀ᵐ w ∂gammaMeasure (A + k) 1,
      ∫⁻ t in Ioi 0, ENNReal.ofReal (t ^ (k - 1) * exp (-(w * t))) =
        ENNReal.ofReal (Gamma k) * ENNReal.ofReal (w ^ (-k) * exp (-(0 * w))) := by
    filter_upwards [gamma_pos_ae (A + k) 1] with w hw
    rw [lintegral_rpow_exp hk hw, ← ENNReal.ofReal_mul (Gamma_pos_of_pos hk).le]
    simp
  rw [lintegral_congr_ae e2, lintegral_const_mul _ (by fun_prop),
    gamma_moment hAk one_pos (by linarith) (by linarith),
    ← ENNReal.ofReal_mul (Gamma_pos_of_pos hk).le]
  congr 1
  simp only [one_rpow, add_zero, mul_one, one_div]
  rw [show A + k + -k = A by ring]
  ring

/-- Integration over a product space, one coordinate at a time. -/
theorem lintegral_pi_cons {α : Type} [MeasurableSpace α] {n : ℕ} (μ : Fin (n + 1) → Measure α)
    [∀ i, SigmaFinite (μ i)] {f : (Fin (n + 1) → α) → ENNReal} (hf : Measurable f) :
    ∫⁻ z, f z ∂Measure.pi μ =
      ∫⁻ x, ∫⁻ q, f (Fin.cons (α := fun _ => α) x q) ∂Measure.pi (fun i => μ i.succ) ∂μ 0 := by
  have h := (measurePreserving_piFinSuccAbove μ 0).symm
  rw [← h.lintegral_comp hf, lintegral_prod]
  · simp only [Fin.zero_succAbove, MeasurableEquiv.piFinSuccAbove_symm_apply, Fin.insertNthEquiv,
      Equiv.coe_fn_mk, Fin.insertNth_zero']
  · exact (hf.comp (MeasurableEquiv.measurable _)).aemeasurable

/-- The integral of a product of functions of the coordinates. -/
theorem lintegral_pi_prod {n : ℕ} (μ : Fin n → Measure ℝ) [∀ i, IsProbabilityMeasure (μ i)]
    (f : Fin n → ℝ → ENNReal) (hf : ∀ i, Measurable (f i)) :
    ∫⁻ z, ∏ i, f i (z i) ∂Measure.pi μ = ∏ i, ∫⁻ x, f i x ∂μ i := by
  induction n with
  | zero => simp
  | succ n ih =>
    have hm : Measurable fun z : Fin (n + 1) → ℝ => ∏ i, f i (z i) :=
      Finset.measurable_prod _ fun i _ => (hf i).comp (measurable_pi_apply i)
    rw [lintegral_pi_cons μ hm]
    simp only [Fin.prod_univ_succ, Fin.cons_zero, Fin.cons_succ]
    have : ∀ x, ∫⁻ q, f 0 x * ∏ i : Fin n, f i.succ (q i) ∂Measure.pi (fun i => μ i.succ) =
        f 0 x * ∏ i : Fin n, ∫⁻ y, f i.succ y ∂μ i.succ := by
      intro x
      have hm2 : Measurable fun q : Fin n → ℝ => ∏ i : Fin n, f i.succ (q i) :=
        Finset.measurable_prod _ fun i _ => (hf i.succ).comp (measurable_pi_apply i)
      rw [lintegral_const_mul _ hm2, ih (fun i => μ i.succ) (fun i => f i.succ)
        (fun i => hf i.succ)]
    simp_rw [this]
    rw [lintegral_mul_const _ (hf 0)]

/-- Independent gamma variables, all positive. -/
theorem gammas_pos_ae {n : ℕ} (a : Fin n → ℝ) (ha : ∀ i, 0 < a i) :
    ∀ᵐ x ∂Measure.pi (fun i => gammaMeasure (a i) 1), ∀ i, 0 < x i := by
  haveI : ∀ i, IsProbabilityMeasure (gammaMeasure (a i) 1) := fun i =>
    isProbabilityMeasure_gammaMeasure (ha i) one_pos
  rw [ae_all_iff]
  intro i
  exact (Measure.quasiMeasurePreserving_eval _ i).ae (gamma_pos_ae (a i) 1)

/-- **Moments of the Dirichlet distribution**, as quotients of independent gamma variables. -/
theorem dirichlet_moment {n : ℕ} (a k : Fin n → ℝ) (ha : ∀ i, 0 < a i) (hk : ∀ i, 0 ≤ k i)
    (hK : 0 < ∑ i, k i) :
    ∫⁻ x, ENNReal.ofReal ((∏ i, x i ^ k i) * (∑ i, x i) ^ (-∑ i, k i))
        ∂Measure.pi (fun i => gammaMeasure (a i) 1) =
      ENNReal.ofReal (Gamma (∑ i, a i) / Gamma (∑ i, a i + ∑ i, k i) *
        ∏ i, Gamma (a i + k i) / Gamma (a i)) := by
  haveI : ∀ i, IsProbabilityMeasure (gammaMeasure (a i) 1) := fun i =>
    isProbabilityMeasure_gammaMeasure (ha i) one_pos
  have hn : Nonempty (Fin n) := by
    by_contra h
    rw [not_nonempty_iff] at h
    simp at hK
  set K := ∑ i, k i with hKd
  set A := ∑ i, a i with hAd
  have hA : 0 < A := Finset.sum_pos (fun i _ => ha i) Finset.univ_nonempty
  have hGK := Gamma_pos_of_pos hK
  have e1 : ∀ᵐ x ∂Measure.pi (fun i => gammaMeasure (a i) 1),
      ENNReal.ofReal ((∏ i, x i ^ k i) * (∑ i, x i) ^ (-K)) =
        ENNReal.ofReal (Gamma K)⁻¹ * ∫⁻ t in Ioi 0, ENNReal.ofReal (t ^ (K - 1)) *
          ∏ i, ENNReal.ofReal (x i ^ k i * exp (-(t * x i))) := by
    filter_upwards [gammas_pos_ae a ha] with x hx
    have hS : 0 < ∑ i, x i := Finset.sum_pos (fun i _ => hx i) Finset.univ_nonempty
    have hp : 0 ≤ ∏ i, x i ^ k i := Finset.prod_nonneg fun i _ => by have := hx i; positivity
    have e2 : ∀ t ∈ Ioi (0 : ℝ), ENNReal.ofReal (t ^ (K - 1)) *
        ∏ i, ENNReal.ofReal (x i ^ k i * exp (-(t * x i))) =
        ENNReal.ofReal (∏ i, x i ^ k i) * ENNReal.ofReal (t ^ (K - 1) * exp (-((∑ i, x i) * t))) := by
      intro t ht
      have ht : 0 < t := ht
      rw [← ENNReal.ofReal_prod_of_nonneg (fun i _ => by have := hx i; positivity),
        ← ENNReal.ofReal_mul (by positivity), ← ENNReal.ofReal_mul hp, Finset.prod_mul_distrib,
        ← Real.exp_sum]
      congr 1
      rw [Finset.sum_neg_distrib, ← Finset.mul_sum, mul_comm t]
      ring
    rw [setLIntegral_congr_fun measurableSet_Ioi e2, lintegral_const_mul _ (by fun_prop),
      lintegral_rpow_exp hK hS, ← ENNReal.ofReal_mul hp, ← ENNReal.ofReal_mul (by positivity)]
    congr 1
    field_simp
  rw [lintegral_congr_ae e1, lintegral_const_mul']
  swap
  · exact ENNReal.ofReal_ne_top
  rw [lintegral_lintegral_swap]
  swap
  · apply Measurable.aemeasurable
    apply Measurable.mul
    · fun_prop
    · apply Finset.measurable_prod
      intro i _
      fun_prop
  have e3 : ∀ t ∈ Ioi (0 : ℝ), ∫⁻ x, ENNReal.ofReal (t ^ (K - 1)) *
        ∏ i, ENNReal.ofReal (x i ^ k i * exp (-(t * x i)))
          ∂Measure.pi (fun i => gammaMeasure (a i) 1) =
      ENNReal.ofReal (∏ i, Gamma (a i + k i) / Gamma (a i)) *
        ENNReal.ofReal (t ^ (K - 1) * (1 + t) ^ (-(A + K))) := by
    intro t ht
    have ht : 0 < t := ht
    rw [lintegral_const_mul _ (Finset.measurable_prod _ fun i _ => by fun_prop),
      lintegral_pi_prod (fun i => gammaMeasure (a i) 1)
        (fun i y => ENNReal.ofReal (y ^ k i * exp (-(t * y)))) (fun i => by fun_prop)]
    have hg : ∀ i, 0 < Gamma (a i + k i) / Gamma (a i) := fun i =>
      div_pos (Gamma_pos_of_pos (by have := ha i; have := hk i; linarith)) (Gamma_pos_of_pos (ha i))
    have : ∀ i, ∫⁻ y, ENNReal.ofReal (y ^ k i * exp (-(t * y))) ∂gammaMeasure (a i) 1 =
        ENNReal.ofReal (Gamma (a i + k i) / Gamma (a i) * (1 + t) ^ (-(a i + k i))) := by
      intro i
      rw [gamma_moment (ha i) one_pos (by have := ha i; have := hk i; linarith) (by linarith)]
      congr 1
      rw [one_rpow]
      ring
    simp_rw [this]
    rw [← ENNReal.ofReal_prod_of_nonneg (fun i _ => by have := hg i; positivity),
      ← ENNReal.ofReal_mul (by positivity),
      ← ENNReal.ofReal_mul (Finset.prod_nonneg fun i _ => (hg i).le), Finset.prod_mul_distrib,
      ← Real.rpow_sum_of_pos (by linarith), Finset.sum_neg_distrib, Finset.sum_add_distrib]
    congr 1
    ring
  rw [setLIntegral_congr_fun measurableSet_Ioi e3, lintegral_const_mul _ (by fun_prop),
    lintegral_beta_second hK hA, ← ENNReal.ofReal_mul (Finset.prod_nonneg fun i _ =>
      (div_pos (Gamma_pos_of_pos (by have := ha i; have := hk i; linarith))
        (Gamma_pos_of_pos (ha i))).le), ← ENNReal.ofReal_mul (by positivity)]
  congr 1
  field_simp

end Dist
