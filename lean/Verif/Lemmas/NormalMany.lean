import Verif.Lemmas.DirichletDraw
import Verif.Lemmas.SampleLoop
import Verif.Lemmas.StudentMixture

/-! # Many normal draws with a random mean and variance -/

namespace Dist

open MeasureTheory ProbabilityTheory Real Spec

section vec

variable {Θ σ β : Type}

/-- `n` draws given a parameter. -/
def drawVec (E : Θ × σ → β × σ) : (n : ℕ) → Θ × σ → (Fin n → β) × σ
  | 0, q => (Fin.elim0, q.2)
  | n + 1, q =>
    (Fin.cons (α := fun _ => β) (E q).1 (drawVec E n (q.1, (E q).2)).1,
      (drawVec E n (q.1, (E q).2)).2)

theorem drawVec_meas [MeasurableSpace Θ] [MeasurableSpace σ] [MeasurableSpace β]
    {E : Θ × σ → β × σ} (hE : Measurable E) (n : ℕ) : Measurable (drawVec E n) := by
  induction n with
  | zero => exact measurable_const.prodMk measurable_snd
  | succ n ih =>
    have h2 := ih.comp (measurable_fst.prodMk (measurable_snd.comp hE))
    exact (measurable_fin_cons.comp
      ((measurable_fst.comp hE).prodMk (measurable_fst.comp h2))).prodMk (measurable_snd.comp h2)

theorem drawVec_lintegral [MeasurableSpace Θ] [MeasurableSpace σ] [MeasurableSpace β]
    {P : Measure σ} [SFinite P] {E : Θ × σ → β × σ} (hE : Measurable E) {θ : Θ} {κ : Measure β}
    [IsProbabilityMeasure κ] (h : HasLaw P (fun s => E (θ, s)) κ) (n : ℕ) {f : (Fin n → β) × σ → ENNReal}
    (hf : Measurable f) :
    ∫⁻ s, f (drawVec E n (θ, s)) ∂P = ∫⁻ x, ∫⁻ s, f (x, s) ∂P ∂Measure.pi (fun _ => κ) := by
  have hEθ : Measurable fun s => E (θ, s) := hE.comp measurable_prodMk_left
  induction n with
  | zero =>
    have hm : Measurable fun x : Fin 0 → β => ∫⁻ s, f (x, s) ∂P := hf.lintegral_prod_right'
    rw [Measure.pi_of_empty _ Fin.elim0, lintegral_dirac' _ hm]
    rfl
  | succ n ih =>
    have hm : Measurable fun x : Fin (n + 1) → β => ∫⁻ s, f (x, s) ∂P :=
      hf.lintegral_prod_right'
    rw [lintegral_pi_cons _ hm]
    have h1 : Measurable fun q : β × σ =>
        f (Fin.cons q.1 (drawVec E n (θ, q.2)).1, (drawVec E n (θ, q.2)).2) := by
      have h2 : Measurable fun q : β × σ => drawVec E n (θ, q.2) :=
        (drawVec_meas hE n).comp (measurable_const.prodMk measurable_snd)
      exact hf.comp ((measurable_fin_cons.comp (measurable_fst.prodMk
        (measurable_fst.comp h2))).prodMk (measurable_snd.comp h2))
    show ∫⁻ s, f (Fin.cons (E (θ, s)).1 (drawVec E n (θ, (E (θ, s)).2)).1,
      (drawVec E n (θ, (E (θ, s)).2)).2) ∂P = _
    have h3 := h.lintegral hEθ h1
    refine h3.trans ?_
    apply lintegral_congr
    intro y
    refine ih (f := fun q => f (Fin.cons y q.1, q.2)) ?_
    exact hf.comp ((measurable_fin_cons.comp (measurable_const.prodMk measurable_fst)).prodMk
      measurable_snd)

theorem drawVec_loop {W : Type} {E : Θ × σ → β × σ} {θ : Θ} {eval : σ → Res (W × σ)} (emb : β → W)
    (he : ∀ s, eval s = .ok (emb (E (θ, s)).1, (E (θ, s)).2)) (n : ℕ) (s : σ) :
    sampleLoop eval n s =
      .ok (List.ofFn fun i => emb ((drawVec E n (θ, s)).1 i), (drawVec E n (θ, s)).2) := by
  induction n generalizing s with
  | zero => rfl
  | succ n ih =>
    rw [sampleLoop, he, Res.ok_bind]
    simp only
    rw [ih, Res.ok_bind, List.ofFn_succ]
    rfl

end vec

/-- Integrals over independent normal variables. -/
theorem lintegral_gaussians (m : ℝ) {v : NNReal} (hv : v ≠ 0) (n : ℕ)
    {F : (Fin n → ℝ) → ENNReal} (hF : Measurable F) :
    ∫⁻ x, F x ∂Measure.pi (fun _ => gaussianReal m v) =
      ∫⁻ x, (∏ i, gaussianPDF m v (x i)) * F x := by
  induction n with
  | zero =>
    rw [Measure.pi_of_empty _ Fin.elim0, volume_pi, Measure.pi_of_empty _ Fin.elim0]
    simp
  | succ n ih =>
    have hpm : Measurable (gaussianPDF m v) := measurable_gaussianPDF m v
    have hm : Measurable fun x : Fin (n + 1) → ℝ => (∏ i, gaussianPDF m v (x i)) * F x := by
      refine Measurable.mul (Finset.measurable_prod _ fun i _ => ?_) hF
      exact hpm.comp (measurable_pi_apply i)
    rw [lintegral_pi_cons _ hF, volume_pi, lintegral_pi_cons _ hm]
    have hc : ∀ y : ℝ, Measurable fun q : Fin n → ℝ => F (Fin.cons y q) := fun y =>
      hF.comp (measurable_fin_cons.comp (measurable_const.prodMk measurable_id))
    have hc2 : Measurable fun q : ℝ × (Fin n → ℝ) => F (Fin.cons q.1 q.2) :=
      hF.comp measurable_fin_cons
    simp_rw [ih (hc _)]
    rw [gaussianReal_of_var_ne_zero _ hv, lintegral_withDensity_eq_lintegral_mul _ hpm]
    · apply lintegral_congr
      intro y
      simp only [Pi.mul_apply]
      rw [← lintegral_const_mul, volume_pi]
      · apply lintegral_congr
        intro q
        rw [Fin.prod_univ_succ]
        simp only [Fin.cons_zero, Fin.cons_succ, mul_assoc]
      · refine Measurable.mul (Finset.measurable_prod _ fun i _ => ?_) (hc y)
        exact hpm.comp (measurable_pi_apply i)
    · refine Measurable.lintegral_prod_right' (f := fun q : ℝ × (Fin n → ℝ) =>
        (∏ i, gaussianPDF m v (q.2 i)) * F (Fin.cons q.1 q.2)) ?_
      refine Measurable.mul (Finset.measurable_prod _ fun i _ => ?_) hc2
      exact hpm.comp ((measurable_pi_apply i).comp measurable_snd)

theorem sum_sq_split {n : ℕ} (x : Fin n → ℝ) (m C y : ℝ) (hm : m = (∑ i, x i) / n)
    (hC : C = ∑ i, (x i - m) ^ 2) : ∑ i, (x i - y) ^ 2 = C + n * (m - y) ^ 2 := by
  rcases Nat.eq_zero_or_pos n with rfl | hn
  · simp [hC]
  have hn' : (n : ℝ) ≠ 0 := by exact_mod_cast hn.ne'
  have hs : ∑ i, x i = n * m := by rw [hm]; field_simp
  have e : ∀ t : ℝ, ∑ i, (x i - t) ^ 2 = ∑ i, x i ^ 2 - 2 * t * ∑ i, x i + n * t ^ 2 := by
    intro t
    simp only [sub_sq, Finset.sum_add_distrib, Finset.sum_sub_distrib, Finset.sum_const,
      Finset.card_univ, Fintype.card_fin, nsmul_eq_mul, ← Finset.sum_mul, ← Finset.mul_sum]
    ring
  rw [hC, e, e, hs]
  ring

/-- The density of normal data whose mean is normal, at a given scale. -/
theorem gaussians_mean {mu ka v : ℝ} (hk : 0 < ka) (hv : 0 < v) {n : ℕ} (x : Fin n → ℝ)
    (m C : ℝ) (hm : m = (∑ i, x i) / n) (hC : C = ∑ i, (x i - m) ^ 2) :
    ∫⁻ y, ∏ i, gaussianPDF y v.toNNReal (x i) ∂gaussianReal mu (v / ka).toNNReal =
      ENNReal.ofReal (√(ka / (ka + n)) * ((√(2 * π * v))⁻¹ ^ n *
        exp (-((C + n * ka * (mu - m) * (mu - m) / (ka + n)) / (2 * v))))) := by
  have hkn : 0 < ka + (n : ℝ) := by positivity
  have hv0 : (v / ka).toNNReal ≠ 0 := by
    rw [Ne, Real.toNNReal_eq_zero, not_le]; positivity
  have hv1 : (v / (ka + n)).toNNReal ≠ 0 := by
    rw [Ne, Real.toNNReal_eq_zero, not_le]; positivity
  have hpm : Measurable fun y => ∏ i, gaussianPDF y v.toNNReal (x i) := by
    refine Finset.measurable_prod _ fun i _ => ?_
    unfold gaussianPDF gaussianPDFReal
    fun_prop
  rw [gaussianReal_of_var_ne_zero _ hv0, lintegral_withDensity_eq_lintegral_mul _
    (measurable_gaussianPDF _ _) hpm]
  have e : ∀ y, (gaussianPDF mu (v / ka).toNNReal * fun y => ∏ i, gaussianPDF y v.toNNReal (x i)) y =
      ENNReal.ofReal (√(ka / (ka + n)) * ((√(2 * π * v))⁻¹ ^ n *
        exp (-((C + n * ka * (mu - m) * (mu - m) / (ka + n)) / (2 * v))))) *
      gaussianPDF ((ka * mu + n * m) / (ka + n)) (v / (ka + n)).toNNReal y := by
    intro y
    simp only [Pi.mul_apply, gaussianPDF, gaussianPDFReal]
    rw [← ENNReal.ofReal_prod_of_nonneg (fun i _ => by positivity),
      ← ENNReal.ofReal_mul (by positivity), ← ENNReal.ofReal_mul (by positivity)]
    congr 1
    rw [Real.coe_toNNReal _ hv.le, Real.coe_toNNReal _ (by positivity),
      Real.coe_toNNReal _ (by positivity), Finset.prod_mul_distrib, Finset.prod_const,
      Finset.card_univ, Fintype.card_fin, ← Real.exp_sum]
    have e1 : (√(2 * π * (v / ka)))⁻¹ = √(ka / (ka + n)) * (√(2 * π * (v / (ka + n))))⁻¹ := by
      have : 2 * π * (v / (ka + n)) = 2 * π * (v / ka) * (ka / (ka + n)) := by field_simp
      have h1 : 0 < √(ka / (ka + n)) := by positivity
      rw [this, Real.sqrt_mul (by positivity : 0 ≤ 2 * π * (v / ka)), mul_inv, mul_left_comm,
        mul_inv_cancel₀ h1.ne', mul_one]
    have e2 : ∑ i, -(x i - y) ^ 2 / (2 * v) = -(C + n * (m - y) ^ 2) / (2 * v) := by
      rw [← Finset.sum_div, Finset.sum_neg_distrib, sum_sq_split x m C y hm hC]
    have e3 : exp (-(y - mu) ^ 2 / (2 * (v / ka))) * exp (-(C + n * (m - y) ^ 2) / (2 * v)) =
        exp (-((C + n * ka * (mu - m) * (mu - m) / (ka + n)) / (2 * v))) *
          exp (-(y - (ka * mu + n * m) / (ka + n)) ^ 2 / (2 * (v / (ka + n)))) := by
      rw [← Real.exp_add, ← Real.exp_add]
      congr 1
      field_simp
      ring
    rw [e1, e2]
    linear_combination √(ka / (ka + n)) * (√(2 * π * (v / (ka + n))))⁻¹ * (√(2 * π * v))⁻¹ ^ n * e3
  rw [lintegral_congr e, lintegral_const_mul _ (measurable_gaussianPDF _ _),
    lintegral_gaussianPDF_eq_one _ hv1, mul_one]

/-- The density of normal data whose mean is normal and whose variance is an inverse chi-squared
variable. -/
theorem nich_marginal {mu ka w nu : ℝ} (hk : 0 < ka) (hw : 0 < w) (hn : 0 < nu) {n : ℕ}
    (x : Fin n → ℝ) (m C : ℝ) (hm : m = (∑ i, x i) / n) (hC : C = ∑ i, (x i - m) ^ 2) :
    ∫⁻ c, ∫⁻ y, ∏ i, gaussianPDF y (w / c).toNNReal (x i) ∂gaussianReal mu (w / c / ka).toNNReal
        ∂gammaMeasure (nu / 2) (1 / 2) =
      ENNReal.ofReal (Gamma (1 / 2 * (nu + n)) / Gamma (1 / 2 * nu) * √(ka / (ka + n)) *
        (w ^ (1 / 2 * nu) * (w + C + n * ka * (mu - m) * (mu - m) / (ka + n)) ^
          (-(1 / 2 * (nu + n)))) * π ^ (-(1 / 2 * (n : ℝ)))) := by
  have hkn : 0 < ka + (n : ℝ) := by positivity
  have hn2 : 0 < nu / 2 := by linarith
  have hC0 : 0 ≤ C := by rw [hC]; positivity
  set Q := C + n * ka * (mu - m) * (mu - m) / (ka + n) with hQ
  have hQ0 : 0 ≤ Q := by
    have : n * ka * (mu - m) * (mu - m) / (ka + n) = n * ka * (mu - m) ^ 2 / (ka + n) := by ring
    rw [hQ, this]; positivity
  have e : ∀ᵐ c ∂gammaMeasure (nu / 2) (1 / 2),
      ∫⁻ y, ∏ i, gaussianPDF y (w / c).toNNReal (x i) ∂gaussianReal mu (w / c / ka).toNNReal =
      ENNReal.ofReal (√(ka / (ka + n)) * (√(2 * π * w))⁻¹ ^ n) *
        ENNReal.ofReal (c ^ (1 / 2 * (n : ℝ)) * exp (-(Q / (2 * w) * c))) := by
    filter_upwards [gamma_pos_ae _ _] with c hc
    rw [gaussians_mean hk (by positivity : 0 < w / c) x m C hm hC, ← hQ,
      ← ENNReal.ofReal_mul (by positivity)]
    congr 1
    have e1 : (√(2 * π * (w / c)))⁻¹ ^ n = (√(2 * π * w))⁻¹ ^ n * c ^ (1 / 2 * (n : ℝ)) := by
      rw [mul_div_assoc', Real.sqrt_div (by positivity), inv_div, div_eq_mul_inv, mul_pow, mul_comm]
      congr 1
      rw [Real.rpow_mul hc.le, ← Real.sqrt_eq_rpow, Real.rpow_natCast]
    have e2 : Q / (2 * (w / c)) = Q / (2 * w) * c := by field_simp
    rw [e1, e2]
    ring
  rw [lintegral_congr_ae e, lintegral_const_mul _ (by fun_prop),
    gamma_moment hn2 (by norm_num) (by positivity) (by positivity),
    ← ENNReal.ofReal_mul (by positivity)]
  congr 1
  have hS : 0 < w + Q := by positivity
  have e3 : w + C + n * ka * (mu - m) * (mu - m) / (ka + n) = w + Q := by rw [hQ]; ring
  have e4 : (1 / 2 : ℝ) + Q / (2 * w) = (2 * w)⁻¹ * (w + Q) := by field_simp
  have e5 : nu / 2 + 1 / 2 * (n : ℝ) = 1 / 2 * (nu + n) := by ring
  have e6 : nu / 2 = 1 / 2 * nu := by ring
  rw [e3, e4, e5, e6, Real.mul_rpow (by positivity) hS.le, Real.inv_rpow (by positivity),
    Real.rpow_neg (by positivity : 0 ≤ 2 * w), inv_inv, Real.mul_rpow (by norm_num) hw.le,
    mul_add, Real.rpow_add hw, Real.rpow_add (by norm_num : (0 : ℝ) < 2)]
  have e7 : (√(2 * π * w))⁻¹ ^ n = (2 ^ (1 / 2 * (n : ℝ)))⁻¹ * π ^ (-(1 / 2 * (n : ℝ))) *
      (w ^ (1 / 2 * (n : ℝ)))⁻¹ := by
    rw [inv_pow, ← Real.rpow_natCast, Real.sqrt_eq_rpow, ← Real.rpow_mul (by positivity),
      Real.mul_rpow (by positivity) hw.le, Real.mul_rpow (by norm_num) Real.pi_pos.le,
      Real.rpow_neg Real.pi_pos.le, mul_inv, mul_inv]
  have e8 : (1 / 2 : ℝ) ^ (1 / 2 * nu) = (2 ^ (1 / 2 * nu))⁻¹ := by
    rw [one_div, Real.inv_rpow (by norm_num)]
  rw [e7, e8]
  have p1 : (0 : ℝ) < 2 ^ (1 / 2 * (n : ℝ)) := by positivity
  have p2 : (0 : ℝ) < 2 ^ (1 / 2 * nu) := by positivity
  have p3 : 0 < w ^ (1 / 2 * (n : ℝ)) := by positivity
  have hG : 0 < Gamma (1 / 2 * nu) := Gamma_pos_of_pos (by positivity)
  field_simp

end Dist
