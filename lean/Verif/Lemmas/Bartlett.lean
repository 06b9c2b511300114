import Verif.Lemmas.GaussianLinear
import Verif.Lemmas.StudentMixture
import Verif.Lemmas.DirichletDraw
import Verif.Model.NIWSample

/-! # Bartlett's triangular matrix and the multivariate Student distribution -/

namespace Dist

open MeasureTheory ProbabilityTheory Real Spec Matrix

/-! ## Vectors and matrices, one row at a time -/

/-- A vector with one more entry. -/
abbrev snocVec {n : ℕ} (v : Fin n → ℝ) (x : ℝ) : Fin (n + 1) → ℝ := Fin.snoc (α := fun _ => ℝ) v x

theorem measurable_snocVec {n : ℕ} :
    Measurable fun p : (Fin n → ℝ) × ℝ => snocVec p.1 p.2 := by
  refine measurable_pi_iff.2 fun i => ?_
  refine Fin.lastCases ?_ (fun i => ?_) i
  · simpa using measurable_snd
  · simpa [Function.comp_def] using (measurable_pi_apply i).comp measurable_fst

theorem measurable_snocMat {n : ℕ} :
    Measurable fun p : (Fin n → Fin n → ℝ) × (Fin n → ℝ) => snocMat 0 p.1 p.2 := by
  refine measurable_pi_iff.2 fun i => measurable_pi_iff.2 fun j => ?_
  unfold snocMat
  refine Fin.lastCases ?_ (fun j => ?_) j
  · simp
  · simp only [Fin.lastCases_castSucc]
    refine Fin.lastCases ?_ (fun i => ?_) i
    · simpa [Function.comp_def] using (measurable_pi_apply j).comp measurable_snd
    · simpa [Function.comp_def] using (measurable_pi_apply j).comp ((measurable_pi_apply i).comp measurable_fst)

/-- Integration over independent variables, the last one split off. -/
theorem lintegral_pi_snoc {n : ℕ} (μ : Measure ℝ) [SigmaFinite μ]
    {f : (Fin (n + 1) → ℝ) → ENNReal} (hf : Measurable f) :
    ∫⁻ z, f z ∂Measure.pi (fun _ => μ) =
      ∫⁻ q, ∫⁻ x, f (snocVec q x) ∂μ ∂Measure.pi (fun _ => μ) := by
  have h := (measurePreserving_piFinSuccAbove (fun _ : Fin (n + 1) => μ) (Fin.last n)).symm
  rw [← h.lintegral_comp hf, lintegral_prod_symm]
  · simp only [MeasurableEquiv.piFinSuccAbove_symm_apply, Fin.insertNthEquiv,
      Equiv.coe_fn_mk, Fin.insertNth_last', snocVec]
  · exact (hf.comp (MeasurableEquiv.measurable _)).aemeasurable

/-! ## Laws of the diagonal and of the part below it -/

/-- Square roots of independent chi-square variables with `nu, nu - 1, ...` degrees of freedom. -/
noncomputable def chiLaw (nu : ℝ) : (n : ℕ) → Measure (Fin n → ℝ)
  | 0 => Measure.dirac Fin.elim0
  | n + 1 => ((chiLaw nu n).prod (gammaMeasure ((nu - n) / 2) (1 / 2))).map
      fun p => snocVec p.1 (√p.2)

/-- Independent standard normal variables below the diagonal. -/
noncomputable def lowLaw : (n : ℕ) → Measure (Fin n → Fin n → ℝ)
  | 0 => Measure.dirac Fin.elim0
  | n + 1 => ((lowLaw n).prod (stdNormals n)).map fun p => snocMat 0 p.1 p.2

theorem measurable_snoc_sqrt {n : ℕ} :
    Measurable fun p : (Fin n → ℝ) × ℝ => snocVec p.1 (√p.2) :=
  measurable_snocVec.comp (measurable_fst.prodMk measurable_snd.sqrt)

theorem chiLaw_prob {nu : ℝ} (n : ℕ) (h : (n : ℝ) - 1 < nu) :
    IsProbabilityMeasure (chiLaw nu n) := by
  induction n with
  | zero => unfold chiLaw; infer_instance
  | succ n ih =>
    push_cast at h
    haveI := ih (by linarith)
    haveI := isProbabilityMeasure_gammaMeasure (a := (nu - n) / 2) (r := 1 / 2) (by linarith)
      (by norm_num)
    exact Measure.isProbabilityMeasure_map measurable_snoc_sqrt.aemeasurable

instance lowLaw_prob (n : ℕ) : IsProbabilityMeasure (lowLaw n) := by
  induction n with
  | zero => unfold lowLaw; infer_instance
  | succ n ih => exact Measure.isProbabilityMeasure_map measurable_snocMat.aemeasurable

theorem chiLaw_pos {nu : ℝ} (n : ℕ) (h : (n : ℝ) - 1 < nu) :
    ∀ᵐ c ∂chiLaw nu n, ∀ i, 0 < c i := by
  induction n with
  | zero => exact Filter.Eventually.of_forall fun c i => i.elim0
  | succ n ih =>
    push_cast at h
    haveI := chiLaw_prob (nu := nu) n (by linarith)
    haveI := isProbabilityMeasure_gammaMeasure (a := (nu - n) / 2) (r := 1 / 2) (by linarith)
      (by norm_num)
    have hm : MeasurableSet {c : Fin (n + 1) → ℝ | ∀ i, 0 < c i} := by
      have : {c : Fin (n + 1) → ℝ | ∀ i, 0 < c i} = ⋂ i, {c | 0 < c i} := by ext; simp
      rw [this]
      exact MeasurableSet.iInter fun i => measurableSet_lt measurable_const (measurable_pi_apply i)
    unfold chiLaw
    rw [ae_map_iff measurable_snoc_sqrt.aemeasurable hm]
    have h1 : ∀ᵐ p ∂(chiLaw nu n).prod (gammaMeasure ((nu - n) / 2) (1 / 2)), ∀ i, 0 < p.1 i :=
      Measure.quasiMeasurePreserving_fst.ae (ih (by linarith))
    have h2 : ∀ᵐ p ∂(chiLaw nu n).prod (gammaMeasure ((nu - n) / 2) (1 / 2)), 0 < p.2 :=
      Measure.quasiMeasurePreserving_snd.ae (gamma_pos_ae _ _)
    filter_upwards [h1, h2] with p hp hq i
    refine Fin.lastCases ?_ (fun i => ?_) i
    · simpa using hq
    · simpa using hp i

theorem lowLaw_lower (n : ℕ) : ∀ᵐ M ∂lowLaw n, ∀ i j, i < j → M i j = 0 := by
  induction n with
  | zero => exact Filter.Eventually.of_forall fun c i => i.elim0
  | succ n ih =>
    have hm : MeasurableSet {M : Fin (n + 1) → Fin (n + 1) → ℝ | ∀ i j, i < j → M i j = 0} := by
      have : {M : Fin (n + 1) → Fin (n + 1) → ℝ | ∀ i j, i < j → M i j = 0} =
          ⋂ i, ⋂ j, {M | i < j → M i j = 0} := by ext; simp
      rw [this]
      refine MeasurableSet.iInter fun i => MeasurableSet.iInter fun j => ?_
      by_cases hij : i < j
      · simp only [hij, true_imp_iff]
        exact measurableSet_eq_fun ((measurable_pi_apply j).comp (measurable_pi_apply i))
          measurable_const
      · simp [hij]
    unfold lowLaw
    rw [ae_map_iff measurable_snocMat.aemeasurable hm]
    have h1 : ∀ᵐ p ∂(lowLaw n).prod (stdNormals n), ∀ i j, i < j → p.1 i j = 0 :=
      Measure.quasiMeasurePreserving_fst.ae ih
    filter_upwards [h1] with p hp i j
    refine Fin.lastCases (fun _ => ?_) (fun j => ?_) j
    · simp [snocMat]
    · refine Fin.lastCases (fun hlt => ?_) (fun i hlt => ?_) i
      · exact absurd hlt (not_lt.2 (Fin.le_last _))
      · simp only [snocMat, Fin.lastCases_castSucc]
        exact hp i j (by simpa using hlt)

/-! ## Solving the transposed triangular system -/

/-- The lower triangular matrix with diagonal `c` and the entries of `M` below it. -/
def bart {n : ℕ} (c : Fin n → ℝ) (M : Fin n → Fin n → ℝ) : Matrix (Fin n) (Fin n) ℝ := fun i j =>
  if i = j then c i else M i j

/-- The solution `y` of `Aᵀ y = z`, last entry first. -/
noncomputable def solveT : (n : ℕ) → (Fin n → ℝ) → (Fin n → Fin n → ℝ) → (Fin n → ℝ) → Fin n → ℝ
  | 0, _, _, _ => Fin.elim0
  | n + 1, c, M, z =>
    snocVec (solveT n (fun i => c i.castSucc) (fun i j => M i.castSucc j.castSucc)
      (fun i => z i.castSucc - z (Fin.last n) / c (Fin.last n) * M (Fin.last n) i.castSucc))
      (z (Fin.last n) / c (Fin.last n))

theorem solveT_measurable (n : ℕ) :
    Measurable fun p : (Fin n → ℝ) × (Fin n → Fin n → ℝ) × (Fin n → ℝ) =>
      solveT n p.1 p.2.1 p.2.2 := by
  induction n with
  | zero => exact measurable_const
  | succ n ih =>
    have hc : ∀ i, Measurable fun p : (Fin (n + 1) → ℝ) × (Fin (n + 1) → Fin (n + 1) → ℝ) ×
        (Fin (n + 1) → ℝ) => p.1 i := fun i => (measurable_pi_apply i).comp measurable_fst
    have hM : ∀ i j, Measurable fun p : (Fin (n + 1) → ℝ) × (Fin (n + 1) → Fin (n + 1) → ℝ) ×
        (Fin (n + 1) → ℝ) => p.2.1 i j := fun i j => (measurable_pi_apply j).comp
          ((measurable_pi_apply i).comp (measurable_fst.comp measurable_snd))
    have hz : ∀ i, Measurable fun p : (Fin (n + 1) → ℝ) × (Fin (n + 1) → Fin (n + 1) → ℝ) ×
        (Fin (n + 1) → ℝ) => p.2.2 i := fun i => (measurable_pi_apply i).comp
          (measurable_snd.comp measurable_snd)
    refine measurable_snocVec.comp (Measurable.prodMk (ih.comp (Measurable.prodMk ?_
      (Measurable.prodMk ?_ ?_))) ((hz _).div (hc _)))
    · exact measurable_pi_iff.2 fun i => hc _
    · exact measurable_pi_iff.2 fun i => measurable_pi_iff.2 fun j => hM _ _
    · exact measurable_pi_iff.2 fun i => (hz _).sub (((hz _).div (hc _)).mul (hM _ _))

theorem solveT_smul (n : ℕ) (c : Fin n → ℝ) (M : Fin n → Fin n → ℝ) (z : Fin n → ℝ) (a : ℝ) :
    solveT n c M (a • z) = a • solveT n c M z := by
  induction n with
  | zero => exact Subsingleton.elim _ _
  | succ n ih =>
    have e : (fun i : Fin n => (a • z) i.castSucc -
        (a • z) (Fin.last n) / c (Fin.last n) * M (Fin.last n) i.castSucc) =
        a • fun i : Fin n => z i.castSucc -
          z (Fin.last n) / c (Fin.last n) * M (Fin.last n) i.castSucc := by
      funext i
      simp only [Pi.smul_apply, smul_eq_mul]
      ring
    rw [solveT, e, ih, solveT]
    funext i
    refine Fin.lastCases ?_ (fun i => ?_) i
    · simp only [snocVec, Fin.snoc_last, Pi.smul_apply, smul_eq_mul]; ring
    · simp only [snocVec, Fin.snoc_castSucc, Pi.smul_apply, smul_eq_mul]

/-- `solveT` solves the transposed system. -/
theorem bart_transpose_solveT (n : ℕ) (c : Fin n → ℝ) (hc : ∀ i, c i ≠ 0)
    (M : Fin n → Fin n → ℝ) (hM : ∀ i j, i < j → M i j = 0) (z : Fin n → ℝ) :
    (bart c M)ᵀ *ᵥ solveT n c M z = z := by
  induction n with
  | zero => exact Subsingleton.elim _ _
  | succ n ih =>
    have ih' := ih (fun i => c i.castSucc) (fun i => hc _)
      (fun i j => M i.castSucc j.castSucc) (fun i j hij => hM _ _ (by simpa using hij))
      (fun i => z i.castSucc - z (Fin.last n) / c (Fin.last n) * M (Fin.last n) i.castSucc)
    funext j
    rw [mulVec, dotProduct, Fin.sum_univ_castSucc, solveT]
    simp only [snocVec, Fin.snoc_castSucc, Fin.snoc_last, transpose_apply]
    refine Fin.lastCases ?_ (fun j => ?_) j
    · have h0 : ∀ i : Fin n, bart c M i.castSucc (Fin.last n) = 0 := by
        intro i
        rw [bart, if_neg (Fin.castSucc_lt_last i).ne]
        exact hM _ _ (Fin.castSucc_lt_last i)
      simp only [h0, zero_mul, Finset.sum_const_zero, zero_add]
      rw [bart, if_pos rfl]
      exact mul_div_cancel₀ _ (hc _)
    · have h1 := congrFun ih' j
      rw [mulVec, dotProduct] at h1
      have h2 : ∀ i : Fin n, bart c M i.castSucc j.castSucc =
          (bart (fun i => c i.castSucc) (fun i j => M i.castSucc j.castSucc))ᵀ j i := by
        intro i
        simp only [bart, transpose_apply, Fin.castSucc_inj]
      simp only [h2]
      rw [h1, bart, if_neg (Fin.castSucc_lt_last j).ne']
      ring

theorem bart_det {n : ℕ} (c : Fin n → ℝ) (M : Fin n → Fin n → ℝ)
    (hM : ∀ i j, i < j → M i j = 0) : (bart c M).det = ∏ i, c i := by
  have h : ∀ i j, i < j → bart c M i j = 0 := fun i j hij => by
    rw [bart, if_neg hij.ne, hM i j hij]
  rw [Matrix.det_of_isLowerTriangular _ (fun i j hij => h i j hij)]
  exact Finset.prod_congr rfl fun i _ => by simp [bart]

theorem bart_inv_mulVec {n : ℕ} (c : Fin n → ℝ) (hc : ∀ i, c i ≠ 0)
    (M : Fin n → Fin n → ℝ) (hM : ∀ i j, i < j → M i j = 0) (z : Fin n → ℝ) :
    ((bart c M)ᵀ)⁻¹ *ᵥ z = solveT n c M z := by
  have hdet : IsUnit ((bart c M)ᵀ).det := by
    rw [det_transpose, bart_det c M hM, isUnit_iff_ne_zero, Finset.prod_ne_zero_iff]
    exact fun i _ => hc i
  conv_lhs => rw [← bart_transpose_solveT n c hc M hM z]
  rw [mulVec_mulVec, Matrix.nonsing_inv_mul _ hdet, one_mulVec]

/-! ## One normal variable over an independent chi variable -/

theorem normal_over_chi {k : ℝ} (hk : 0 < k) {f : ℝ → ENNReal} (hf : Measurable f) :
    ∫⁻ q, ∫⁻ l, f (l / √q) ∂gaussianReal 0 1 ∂gammaMeasure (k / 2) (1 / 2) =
      ∫⁻ t, ENNReal.ofReal (studentT k 0 (1 / k) t) * f t := by
  haveI := isProbabilityMeasure_gammaMeasure (a := k / 2) (r := 1 / 2) (by linarith) (by norm_num)
  have hm : Measurable fun p : ℝ × ℝ => p.2 / √p.1 := measurable_snd.div measurable_fst.sqrt
  have hd : Measurable fun t => ENNReal.ofReal (studentT k 0 (1 / k) t) := by
    unfold studentT; fun_prop
  have key : ((gammaMeasure (k / 2) (1 / 2)).prod (gaussianReal 0 1)).map (fun p => p.2 / √p.1) =
      volume.withDensity fun t => ENNReal.ofReal (studentT k 0 (1 / k) t) := by
    ext A hA
    rw [withDensity_apply _ hA, ← student_mix hk one_pos 0 hA, Measure.map_apply hm hA,
      Measure.prod_apply (hm hA)]
    apply lintegral_congr_ae
    filter_upwards [gamma_pos_ae _ _] with q hq
    have h2 := gaussianReal_map_const_mul (μ := 0) (v := 1) (1 / √q)
    rw [mul_zero, mul_one] at h2
    have h3 : (NNReal.mk ((1 / √q) ^ 2) (sq_nonneg _)) = (1 / q).toNNReal := by
      apply NNReal.eq
      rw [Real.coe_toNNReal _ (by positivity), NNReal.coe_mk, div_pow, Real.sq_sqrt hq.le, one_pow]
    rw [← h3, ← h2, Measure.map_apply (by fun_prop) hA]
    congr 1
    ext l
    simp only [Set.mem_preimage]
    rw [div_eq_mul_one_div, mul_comm]
  have h4 := lintegral_withDensity_eq_lintegral_mul volume hd hf
  refine Eq.trans ?_ h4
  rw [← key, lintegral_map hf hm]
  exact (lintegral_prod _ (hf.comp hm).aemeasurable).symm

/-! ## Reordering integrals -/

section reorder

variable {α β γ δ ε ζ : Type*} [MeasurableSpace α] [MeasurableSpace β] [MeasurableSpace γ]
  [MeasurableSpace δ] [MeasurableSpace ε] [MeasurableSpace ζ]

theorem lintegral_nest4 (μ₁ : Measure α) (μ₂ : Measure β) (μ₃ : Measure γ) (μ₄ : Measure δ)
    [SFinite μ₁] [SFinite μ₂] [SFinite μ₃] [SFinite μ₄] {F : α × β × γ × δ → ENNReal}
    (hF : Measurable F) :
    ∫⁻ a, ∫⁻ b, ∫⁻ c, ∫⁻ d, F (a, b, c, d) ∂μ₄ ∂μ₃ ∂μ₂ ∂μ₁ =
      ∫⁻ w, F w ∂(μ₁.prod (μ₂.prod (μ₃.prod μ₄))) := by
  rw [lintegral_prod _ hF.aemeasurable]
  apply lintegral_congr
  intro a
  have h1 : Measurable fun p : β × γ × δ => F (a, p) := hF.comp measurable_prodMk_left
  rw [lintegral_prod _ h1.aemeasurable]
  apply lintegral_congr
  intro b
  have h2 : Measurable fun p : γ × δ => F (a, b, p) := h1.comp measurable_prodMk_left
  rw [lintegral_prod _ h2.aemeasurable]

/-- The second and the last variable of six brought to the front. -/
theorem lintegral_reorder (μ₁ : Measure α) (μ₂ : Measure β) (μ₃ : Measure γ) (μ₄ : Measure δ)
    (μ₅ : Measure ε) (μ₆ : Measure ζ) [SFinite μ₁] [SFinite μ₂] [SFinite μ₃] [SFinite μ₄]
    [SFinite μ₅] [SFinite μ₆] {H : (α × γ × δ × ε) × β × ζ → ENNReal} (hH : Measurable H) :
    ∫⁻ a, ∫⁻ b, ∫⁻ c, ∫⁻ d, ∫⁻ e, ∫⁻ f, H ((a, c, d, e), b, f) ∂μ₆ ∂μ₅ ∂μ₄ ∂μ₃ ∂μ₂ ∂μ₁ =
      ∫⁻ b, ∫⁻ f, ∫⁻ a, ∫⁻ c, ∫⁻ d, ∫⁻ e, H ((a, c, d, e), b, f) ∂μ₅ ∂μ₄ ∂μ₃ ∂μ₁ ∂μ₆ ∂μ₂ := by
  have h6 : Measurable fun p : (α × γ × δ × ε) × β => ∫⁻ f, H (p.1, p.2, f) ∂μ₆ := by
    refine Measurable.lintegral_prod_right' (f := fun q : ((α × γ × δ × ε) × β) × ζ =>
      H (q.1.1, q.1.2, q.2)) (hH.comp (by fun_prop))
  have h5 : Measurable fun p : (α × β × γ × δ) => ∫⁻ e, ∫⁻ f, H ((p.1, p.2.2.1, p.2.2.2, e), p.2.1, f) ∂μ₆ ∂μ₅ := by
    refine Measurable.lintegral_prod_right' (f := fun q : (α × β × γ × δ) × ε =>
      ∫⁻ f, H ((q.1.1, q.1.2.2.1, q.1.2.2.2, q.2), q.1.2.1, f) ∂μ₆) (h6.comp (f := fun q : (α × β × γ × δ) × ε => ((q.1.1, q.1.2.2.1, q.1.2.2.2, q.2), q.1.2.1)) (by fun_prop))
  have h4 : Measurable fun p : (α × β × γ) => ∫⁻ d, ∫⁻ e, ∫⁻ f, H ((p.1, p.2.2, d, e), p.2.1, f) ∂μ₆ ∂μ₅ ∂μ₄ := by
    refine Measurable.lintegral_prod_right' (f := fun q : (α × β × γ) × δ =>
      ∫⁻ e, ∫⁻ f, H ((q.1.1, q.1.2.2, q.2, e), q.1.2.1, f) ∂μ₆ ∂μ₅) (h5.comp (f := fun q : (α × β × γ) × δ => (q.1.1, q.1.2.1, q.1.2.2, q.2)) (by fun_prop))
  have h3 : Measurable fun p : (α × β) => ∫⁻ c, ∫⁻ d, ∫⁻ e, ∫⁻ f, H ((p.1, c, d, e), p.2, f) ∂μ₆ ∂μ₅ ∂μ₄ ∂μ₃ := by
    refine Measurable.lintegral_prod_right' (f := fun q : (α × β) × γ =>
      ∫⁻ d, ∫⁻ e, ∫⁻ f, H ((q.1.1, q.2, d, e), q.1.2, f) ∂μ₆ ∂μ₅ ∂μ₄) (h4.comp (f := fun q : (α × β) × γ => (q.1.1, q.1.2, q.2)) (by fun_prop))
  rw [lintegral_lintegral_swap (f := fun a b => ∫⁻ c, ∫⁻ d, ∫⁻ e, ∫⁻ f, H ((a, c, d, e), b, f) ∂μ₆ ∂μ₅ ∂μ₄ ∂μ₃)
    h3.aemeasurable]
  apply lintegral_congr
  intro b
  have hb : Measurable fun p : (α × γ × δ × ε) × ζ => H (p.1, b, p.2) := hH.comp (by fun_prop)
  rw [lintegral_nest4 μ₁ μ₃ μ₄ μ₅ (F := fun w => ∫⁻ f, H (w, b, f) ∂μ₆) hb.lintegral_prod_right',
    lintegral_lintegral_swap (f := fun w f => H (w, b, f)) hb.aemeasurable]
  apply lintegral_congr
  intro f
  rw [lintegral_nest4 μ₁ μ₃ μ₄ μ₅ (F := fun w => H (w, b, f)) (hH.comp (by fun_prop))]

end reorder

/-! ## The law of the solution -/

/-- Density of the solution of `Aᵀ y = z` for standard normal `z`. -/
noncomputable def bartDensity (nu : ℝ) (n : ℕ) (y : Fin n → ℝ) : ℝ :=
  Gamma ((nu + 1) / 2) / (Gamma ((nu - n + 1) / 2) * π ^ ((n : ℝ) / 2)) *
    (1 + ∑ i, y i ^ 2) ^ (-(nu + 1) / 2)

theorem bartDensity_measurable (nu : ℝ) (n : ℕ) : Measurable (bartDensity nu n) := by
  unfold bartDensity
  fun_prop

theorem bartDensity_succ {nu : ℝ} {n : ℕ} (h : (n : ℝ) < nu) (y : Fin n → ℝ) (t : ℝ) :
    studentT (nu - n) 0 (1 / (nu - n)) t *
      ((√(1 + t ^ 2) ^ n)⁻¹ * bartDensity nu n ((√(1 + t ^ 2))⁻¹ • y)) =
      bartDensity nu (n + 1) (snocVec y t) := by
  have hk : 0 < nu - n := by linarith
  have hs : 0 < 1 + t ^ 2 := by positivity
  have hr : 0 < √(1 + t ^ 2) := Real.sqrt_pos.2 hs
  have hG := Gamma_pos_of_pos (show 0 < (nu - n + 1) / 2 by linarith)
  have hy : 0 ≤ ∑ i, y i ^ 2 := Finset.sum_nonneg fun i _ => sq_nonneg _
  have e1 : 1 + ∑ i, ((√(1 + t ^ 2))⁻¹ • y) i ^ 2 = (1 + t ^ 2 + ∑ i, y i ^ 2) / (1 + t ^ 2) := by
    simp only [Pi.smul_apply, smul_eq_mul, mul_pow, inv_pow, Real.sq_sqrt hs.le]
    rw [← Finset.mul_sum]
    field_simp
  have e2 : 1 + ∑ i, snocVec y t i ^ 2 = 1 + t ^ 2 + ∑ i, y i ^ 2 := by
    rw [Fin.sum_univ_castSucc]
    simp only [snocVec, Fin.snoc_castSucc, Fin.snoc_last]
    ring
  unfold bartDensity studentT
  rw [e1, e2, sub_zero, show (nu - n) * π * (1 / (nu - n)) = π by field_simp,
    show (nu - n) * (1 / (nu - n)) = 1 by field_simp, div_one,
    Real.div_rpow (by positivity) hs.le]
  have e3 : √(1 + t ^ 2) ^ n = (1 + t ^ 2) ^ ((n : ℝ) / 2) := by
    rw [Real.sqrt_eq_rpow, ← Real.rpow_natCast, ← Real.rpow_mul hs.le]
    congr 1; ring
  have e4 : (1 + t ^ 2) ^ (-(nu - n + 1) / 2) = (1 + t ^ 2) ^ ((n : ℝ) / 2) *
      (1 + t ^ 2) ^ (-(nu + 1) / 2) := by
    rw [← Real.rpow_add hs]; congr 1; ring
  have e5 : π ^ (((n + 1 : ℕ) : ℝ) / 2) = √π * π ^ ((n : ℝ) / 2) := by
    rw [Real.sqrt_eq_rpow, ← Real.rpow_add pi_pos]; congr 1; push_cast; ring
  have p1 := Real.rpow_pos_of_pos hs ((n : ℝ) / 2)
  have p2 := Real.rpow_pos_of_pos hs (-(nu + 1) / 2)
  have p3 := Real.rpow_pos_of_pos pi_pos ((n : ℝ) / 2)
  have p4 : 0 < √π := Real.sqrt_pos.2 pi_pos
  have hG2 := Gamma_pos_of_pos (show 0 < (nu - n) / 2 by linarith)
  rw [e3, e4, e5, show nu - ((n + 1 : ℕ) : ℝ) + 1 = nu - n by push_cast; ring]
  field_simp

/-- Scaling in `n` dimensions. -/
theorem lintegral_smul_vec {n : ℕ} {a : ℝ} (ha : 0 < a) {f : (Fin n → ℝ) → ENNReal}
    (hf : Measurable f) :
    ∫⁻ y, f (a • y) = ENNReal.ofReal (a ^ n)⁻¹ * ∫⁻ y, f y := by
  have h := Measure.map_addHaar_smul (volume : Measure (Fin n → ℝ)) ha.ne'
  rw [← lintegral_map hf (measurable_const_smul a), h, lintegral_smul_measure]
  simp only [Module.finrank_fintype_fun_eq_card, Fintype.card_fin, smul_eq_mul]
  rw [abs_of_pos (by positivity)]

/-- **Bartlett.** With the square roots of independent chi-square variables with `nu, nu - 1, ...`
degrees of freedom on the diagonal of `A` and standard normal variables below it, and a standard
normal vector `z`, the solution of `Aᵀ y = z` has a multivariate Student density. -/
theorem bartlett {nu : ℝ} (n : ℕ) (hn : (n : ℝ) - 1 < nu) {h : (Fin n → ℝ) → ENNReal}
    (hh : Measurable h) :
    ∫⁻ c, ∫⁻ M, ∫⁻ z, h (solveT n c M z) ∂stdNormals n ∂lowLaw n ∂chiLaw nu n =
      ∫⁻ y, ENNReal.ofReal (bartDensity nu n y) * h y := by
  induction n with
  | zero =>
    have hG := Gamma_pos_of_pos (show 0 < (nu + 1) / 2 by push_cast at hn; linarith)
    have e : ∀ y, bartDensity nu 0 y = 1 := by
      intro y
      unfold bartDensity
      simp [hG.ne']
    have e2 : ∀ y, h y = h Fin.elim0 := fun y => congrArg h (Subsingleton.elim _ _)
    haveI := chiLaw_prob (nu := nu) 0 hn
    simp only [e, ENNReal.ofReal_one, one_mul]
    simp_rw [e2]
    rw [volume_pi, Measure.pi_of_empty _ Fin.elim0]
    simp
  | succ n ih =>
    push_cast at hn
    have hn' : (n : ℝ) - 1 < nu := by linarith
    haveI := chiLaw_prob (nu := nu) n hn'
    haveI := isProbabilityMeasure_gammaMeasure (a := (nu - n) / 2) (r := 1 / 2) (by linarith)
      (by norm_num)
    have hS := solveT_measurable n
    -- the integrand in terms of the six groups of variables
    let H : ((Fin n → ℝ) × (Fin n → Fin n → ℝ) × (Fin n → ℝ) × (Fin n → ℝ)) × ℝ × ℝ → ENNReal :=
      fun w => h (snocVec (solveT n w.1.1 w.1.2.1
        (fun i => w.1.2.2.2 i - w.2.2 / √w.2.1 * w.1.2.2.1 i)) (w.2.2 / √w.2.1))
    have hq : Measurable fun w : ((Fin n → ℝ) × (Fin n → Fin n → ℝ) × (Fin n → ℝ) ×
        (Fin n → ℝ)) × ℝ × ℝ => w.2.2 / √w.2.1 :=
      (measurable_snd.comp measurable_snd).div (measurable_fst.comp measurable_snd).sqrt
    have hH : Measurable H := by
      refine hh.comp (measurable_snocVec.comp (Measurable.prodMk (hS.comp (Measurable.prodMk ?_
        (Measurable.prodMk ?_ ?_))) hq))
      · fun_prop
      · fun_prop
      · refine measurable_pi_iff.2 fun i => Measurable.sub (by fun_prop) (hq.mul (by fun_prop))
    have step1 : ∫⁻ c, ∫⁻ M, ∫⁻ z, h (solveT (n + 1) c M z) ∂stdNormals (n + 1) ∂lowLaw (n + 1)
          ∂chiLaw nu (n + 1) =
        ∫⁻ c, ∫⁻ q, ∫⁻ M, ∫⁻ r, ∫⁻ z, ∫⁻ l, H ((c, M, r, z), q, l) ∂gaussianReal 0 1
          ∂stdNormals n ∂stdNormals n ∂lowLaw n ∂gammaMeasure ((nu - n) / 2) (1 / 2)
          ∂chiLaw nu n := by
      have hS1 := solveT_measurable (n + 1)
      have g1 : Measurable fun p : (Fin (n + 1) → ℝ) × (Fin (n + 1) → Fin (n + 1) → ℝ) =>
          ∫⁻ z, h (solveT (n + 1) p.1 p.2 z) ∂stdNormals (n + 1) := by
        refine Measurable.lintegral_prod_right' (f := fun q : ((Fin (n + 1) → ℝ) ×
          (Fin (n + 1) → Fin (n + 1) → ℝ)) × (Fin (n + 1) → ℝ) =>
          h (solveT (n + 1) q.1.1 q.1.2 q.2)) (hh.comp (hS1.comp (f := fun q : ((Fin (n + 1) → ℝ) ×
          (Fin (n + 1) → Fin (n + 1) → ℝ)) × (Fin (n + 1) → ℝ) => (q.1.1, q.1.2, q.2))
          (by fun_prop)))
      have g2 : Measurable fun c : Fin (n + 1) → ℝ => ∫⁻ M, ∫⁻ z, h (solveT (n + 1) c M z)
          ∂stdNormals (n + 1) ∂lowLaw (n + 1) := g1.lintegral_prod_right'
      rw [chiLaw, lintegral_map g2 measurable_snoc_sqrt]
      refine (lintegral_prod _ (g2.comp measurable_snoc_sqrt).aemeasurable).trans ?_
      apply lintegral_congr
      intro c
      apply lintegral_congr
      intro q
      have g3 : Measurable fun M : Fin (n + 1) → Fin (n + 1) → ℝ =>
          ∫⁻ z, h (solveT (n + 1) (snocVec c √q) M z) ∂stdNormals (n + 1) :=
        g1.comp measurable_prodMk_left
      rw [Function.comp_apply, lowLaw, lintegral_map g3 measurable_snocMat]
      refine (lintegral_prod _ (g3.comp measurable_snocMat).aemeasurable).trans ?_
      apply lintegral_congr
      intro M
      apply lintegral_congr
      intro r
      have g4 : Measurable fun z : Fin (n + 1) → ℝ =>
          h (solveT (n + 1) (snocVec c √q) (snocMat 0 M r) z) :=
        hh.comp (hS1.comp (f := fun z => (snocVec c √q, snocMat 0 M r, z))
          (measurable_const.prodMk (measurable_const.prodMk measurable_id)))
      rw [Function.comp_apply, lintegral_pi_snoc _ g4]
      apply lintegral_congr
      intro z
      apply lintegral_congr
      intro l
      simp only [H, solveT, snocVec, Fin.snoc_last, Fin.snoc_castSucc, snocMat,
        Fin.lastCases_castSucc, Fin.lastCases_last]
    rw [step1, lintegral_reorder _ _ _ _ _ _ hH]
    -- the last coordinate
    let Φ : ℝ → ENNReal := fun t => ∫⁻ c, ∫⁻ M, ∫⁻ r, ∫⁻ z, h (snocVec (solveT n c M
      (fun i => z i - t * r i)) t) ∂stdNormals n ∂stdNormals n ∂lowLaw n ∂chiLaw nu n
    have hK : Measurable fun w : ((Fin n → ℝ) × (Fin n → Fin n → ℝ) × (Fin n → ℝ) ×
        (Fin n → ℝ)) × ℝ => h (snocVec (solveT n w.1.1 w.1.2.1
          (fun i => w.1.2.2.2 i - w.2 * w.1.2.2.1 i)) w.2) := by
      refine hh.comp (measurable_snocVec.comp (Measurable.prodMk (hS.comp (Measurable.prodMk ?_
        (Measurable.prodMk ?_ ?_))) measurable_snd))
      · fun_prop
      · fun_prop
      · refine measurable_pi_iff.2 fun i => Measurable.sub (by fun_prop) (Measurable.mul
          (by fun_prop) (by fun_prop))
    have hΦeq : Φ = fun t => ∫⁻ w, h (snocVec (solveT n w.1 w.2.1
          (fun i => w.2.2.2 i - t * w.2.2.1 i)) t)
          ∂((chiLaw nu n).prod ((lowLaw n).prod ((stdNormals n).prod (stdNormals n)))) := by
      funext t
      exact lintegral_nest4 _ _ _ _ (F := fun w : (Fin n → ℝ) × (Fin n → Fin n → ℝ) ×
        (Fin n → ℝ) × (Fin n → ℝ) => h (snocVec (solveT n w.1 w.2.1
          (fun i => w.2.2.2 i - t * w.2.2.1 i)) t)) (hK.comp measurable_prodMk_right)
    have hΦ : Measurable Φ := by
      rw [hΦeq]
      exact (hK.comp (measurable_swap)).lintegral_prod_right'
    have step2 : ∫⁻ q, ∫⁻ l, ∫⁻ c, ∫⁻ M, ∫⁻ r, ∫⁻ z, H ((c, M, r, z), q, l) ∂stdNormals n
          ∂stdNormals n ∂lowLaw n ∂chiLaw nu n ∂gaussianReal 0 1
          ∂gammaMeasure ((nu - n) / 2) (1 / 2) =
        ∫⁻ t, ENNReal.ofReal (studentT (nu - n) 0 (1 / (nu - n)) t) * Φ t :=
      normal_over_chi (by linarith) hΦ
    rw [step2]
    -- the other coordinates
    have step3 : ∀ t, Φ t = ∫⁻ y, ENNReal.ofReal ((√(1 + t ^ 2) ^ n)⁻¹ *
        bartDensity nu n ((√(1 + t ^ 2))⁻¹ • y)) * h (snocVec y t) := by
      intro t
      have hs : 0 < 1 + t ^ 2 := by positivity
      have hr : 0 < √(1 + t ^ 2) := Real.sqrt_pos.2 hs
      have hht : Measurable fun y : Fin n → ℝ => h (snocVec (√(1 + t ^ 2) • y) t) :=
        hh.comp (measurable_snocVec.comp ((measurable_const_smul _).prodMk measurable_const))
      have e : ∀ c M, ∫⁻ r, ∫⁻ z, h (snocVec (solveT n c M (fun i => z i - t * r i)) t)
          ∂stdNormals n ∂stdNormals n =
          ∫⁻ z, h (snocVec (√(1 + t ^ 2) • solveT n c M z) t) ∂stdNormals n := by
        intro c M
        have hg : Measurable fun v : Fin n → ℝ => h (snocVec (solveT n c M v) t) :=
          hh.comp (measurable_snocVec.comp (Measurable.prodMk (hS.comp
            (measurable_const.prodMk (measurable_const.prodMk measurable_id))) measurable_const))
        have hmul : ((-t) • (1 : Matrix (Fin n) (Fin n) ℝ)) * ((-t) • (1 : Matrix _ _ ℝ))ᵀ +
            (1 : Matrix (Fin n) (Fin n) ℝ) * (1 : Matrix _ _ ℝ)ᵀ =
            (√(1 + t ^ 2) • (1 : Matrix (Fin n) (Fin n) ℝ)) * (√(1 + t ^ 2) • (1 : Matrix _ _ ℝ))ᵀ := by
          simp only [transpose_smul, transpose_one, smul_mul_smul_comm, Matrix.mul_one]
          rw [Real.mul_self_sqrt hs.le, add_smul, one_smul, neg_mul_neg, pow_two, add_comm]
        have := stdNormals_lintegral_add _ _ _ hmul hg
        simp only [smul_mulVec, one_mulVec] at this
        simp_rw [← solveT_smul]
        rw [← this]
        apply lintegral_congr
        intro r
        apply lintegral_congr
        intro z
        congr 3
        funext i
        simp only [Pi.add_apply, Pi.smul_apply, smul_eq_mul]
        ring
      have e2 : Φ t = ∫⁻ c, ∫⁻ M, ∫⁻ z, h (snocVec (√(1 + t ^ 2) • solveT n c M z) t)
          ∂stdNormals n ∂lowLaw n ∂chiLaw nu n :=
        lintegral_congr fun c => lintegral_congr fun M => e c M
      rw [e2, ih hn' hht]
      have hbm := bartDensity_measurable nu n
      have hg : Measurable fun y : Fin n → ℝ =>
          ENNReal.ofReal (bartDensity nu n ((√(1 + t ^ 2))⁻¹ • y)) * h (snocVec y t) :=
        (hbm.comp (measurable_const_smul _)).ennreal_ofReal.mul
          (hh.comp (measurable_snocVec.comp (measurable_id.prodMk measurable_const)))
      have h5 := lintegral_smul_vec hr hg
      have h6 : ∀ y : Fin n → ℝ, (√(1 + t ^ 2))⁻¹ • (√(1 + t ^ 2)) • y = y := fun y => by
        rw [smul_smul, inv_mul_cancel₀ hr.ne', one_smul]
      simp only [h6] at h5
      rw [h5, ← lintegral_const_mul _ hg]
      apply lintegral_congr
      intro y
      rw [ENNReal.ofReal_mul (by positivity), mul_assoc]
    have hfin : Measurable fun y : Fin (n + 1) → ℝ =>
        ENNReal.ofReal (bartDensity nu (n + 1) y) * h y :=
      (bartDensity_measurable nu (n + 1)).ennreal_ofReal.mul hh
    rw [volume_pi, lintegral_pi_snoc _ hfin, lintegral_lintegral_swap]
    · apply lintegral_congr
      intro t
      have hst : 0 ≤ studentT (nu - n) 0 (1 / (nu - n)) t := by
        unfold studentT
        have := Gamma_pos_of_pos (show 0 < (nu - n + 1) / 2 by linarith)
        have := Gamma_pos_of_pos (show 0 < (nu - n) / 2 by linarith)
        have : 0 < nu - n := by linarith
        positivity
      rw [step3, ← lintegral_const_mul, volume_pi]
      · apply lintegral_congr
        intro y
        rw [← mul_assoc, ← ENNReal.ofReal_mul hst, bartDensity_succ (by linarith)]
      · exact (measurable_const.mul ((bartDensity_measurable nu n).comp
          (measurable_const_smul _))).ennreal_ofReal.mul
          (hh.comp (measurable_snocVec.comp (measurable_id.prodMk measurable_const)))
    · exact (hfin.comp measurable_snocVec).aemeasurable

end Dist
