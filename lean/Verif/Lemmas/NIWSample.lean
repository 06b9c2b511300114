import Verif.Lemmas.IdealRng
import Verif.Lemmas.NIWPredictive
import Verif.Lemmas.NIW
import Verif.Spec.Eigen

/-! # The law of the draws made by the Normal-Inverse-Wishart sampler -/

namespace Dist

open MeasureTheory ProbabilityTheory Real Spec Matrix FloatOps FloatNotation

variable {σ : Type} [MeasurableSpace σ] {d : ℕ}

/-! ## Draws in sequence -/

theorem Spec.HasLaw.bind {β γ δ : Type} [MeasurableSpace β] [MeasurableSpace γ] [MeasurableSpace δ]
    {P : Measure σ} [IsProbabilityMeasure P] {d₁ : σ → β × σ} {d₂ : σ → γ × σ} {μ : Measure β}
    {ν : Measure γ} [SFinite μ] [SFinite ν] (h₁ : HasLaw P d₁ μ) (m₁ : Measurable d₁)
    (h₂ : HasLaw P d₂ ν) (m₂ : Measurable d₂) {g : β × γ → δ} (mg : Measurable g) :
    HasLaw P (fun s => (g ((d₁ s).1, (d₂ (d₁ s).2).1), (d₂ (d₁ s).2).2)) ((μ.prod ν).map g) := by
  unfold HasLaw
  have m₁₂ : Measurable fun s => d₂ (d₁ s).2 := m₂.comp m₁.snd
  have hm : Measurable fun s => (g ((d₁ s).1, (d₂ (d₁ s).2).1), (d₂ (d₁ s).2).2) :=
    (mg.comp (m₁.fst.prodMk m₁₂.fst)).prodMk m₁₂.snd
  refine Measure.ext_of_lintegral _ fun f hf => ?_
  rw [lintegral_map hf hm, lintegral_prod _ hf.aemeasurable,
    lintegral_map (Measurable.lintegral_prod_right' hf) mg]
  have hF : Measurable fun q : (β × γ) × σ => f (g q.1, q.2) :=
    hf.comp ((mg.comp measurable_fst).prodMk measurable_snd)
  rw [lintegral_prod _ (Measurable.lintegral_prod_right' hF).aemeasurable]
  have h1 := h₁.lintegral m₁ (f := fun q => f (g (q.1, (d₂ q.2).1), (d₂ q.2).2))
    (hf.comp ((mg.comp (measurable_fst.prodMk (m₂.comp measurable_snd).fst)).prodMk
      (m₂.comp measurable_snd).snd))
  refine h1.trans ?_
  apply lintegral_congr
  intro y
  exact h₂.lintegral m₂ (f := fun q => f (g (y, q.1), q.2))
    (hf.comp ((mg.comp (measurable_const.prodMk measurable_fst)).prodMk measurable_snd))

theorem Spec.HasLaw.seq {β γ : Type} [MeasurableSpace β] [MeasurableSpace γ]
    {P : Measure σ} [IsProbabilityMeasure P] {d₁ : σ → β × σ} {d₂ : σ → γ × σ} {μ : Measure β}
    {ν : Measure γ} [SFinite μ] [SFinite ν] (h₁ : HasLaw P d₁ μ) (m₁ : Measurable d₁)
    (h₂ : HasLaw P d₂ ν) (m₂ : Measurable d₂) :
    HasLaw P (fun s => (((d₁ s).1, (d₂ (d₁ s).2).1), (d₂ (d₁ s).2).2)) (μ.prod ν) := by
  have := h₁.bind m₁ h₂ m₂ measurable_id
  rwa [Measure.map_id] at this

theorem Spec.HasLaw.const {β : Type} [MeasurableSpace β] (P : Measure σ) [SFinite P] (b : β) :
    HasLaw P (fun s => (b, s)) (Measure.dirac b) := by
  unfold HasLaw
  rw [Measure.dirac_prod]

/-! ## The vectors and matrices drawn -/

/-- Standard normal variables drawn in sequence. -/
noncomputable def realNormals (I : IdealRng σ) : (n : ℕ) → σ → (Fin n → ℝ) × σ
  | 0, s => (Fin.elim0, s)
  | n + 1, s =>
    (snocVec (realNormals I n s).1 (I.normal ((0, 1), (realNormals I n s).2)).1,
      (I.normal ((0, 1), (realNormals I n s).2)).2)

/-- Square roots of chi-square variables drawn in sequence. -/
noncomputable def realChis (I : IdealRng σ) (nu : ℝ) : (n : ℕ) → σ → (Fin n → ℝ) × σ
  | 0, s => (Fin.elim0, s)
  | n + 1, s =>
    (snocVec (realChis I nu n s).1 (√(I.chisq (nu - n, (realChis I nu n s).2)).1),
      (I.chisq (nu - n, (realChis I nu n s).2)).2)

/-- Rows below the diagonal drawn in sequence. -/
noncomputable def realLowers (I : IdealRng σ) : (n : ℕ) → σ → (Fin n → Fin n → ℝ) × σ
  | 0, s => (Fin.elim0, s)
  | n + 1, s =>
    (snocMat 0 (realLowers I n s).1 (realNormals I n (realLowers I n s).2).1,
      (realNormals I n (realLowers I n s).2).2)

theorem normal01_meas (I : IdealRng σ) : Measurable fun s => I.normal ((0, 1), s) :=
  I.normal_meas.comp measurable_prodMk_left

theorem normal01_law (I : IdealRng σ) :
    HasLaw I.P (fun s => I.normal ((0, 1), s)) (gaussianReal 0 1) := by
  have := I.normal_law 0 1 one_pos
  simpa using this

theorem realNormals_meas (I : IdealRng σ) (n : ℕ) : Measurable (realNormals I n) := by
  induction n with
  | zero => exact measurable_const.prodMk measurable_id
  | succ n ih =>
    have h : Measurable fun s => I.normal ((0, 1), (realNormals I n s).2) :=
      (normal01_meas I).comp ih.snd
    exact (measurable_snocVec.comp (ih.fst.prodMk h.fst)).prodMk h.snd

theorem stdNormals_succ (n : ℕ) :
    stdNormals (n + 1) = ((stdNormals n).prod (gaussianReal 0 1)).map
      fun p => snocVec p.1 p.2 := by
  refine Measure.ext_of_lintegral _ fun f hf => ?_
  rw [lintegral_map hf measurable_snocVec]
  refine (lintegral_pi_snoc (gaussianReal 0 1) hf).trans ?_
  exact (lintegral_prod _ (Measurable.comp (g := f) hf measurable_snocVec).aemeasurable).symm

theorem realNormals_law (I : IdealRng σ) (n : ℕ) :
    HasLaw I.P (realNormals I n) (stdNormals n) := by
  induction n with
  | zero =>
    have e : stdNormals 0 = Measure.dirac Fin.elim0 := by
      unfold stdNormals
      rw [Measure.pi_of_empty]
      congr 1
    rw [e]
    exact HasLaw.const I.P _
  | succ n ih =>
    rw [stdNormals_succ]
    exact ih.bind (realNormals_meas I n) (normal01_law I) (normal01_meas I) measurable_snocVec

theorem realChis_meas (I : IdealRng σ) (nu : ℝ) (n : ℕ) : Measurable (realChis I nu n) := by
  induction n with
  | zero => exact measurable_const.prodMk measurable_id
  | succ n ih =>
    have h : Measurable fun s => I.chisq (nu - n, (realChis I nu n s).2) :=
      (I.chisq_meas.comp measurable_prodMk_left).comp ih.snd
    exact (measurable_snoc_sqrt.comp (ih.fst.prodMk h.fst)).prodMk h.snd

theorem realChis_law (I : IdealRng σ) {nu : ℝ} (n : ℕ) (h : (n : ℝ) - 1 < nu) :
    HasLaw I.P (realChis I nu n) (chiLaw nu n) := by
  induction n with
  | zero => exact HasLaw.const I.P _
  | succ n ih =>
    push_cast at h
    haveI := chiLaw_prob (nu := nu) n (by linarith)
    haveI := isProbabilityMeasure_gammaMeasure (a := (nu - n) / 2) (r := 1 / 2) (by linarith)
      (by norm_num)
    exact (ih (by linarith)).bind (realChis_meas I nu n) (I.chisq_law (nu - n) (by linarith))
      (I.chisq_meas.comp measurable_prodMk_left) measurable_snoc_sqrt

theorem realLowers_meas (I : IdealRng σ) (n : ℕ) : Measurable (realLowers I n) := by
  induction n with
  | zero => exact measurable_const.prodMk measurable_id
  | succ n ih =>
    have h : Measurable fun s => realNormals I n (realLowers I n s).2 :=
      (realNormals_meas I n).comp ih.snd
    exact (measurable_snocMat.comp (ih.fst.prodMk h.fst)).prodMk h.snd

theorem realLowers_law (I : IdealRng σ) (n : ℕ) :
    HasLaw I.P (realLowers I n) (lowLaw n) := by
  induction n with
  | zero => exact HasLaw.const I.P _
  | succ n ih =>
    exact ih.bind (realLowers_meas I n) (realNormals_law I n) (realNormals_meas I n)
      measurable_snocMat

namespace NIW

theorem vec_snoc {n : ℕ} (v : Fin n → ℝ) (x : ℝ) :
    Fin.snoc (α := fun _ => XR) (vec v) (.fin x) = vec (snocVec v x) := by
  funext i
  refine Fin.lastCases ?_ (fun i => ?_) i <;> simp [vec]

theorem normals_eq (I : IdealRng σ) (n : ℕ) (s : σ) :
    normals I.toRng n s = (vec (realNormals I n s).1, (realNormals I n s).2) := by
  induction n with
  | zero => exact Prod.ext (funext fun i => i.elim0) rfl
  | succ n ih =>
    unfold normals realNormals
    rw [ih]
    simp only [IdealRng.toRng, XR.ofInt_eq, Int.cast_zero, Int.cast_one]
    rw [vec_snoc]

theorem lowers_eq (I : IdealRng σ) (n : ℕ) (s : σ) :
    lowers I.toRng n s = (fun i j => .fin ((realLowers I n s).1 i j), (realLowers I n s).2) := by
  induction n with
  | zero => exact Prod.ext (funext fun i => i.elim0) rfl
  | succ n ih =>
    unfold lowers realLowers
    rw [ih]
    simp only [normals_eq]
    refine Prod.ext (funext fun i => funext fun j => ?_) rfl
    simp only [snocMat]
    refine Fin.lastCases ?_ (fun j => ?_) j
    · simp
    · simp only [Fin.lastCases_castSucc]
      refine Fin.lastCases ?_ (fun i => ?_) i <;> simp [vec]

theorem chis_eq (I : IdealRng σ) {nu : ℝ} (n : ℕ) (h : (n : ℝ) - 1 < nu) :
    ∀ᵐ s ∂I.P, chis I.toRng (.fin nu) n s = (vec (realChis I nu n s).1, (realChis I nu n s).2) := by
  induction n with
  | zero => exact Filter.Eventually.of_forall fun s => Prod.ext (funext fun i => i.elim0) rfl
  | succ n ih =>
    push_cast at h
    haveI := chiLaw_prob (nu := nu) n (by linarith)
    haveI := isProbabilityMeasure_gammaMeasure (a := (nu - n) / 2) (r := 1 / 2) (by linarith)
      (by norm_num)
    have h1 : ∀ᵐ s ∂I.P, 0 < (I.chisq (nu - n, s)).1 :=
      (I.chisq_law (nu - n) (by linarith)).ae (I.chisq_meas.comp measurable_prodMk_left)
        (gamma_pos_ae _ _)
    have h2 := (realChis_law I n (by linarith)).ae_state (realChis_meas I nu n) h1
    filter_upwards [ih (by linarith), h2] with s hs hp
    unfold chis realChis
    rw [hs]
    simp only [IdealRng.toRng, XR.ofInt_eq, Int.cast_natCast, XR.fin_sub]
    rw [XR.sqrt_fin hp.le, vec_snoc]

theorem matMul_eq (a b : Matrix (Fin d) (Fin d) ℝ) : matMul (mat a) (mat b) = mat (a * b) := by
  funext i j
  exact dot_eq (a i) (fun k => b k j)

theorem bart_mat (c : Fin d → ℝ) (M : Fin d → Fin d → ℝ) :
    (fun i j => if i = j then vec c i else XR.fin (M i j)) = mat (bart c M) := by
  funext i j
  by_cases h : i = j <;> simp [bart, h, mat]

theorem llt_eq {e : Eigen XR} (he : ExactEigen e) {M : Matrix (Fin d) (Fin d) ℝ} (hM : M.PosDef) :
    e.llt (mat M) = some (mat (cholM M)) := by
  obtain ⟨L, h1, h2, h3, h4⟩ := he.llt M hM
  have := IsChol.eq_cholM ⟨h1, h2, h3⟩
  rw [← this]
  exact h4

theorem sampleMvNormal_eq {e : Eigen XR} (he : ExactEigen e) (I : IdealRng σ)
    {M : Matrix (Fin d) (Fin d) ℝ} (hM : M.PosDef) (mu : Fin d → ℝ) (s : σ) :
    sampleMvNormal e I.toRng s (vec mu) (mat M) =
      .ok (vec (mu + cholM M *ᵥ (realNormals I d s).1), (realNormals I d s).2) := by
  unfold sampleMvNormal
  rw [llt_eq he hM]
  simp only [normals_eq]
  rw [mulVec_eq]
  simp only [vec, XR.fin_add]
  rfl

end NIW

/-- Everything one call of `sample_value` draws: diagonal, part below it, and two vectors. -/
noncomputable def niwDraws (I : IdealRng σ) (nu : ℝ) (d : ℕ) (s : σ) :
    (((Fin d → ℝ) × (Fin d → Fin d → ℝ)) × ((Fin d → ℝ) × (Fin d → ℝ))) × σ :=
  let a := realChis I nu d s
  let b := realLowers I d a.2
  let x := realNormals I d b.2
  let y := realNormals I d x.2
  (((a.1, b.1), (x.1, y.1)), y.2)

theorem niwDraws_meas (I : IdealRng σ) (nu : ℝ) (d : ℕ) : Measurable (niwDraws I nu d) := by
  unfold niwDraws
  have ha := realChis_meas I nu d
  have hb : Measurable fun s => realLowers I d (realChis I nu d s).2 :=
    (realLowers_meas I d).comp ha.snd
  have hx : Measurable fun s => realNormals I d (realLowers I d (realChis I nu d s).2).2 :=
    (realNormals_meas I d).comp hb.snd
  have hy : Measurable fun s => realNormals I d
      (realNormals I d (realLowers I d (realChis I nu d s).2).2).2 :=
    (realNormals_meas I d).comp hx.snd
  exact ((ha.fst.prodMk hb.fst).prodMk (hx.fst.prodMk hy.fst)).prodMk hy.snd

theorem niwDraws_law (I : IdealRng σ) {nu : ℝ} (d : ℕ) (h : (d : ℝ) - 1 < nu) :
    HasLaw I.P (niwDraws I nu d)
      (((chiLaw nu d).prod (lowLaw d)).prod ((stdNormals d).prod (stdNormals d))) := by
  haveI := chiLaw_prob (nu := nu) d h
  have h1 := (realChis_law I d h).seq (realChis_meas I nu d) (realLowers_law I d)
    (realLowers_meas I d)
  have h2 := (realNormals_law I d).seq (realNormals_meas I d) (realNormals_law I d)
    (realNormals_meas I d)
  have hb : Measurable fun s => realLowers I d (realChis I nu d s).2 :=
    (realLowers_meas I d).comp (realChis_meas I nu d).snd
  have hy : Measurable fun s => realNormals I d (realNormals I d s).2 :=
    (realNormals_meas I d).comp (realNormals_meas I d).snd
  exact h1.seq (((realChis_meas I nu d).fst.prodMk hb.fst).prodMk hb.snd) h2
    (((realNormals_meas I d).fst.prodMk hy.fst).prodMk hy.snd)

/-- The value made from the draws, with covariance `k₁ Σ` of the mean and `k₂ Σ` of the value. -/
noncomputable def niwValue (mu : Fin d → ℝ) (L : Matrix (Fin d) (Fin d) ℝ) (k₁ k₂ : ℝ)
    (p : ((Fin d → ℝ) × (Fin d → Fin d → ℝ)) × ((Fin d → ℝ) × (Fin d → ℝ))) : Fin d → ℝ :=
  mu + cholM (k₁ • bartCov L p.1.1 p.1.2) *ᵥ p.2.1 + cholM (k₂ • bartCov L p.1.1 p.1.2) *ᵥ p.2.2

theorem measurable_mulVec {α : Type} [MeasurableSpace α] {M : α → Fin d → Fin d → ℝ}
    {v : α → Fin d → ℝ} (hM : Measurable M) (hv : Measurable v) :
    Measurable fun a => (Matrix.of (M a)) *ᵥ v a := by
  refine measurable_pi_iff.2 fun i => ?_
  unfold mulVec dotProduct
  refine Finset.measurable_sum _ fun j _ => ?_
  exact ((measurable_pi_apply j).comp ((measurable_pi_apply i).comp hM)).mul
    ((measurable_pi_apply j).comp hv)

theorem measurable_matMul {α : Type} [MeasurableSpace α] {M N : α → Fin d → Fin d → ℝ}
    (hM : Measurable M) (hN : Measurable N) :
    Measurable fun a => fun i j => (Matrix.of (M a) * Matrix.of (N a)) i j := by
  refine measurable_pi_iff.2 fun i => measurable_pi_iff.2 fun j => ?_
  simp only [Matrix.mul_apply, Matrix.of_apply]
  refine Finset.measurable_sum _ fun k _ => ?_
  exact ((measurable_pi_apply k).comp ((measurable_pi_apply i).comp hM)).mul
    ((measurable_pi_apply j).comp ((measurable_pi_apply k).comp hN))

theorem bartCov_measurable (L : Matrix (Fin d) (Fin d) ℝ) :
    Measurable fun p : (Fin d → ℝ) × (Fin d → Fin d → ℝ) => fun i j => bartCov L p.1 p.2 i j := by
  have hb : Measurable fun p : (Fin d → ℝ) × (Fin d → Fin d → ℝ) =>
      fun i j => bart p.1 p.2 i j := by
    refine measurable_pi_iff.2 fun i => measurable_pi_iff.2 fun j => ?_
    unfold bart
    by_cases h : i = j
    · simp only [h, if_true]
      exact (measurable_pi_apply j).comp measurable_fst
    · simp only [h, if_false]
      exact (measurable_pi_apply j).comp ((measurable_pi_apply i).comp measurable_snd)
  have hX := measurable_matMul (M := fun _ => L) measurable_const hb
  have hXt : Measurable fun p : (Fin d → ℝ) × (Fin d → Fin d → ℝ) =>
      fun i j => (L * bart p.1 p.2) j i := by
    refine measurable_pi_iff.2 fun i => measurable_pi_iff.2 fun j => ?_
    exact (measurable_pi_apply i).comp ((measurable_pi_apply j).comp hX)
  exact matInv_measurable.comp (measurable_matMul hX hXt)

theorem niwValue_measurable (mu : Fin d → ℝ) (L : Matrix (Fin d) (Fin d) ℝ) (k₁ k₂ : ℝ) :
    Measurable (niwValue mu L k₁ k₂) := by
  have hc : ∀ k : ℝ, Measurable fun p : ((Fin d → ℝ) × (Fin d → Fin d → ℝ)) ×
      ((Fin d → ℝ) × (Fin d → ℝ)) =>
        cholR (fun i j => k * bartCov L p.1.1 p.1.2 i j) := by
    intro k
    refine cholR_measurable.comp ?_
    refine measurable_pi_iff.2 fun i => measurable_pi_iff.2 fun j => ?_
    exact ((measurable_pi_apply j).comp ((measurable_pi_apply i).comp
      ((bartCov_measurable L).comp measurable_fst))).const_mul k
  have h1 := measurable_mulVec (hc k₁) (measurable_fst.comp measurable_snd)
  have h2 := measurable_mulVec (hc k₂) (measurable_snd.comp measurable_snd)
  exact (h1.const_add mu).add h2

/-- The law of the value. -/
theorem niwValue_law (I : IdealRng σ) {psi L : Matrix (Fin d) (Fin d) ℝ} (hpsi : psi.PosDef)
    (hL : IsChol psi⁻¹ L) {k₁ k₂ nu : ℝ} (h₁ : 0 < k₁) (h₂ : 0 < k₂) (hnu : (d : ℝ) - 1 < nu)
    (mu : Fin d → ℝ) {A : Set (Fin d → ℝ)} (hA : MeasurableSet A) {B : Set σ}
    (hB : MeasurableSet B) :
    I.P {s | niwValue mu L k₁ k₂ (niwDraws I nu d s).1 ∈ A ∧ (niwDraws I nu d s).2 ∈ B} =
      (∫⁻ v in A, ENNReal.ofReal
        (mvStudentT (nu - d + 1) mu (((k₁ + k₂) / (nu - d + 1)) • psi) v)) * I.P B := by
  haveI := chiLaw_prob (nu := nu) d hnu
  have hv := niwValue_measurable mu L k₁ k₂
  have hD := niwDraws_meas I nu d
  have hf : Measurable fun q : (((Fin d → ℝ) × (Fin d → Fin d → ℝ)) ×
      ((Fin d → ℝ) × (Fin d → ℝ))) × σ =>
      A.indicator (1 : (Fin d → ℝ) → ENNReal) (niwValue mu L k₁ k₂ q.1) *
        B.indicator (1 : σ → ENNReal) q.2 :=
    ((measurable_one.indicator hA).comp (hv.comp measurable_fst)).mul
      ((measurable_one.indicator hB).comp measurable_snd)
  have hset : MeasurableSet
      {s | niwValue mu L k₁ k₂ (niwDraws I nu d s).1 ∈ A ∧ (niwDraws I nu d s).2 ∈ B} :=
    ((hv.comp hD.fst) hA).inter (hD.snd hB)
  rw [← lintegral_indicator_one hset]
  have e1 : ∀ s, ({s | niwValue mu L k₁ k₂ (niwDraws I nu d s).1 ∈ A ∧
      (niwDraws I nu d s).2 ∈ B} : Set σ).indicator (1 : σ → ENNReal) s =
      A.indicator (1 : (Fin d → ℝ) → ENNReal) (niwValue mu L k₁ k₂ (niwDraws I nu d s).1) *
        B.indicator (1 : σ → ENNReal) (niwDraws I nu d s).2 := by
    intro s
    by_cases ha : niwValue mu L k₁ k₂ (niwDraws I nu d s).1 ∈ A <;>
      by_cases hb : (niwDraws I nu d s).2 ∈ B <;> simp [ha, hb]
  simp only [e1]
  refine ((niwDraws_law I d hnu).lintegral hD hf).trans ?_
  have e2 : ∀ q, ∫⁻ s, A.indicator (1 : (Fin d → ℝ) → ENNReal) (niwValue mu L k₁ k₂ q) *
        B.indicator (1 : σ → ENNReal) s ∂I.P =
      A.indicator (1 : (Fin d → ℝ) → ENNReal) (niwValue mu L k₁ k₂ q) * I.P B := by
    intro q
    rw [lintegral_const_mul _ (measurable_one.indicator hB), lintegral_indicator_one hB]
  simp only [e2]
  have hAi : Measurable (A.indicator (1 : (Fin d → ℝ) → ENNReal)) := measurable_one.indicator hA
  have hg : Measurable fun q => A.indicator (1 : (Fin d → ℝ) → ENNReal) (niwValue mu L k₁ k₂ q) :=
    hAi.comp hv
  rw [lintegral_mul_const _ hg]
  congr 1
  have e3 := niw_predictive hpsi hL h₁ h₂ hnu mu hAi
  rw [← lintegral_indicator hA]
  have e4 : ∀ v, A.indicator (fun v => ENNReal.ofReal
        (mvStudentT (nu - d + 1) mu (((k₁ + k₂) / (nu - d + 1)) • psi) v)) v =
      ENNReal.ofReal (mvStudentT (nu - d + 1) mu (((k₁ + k₂) / (nu - d + 1)) • psi) v) *
        A.indicator (1 : (Fin d → ℝ) → ENNReal) v := by
    intro v
    by_cases h : v ∈ A <;> simp [h]
  simp only [e4]
  rw [← e3, lintegral_prod _ hg.aemeasurable]
  have hg2 := Measurable.lintegral_prod_right' (ν := (stdNormals d).prod (stdNormals d)) hg
  rw [lintegral_prod _ hg2.aemeasurable]
  apply lintegral_congr
  intro c
  apply lintegral_congr
  intro M
  have hg3 : Measurable fun q : (Fin d → ℝ) × (Fin d → ℝ) =>
      A.indicator (1 : (Fin d → ℝ) → ENNReal) (niwValue mu L k₁ k₂ ((c, M), q)) :=
    hg.comp measurable_prodMk_left
  exact lintegral_prod _ hg3.aemeasurable

/-- What `sample_value` computes from the draws, for almost every engine state. -/
theorem NIW.sampleNormalInverseWishart_eq {e : NIW.Eigen XR} (he : ExactEigen e) (I : IdealRng σ)
    {psi : Matrix (Fin d) (Fin d) ℝ} (hpsi : psi.PosDef) {kappa nu : ℝ} (hk : 0 < kappa)
    (hnu : (d : ℝ) - 1 < nu) (mu : Fin d → ℝ) :
    ∀ᵐ s ∂I.P,
      ((1 / kappa) • bartCov (cholM psi⁻¹) (realChis I nu d s).1
          (realLowers I d (realChis I nu d s).2).1).PosDef ∧
      NIW.sampleNormalInverseWishart e I.toRng s (NIW.vec mu) (.fin kappa) (NIW.mat psi) (.fin nu) =
      .ok ((NIW.vec (mu + cholM ((1 / kappa) • bartCov (cholM psi⁻¹) (realChis I nu d s).1
          (realLowers I d (realChis I nu d s).2).1) *ᵥ
          (realNormals I d (realLowers I d (realChis I nu d s).2).2).1),
        NIW.mat ((1 / kappa) • bartCov (cholM psi⁻¹) (realChis I nu d s).1
          (realLowers I d (realChis I nu d s).2).1)),
        (realNormals I d (realLowers I d (realChis I nu d s).2).2).2) := by
  haveI := chiLaw_prob (nu := nu) d hnu
  have hL := cholM_isChol hpsi.inv
  have hc : ∀ᵐ s ∂I.P, ∀ i, 0 < (realChis I nu d s).1 i :=
    (realChis_law I d hnu).ae (realChis_meas I nu d) (chiLaw_pos d hnu)
  have hM : ∀ᵐ s ∂I.P, ∀ i j, i < j → (realLowers I d (realChis I nu d s).2).1 i j = 0 :=
    (realChis_law I d hnu).ae_state (realChis_meas I nu d)
      ((realLowers_law I d).ae (realLowers_meas I d) (lowLaw_lower d))
  filter_upwards [hc, hM, NIW.chis_eq I d hnu] with s hc hM hs
  obtain ⟨hpd, hcov⟩ := bartCov_posDef hL.det_pos.ne' hc hM
  have hcov' := hcov.smul (one_div_pos.2 hk)
  refine ⟨hcov', ?_⟩
  unfold NIW.sampleNormalInverseWishart NIW.sampleInverseWishart NIW.sampleWishart
  have e0 : e.inv (NIW.mat psi) = NIW.mat psi⁻¹ := he.inv psi hpsi.det_pos.ne'
  rw [e0, NIW.llt_eq he hpsi.inv]
  simp only [hs, NIW.lowers_eq, NIW.bart_mat, NIW.matMul_eq, Res.ok_bind, Res.pure_eq]
  set X := cholM psi⁻¹ * bart (realChis I nu d s).1 (realLowers I d (realChis I nu d s).2).1
    with hX
  have e1 : NIW.matMul (NIW.mat X) (fun i j => NIW.mat X j i) = NIW.mat (X * Xᵀ) :=
    NIW.matMul_eq X Xᵀ
  have e2 : e.inv (NIW.mat (X * Xᵀ)) = NIW.mat (X * Xᵀ)⁻¹ := he.inv _ hpd.det_pos.ne'
  have e3 : (fun i j => lit 1 1 / XR.fin kappa * NIW.mat (X * Xᵀ)⁻¹ i j) =
      NIW.mat ((1 / kappa) • bartCov (cholM psi⁻¹) (realChis I nu d s).1
        (realLowers I d (realChis I nu d s).2).1) := by
    funext i j
    rw [show (lit 1 1 : XR) = .fin 1 by simp [lit], XR.fin_div _ _ hk.ne']
    simp only [NIW.mat, XR.fin_mul, Matrix.smul_apply, smul_eq_mul, bartCov, hX]
  rw [e1, e2, e3, NIW.sampleMvNormal_eq he I hcov']
  simp only [Res.ok_bind]

theorem NIW.sampleValue_eq {e : NIW.Eigen XR} (he : ExactEigen e) (I : IdealRng σ)
    {psi : Matrix (Fin d) (Fin d) ℝ} (hpsi : psi.PosDef) {kappa nu : ℝ} (hk : 0 < kappa)
    (hnu : (d : ℝ) - 1 < nu) (mu : Fin d → ℝ) :
    ∀ᵐ s ∂I.P, (do
      let (p, s) ← NIW.sampleNormalInverseWishart e I.toRng s (NIW.vec mu) (.fin kappa)
        (NIW.mat psi) (.fin nu)
      NIW.Sampler.eval e I.toRng s p : Res (NIW.Vec XR d × σ)) =
      .ok (NIW.vec (niwValue mu (cholM psi⁻¹) (1 / kappa) (1 / kappa) (niwDraws I nu d s).1),
        (niwDraws I nu d s).2) := by
  filter_upwards [NIW.sampleNormalInverseWishart_eq he I hpsi hk hnu mu] with s hs
  rw [hs.2]
  simp only [Res.ok_bind, NIW.Sampler.eval]
  rw [NIW.sampleMvNormal_eq he I hs.1]
  rfl

end Dist
