import Verif.Lemmas.StudentDraw
import Verif.Lemmas.IdealNumpyExists
import Verif.Lemmas.WishartMean
import Verif.Props.ReferenceSamplersNiw
import Verif.Props.SamplerLawsNiw

/-!
# C72: `sample_student_t` and the Wishart samplers of the reference implementation

`sample_student_t(dof, mu, Sigma)` and `score_student_t(x, dof, mu, Sigma)` give the same three
parameters two different meanings, and of the three samplers of Wishart matrices only the one that
adds up squares of normal vectors has the mean of a Wishart matrix.
-/

namespace Dist

open Spec FloatOps FloatNotation MeasureTheory ProbabilityTheory
open Matrix hiding vec
open Dist.NIW (vec mat)

variable {σ : Type} [MeasurableSpace σ] {d : ℕ}

/-- **C72, the score.** `score_student_t` is the log of the multivariate Student t density. -/
theorem C72_student_t_score {la : Dist.NIW.LinAlg XR} (hla : ExactLinAlg la) (x mu : Fin d → ℝ)
    {nu : ℝ} (hnu : 0 < nu) {sigma : Matrix (Fin d) (Fin d) ℝ} (hs : sigma.PosDef) :
    0 < mvStudentT nu mu sigma x ∧
    Dbg.NIW.scoreStudentT la (vec x) (.fin nu) (vec mu) (mat sigma) =
      .ok (.fin (Real.log (mvStudentT nu mu sigma x))) := by
  have hq : 0 ≤ (x - mu) ⬝ᵥ (sigma⁻¹ *ᵥ (x - mu)) := by
    have := hs.inv.posSemidef.dotProduct_mulVec_nonneg (x - mu)
    simpa using this
  have hz : (fun i => vec x i - vec mu i : Dist.NIW.Vec XR d) = vec (x - mu) := by
    funext i; rw [XR.fin_sub]; rfl
  have hi : la.inv (mat sigma) = mat sigma⁻¹ := hla.inv sigma hs.det_pos.ne'
  have hd : la.det (mat sigma) = .fin sigma.det := hla.det sigma
  have hpi : (FloatOps.pi : XR) = .fin Real.pi := rfl
  have hbase : 0 < 1 + (x - mu) ⬝ᵥ (sigma⁻¹ *ᵥ (x - mu)) / nu := by positivity
  have hdet := hs.det_pos
  have hnp : 0 < nu * Real.pi := mul_pos hnu Real.pi_pos
  have G1 := Real.Gamma_pos_of_pos (show 0 < (nu + d) / 2 by positivity)
  have G2 := Real.Gamma_pos_of_pos (show 0 < nu / 2 by positivity)
  have P1 := Real.rpow_pos_of_pos hnp ((d : ℝ) / 2)
  have P2 := Real.rpow_pos_of_pos hdet (1 / 2)
  have P3 := Real.rpow_pos_of_pos hbase (-(nu + d) / 2)
  refine ⟨by unfold mvStudentT; positivity, ?_⟩
  have e1 : (lit 1 2 : XR) = .fin (1 / 2) := by rw [XR.lit_eq]; norm_num
  have e2 : (ofInt d : XR) = .fin d := by rw [XR.ofInt_eq]; simp
  have e3 : (lit 1 1 : XR) = .fin 1 := by rw [XR.lit_eq]; simp
  unfold Dbg.NIW.scoreStudentT
  simp only [hz]
  rw [hi, hd, ← Dbg.NIW.quad_same, Dist.NIW.mulVec_eq, Dist.NIW.dot_eq]
  rw [hpi, XR.fin_mul, Dbg.pyLog_fin hnp, Res.ok_bind, Dbg.pyLog_fin hs.det_pos,
    Res.ok_bind, Dbg.pyDiv_fin hnu.ne', Res.ok_bind, e3, XR.fin_add, Dbg.pyLog_fin hbase,
    Res.ok_bind, e1, e2]
  simp only [XR.fin_add, XR.fin_mul, Res.pure_eq, Res.ok.injEq]
  rw [XR.lgamma_fin (by positivity), XR.lgamma_fin (by positivity)]
  simp only [XR.fin_sub, XR.fin_inj]
  unfold mvStudentT
  rw [Real.log_mul (by positivity) P3.ne', Real.log_div G1.ne' (by positivity),
    Real.log_mul (by positivity) P2.ne', Real.log_mul G2.ne' P1.ne', Real.log_rpow hnp,
    Real.log_rpow hdet, Real.log_rpow hbase, show 1 / 2 * (nu + (d : ℝ)) = (nu + d) / 2 by ring,
    show 1 / 2 * nu = nu / 2 by ring]
  ring

/-- **C72, the draw.** `sample_student_t(dof, mu, Sigma)` draws the multivariate Student t law with
scale `Sigma / dof`, and the state of the generator after the draw is independent of the value. -/
theorem C72_student_t_law (I : IdealNumpy σ) {dof : ℝ} (hdof : 0 < dof) (mu : Fin d → ℝ)
    {sigma : Matrix (Fin d) (Fin d) ℝ} (hs : sigma.PosDef) {A : Set (Fin d → ℝ)}
    (hA : MeasurableSet A) {B : Set σ} (hB : MeasurableSet B) :
    I.P {s | ∃ v ∈ A, ∃ s' ∈ B, Dbg.sampleStudentT I.toNumpy s (.fin dof) (vec mu) (mat sigma) =
        (vec v, s')} =
      (∫⁻ v in A, ENNReal.ofReal (mvStudentT dof mu ((1 / dof) • sigma) v)) * I.P B := by
  haveI := I.prob
  haveI := isProbabilityMeasure_gammaMeasure (a := dof / 2) (r := 1 / 2) (by linarith) (by norm_num)
  have hcm : Measurable fun s => I.chisq (dof, s) := I.chisq_meas.comp measurable_prodMk_left
  have hnm : Measurable fun s => I.mvNormal (((0 : Fin d → ℝ), fun i j => sigma i j), s) :=
    I.mvNormal_meas.comp measurable_prodMk_left
  have hnl := mvNormal_law_cov I (0 : Fin d → ℝ) hs
  simp only [zero_add] at hnl
  have hCm : Measurable fun y => cholM sigma *ᵥ y := (matClm (cholM sigma)).continuous.measurable
  haveI : IsProbabilityMeasure ((stdNormals d).map fun z => cholM sigma *ᵥ z) :=
    Measure.isProbabilityMeasure_map hCm.aemeasurable
  have hlaw := (I.chisq_law dof hdof).seq hcm hnl hnm
  set D : σ → (ℝ × (Fin d → ℝ)) × σ := fun s => (((I.chisq (dof, s)).1,
    (I.mvNormal (((0 : Fin d → ℝ), fun i j => sigma i j), (I.chisq (dof, s)).2)).1),
    (I.mvNormal (((0 : Fin d → ℝ), fun i j => sigma i j), (I.chisq (dof, s)).2)).2) with hD
  have hDm : Measurable D := by
    have := hnm.comp hcm.snd
    exact (hcm.fst.prodMk this.fst).prodMk this.snd
  let R : ℝ × (Fin d → ℝ) → Fin d → ℝ := fun p i => mu i + p.2 i / √p.1
  have hR : Measurable R := by
    refine measurable_pi_iff.2 fun i => ?_
    exact (((measurable_pi_apply i).comp measurable_snd).div measurable_fst.sqrt).const_add _
  have hrun : ∀ᵐ s ∂I.P, Dbg.sampleStudentT I.toNumpy s (.fin dof) (vec mu) (mat sigma) =
      (vec (R (D s).1), (D s).2) := by
    filter_upwards [(I.chisq_law dof hdof).ae hcm (gamma_pos_ae _ _)] with s hq
    have e0 : I.toNumpy.chisq s (.fin dof) = (.fin (I.chisq (dof, s)).1, (I.chisq (dof, s)).2) := rfl
    unfold Dbg.sampleStudentT
    rw [e0]
    simp only
    have e1 : (fun _ : Fin d => (ofInt 0 : XR)) = vec 0 := by funext i; simp [vec]
    rw [e1]
    change (fun i => vec mu i + (I.toNumpy.mvNormal _ (vec 0) (mat sigma)).1 i / _,
      (I.toNumpy.mvNormal _ (vec 0) (mat sigma)).2) = _
    rw [Dbg.mvNormal_eq]
    refine Prod.ext (funext fun i => ?_) rfl
    show vec mu i + vec _ i / sqrt (XR.fin (I.chisq (dof, s)).1) = XR.fin (mu i + _ / √_)
    rw [XR.sqrt_fin hq.le]
    unfold vec
    rw [XR.fin_div _ _ (Real.sqrt_pos.2 hq).ne', XR.fin_add]
  have hset : {s | ∃ v ∈ A, ∃ s' ∈ B, Dbg.sampleStudentT I.toNumpy s (.fin dof) (vec mu)
      (mat sigma) = (vec v, s')} =ᵐ[I.P] D ⁻¹' ((R ⁻¹' A) ×ˢ B) := by
    filter_upwards [hrun] with s hs
    refine propext ⟨?_, ?_⟩
    · rintro ⟨v, hv, s', hs', h⟩
      rw [hs] at h
      simp only [Prod.mk.injEq] at h
      have hv' : R (D s).1 = v := funext fun i => XR.fin_inj.1 (congrFun h.1 i)
      exact ⟨by rw [Set.mem_preimage, hv']; exact hv, by rw [h.2]; exact hs'⟩
    · rintro ⟨h1, h2⟩
      exact ⟨_, h1, _, h2, hs⟩
  rw [measure_congr hset, ← Measure.map_apply hDm ((hR hA).prod hB), hlaw, Measure.prod_prod]
  congr 1
  have hf : Measurable (A.indicator (1 : (Fin d → ℝ) → ENNReal)) := measurable_one.indicator hA
  have h := normals_over_chi_affine hdof mu hs hf
  rw [← lintegral_indicator hA]
  have e2 : ∀ v, ENNReal.ofReal (mvStudentT dof mu ((1 / dof) • sigma) v) *
      A.indicator (1 : (Fin d → ℝ) → ENNReal) v =
        A.indicator (fun v => ENNReal.ofReal (mvStudentT dof mu ((1 / dof) • sigma) v)) v := by
    intro v
    by_cases hv : v ∈ A <;> simp [hv]
  simp only [e2] at h
  rw [← h, ← lintegral_indicator_one (hR hA), lintegral_prod _
    ((measurable_one.indicator (hR hA)).aemeasurable)]
  apply lintegral_congr
  intro q
  exact lintegral_map (f := fun y => (R ⁻¹' A).indicator (1 : ℝ × (Fin d → ℝ) → ENNReal) (q, y))
    ((measurable_one.indicator (hR hA)).comp measurable_prodMk_left) hCm

/-- **C72, draw and score disagree.** Except at one degree of freedom there is a set of values
that `sample_student_t(dof, mu, Sigma)` hits with a probability other than the integral of
`exp(score_student_t(x, dof, mu, Sigma))` over it. -/
theorem C72_student_t_fails {la : Dist.NIW.LinAlg XR} (hla : ExactLinAlg la) (I : IdealNumpy σ)
    (hd : 0 < d) {dof : ℝ} (hdof : 0 < dof) (h1 : dof ≠ 1) (mu : Fin d → ℝ)
    {sigma : Matrix (Fin d) (Fin d) ℝ} (hs : sigma.PosDef) :
    ∃ f : (Fin d → ℝ) → ℝ,
      (∀ v, Dbg.NIW.scoreStudentT la (vec v) (.fin dof) (vec mu) (mat sigma) = .ok (.fin (f v))) ∧
      ∃ A, MeasurableSet A ∧
        I.P {s | ∃ v ∈ A, ∃ s', Dbg.sampleStudentT I.toNumpy s (.fin dof) (vec mu) (mat sigma) =
          (vec v, s')} ≠ ∫⁻ v in A, ENNReal.ofReal (Real.exp (f v)) := by
  haveI := I.prob
  refine ⟨_, fun v => (C72_student_t_score hla v mu hdof hs).2, ?_⟩
  have hsc : ((1 / dof) • sigma).PosDef := hs.smul (by positivity)
  have hlaw := fun (A : Set (Fin d → ℝ)) (hA : MeasurableSet A) =>
    C72_student_t_law I hdof mu hs hA MeasurableSet.univ
  simp only [measure_univ, mul_one, Set.mem_univ, true_and] at hlaw
  have hexp : ∀ v, Real.exp (Real.log (mvStudentT dof mu sigma v)) = mvStudentT dof mu sigma v :=
    fun v => Real.exp_log (C72_student_t_score hla v mu hdof hs).1
  simp only [hexp]
  have c1 := mvStudentT_continuous hdof mu hs
  have c2 := mvStudentT_continuous hdof mu hsc
  have hfin2 : ∫⁻ v, ENNReal.ofReal (mvStudentT dof mu ((1 / dof) • sigma) v) ≠ ⊤ := by
    have h := hlaw Set.univ MeasurableSet.univ
    rw [Measure.restrict_univ] at h
    rw [← h]
    exact measure_ne_top _ _
  have hfin1 : ∫⁻ v, ENNReal.ofReal (mvStudentT dof mu sigma v) ≠ ⊤ := by
    have h := C72_student_t_law I hdof mu (hs.smul hdof) MeasurableSet.univ MeasurableSet.univ
    rw [smul_smul, one_div, inv_mul_cancel₀ hdof.ne', one_smul, Measure.restrict_univ,
      measure_univ, mul_one] at h
    rw [← h]
    exact measure_ne_top _ _
  have m1 := mvStudentT_mean (nu := dof) mu (c := 1) one_pos hs
  have m2 := mvStudentT_mean (nu := dof) mu (c := 1 / dof) (by positivity) hs
  rw [one_smul, Real.one_rpow, div_one] at m1
  have hpos : 0 < mvStudentT dof mu sigma mu := (C72_student_t_score hla mu mu hdof hs).1
  rw [← m1] at m2
  have hd2 : (0 : ℝ) < (d : ℝ) / 2 := by positivity
  rcases lt_or_gt_of_ne h1 with h | h
  · -- fewer degrees of freedom: the draw is wider
    have hc : 1 < (1 / dof) ^ ((d : ℝ) / 2) :=
      Real.one_lt_rpow (by rw [lt_div_iff₀ hdof]; linarith) hd2
    have hlt : mvStudentT dof mu ((1 / dof) • sigma) mu < mvStudentT dof mu sigma mu := by
      rw [m2]; exact div_lt_self hpos hc
    obtain ⟨A, hA, hlt⟩ := exists_setLIntegral_lt c2 c1 (by rw [m2]; positivity) hlt hfin2
    exact ⟨A, hA, by rw [hlaw A hA]; exact hlt.ne⟩
  · have hc0 : 0 < (1 / dof) ^ ((d : ℝ) / 2) := by positivity
    have hc : (1 / dof) ^ ((d : ℝ) / 2) < 1 :=
      Real.rpow_lt_one (by positivity) (by rw [div_lt_one hdof]; exact h) hd2
    have hlt : mvStudentT dof mu sigma mu < mvStudentT dof mu ((1 / dof) • sigma) mu := by
      rw [m2, lt_div_iff₀ hc0]; nlinarith
    obtain ⟨A, hA, hlt⟩ := exists_setLIntegral_lt c1 c2 hpos.le hlt hfin1
    exact ⟨A, hA, by rw [hlaw A hA]; exact hlt.ne'⟩

/-- **C72, what holds.** With one degree of freedom the draw has the law the score gives; the claim
for all degrees of freedom fails (`C72_student_t_fails`). -/
theorem C72_student_t_partial {la : Dist.NIW.LinAlg XR} (hla : ExactLinAlg la) (I : IdealNumpy σ)
    (mu : Fin d → ℝ) {sigma : Matrix (Fin d) (Fin d) ℝ} (hs : sigma.PosDef)
    {A : Set (Fin d → ℝ)} (hA : MeasurableSet A) :
    ∃ f : (Fin d → ℝ) → ℝ,
      (∀ v, Dbg.NIW.scoreStudentT la (vec v) (.fin 1) (vec mu) (mat sigma) = .ok (.fin (f v))) ∧
      I.P {s | ∃ v ∈ A, ∃ s', Dbg.sampleStudentT I.toNumpy s (.fin 1) (vec mu) (mat sigma) =
        (vec v, s')} = ∫⁻ v in A, ENNReal.ofReal (Real.exp (f v)) := by
  haveI := I.prob
  refine ⟨_, fun v => (C72_student_t_score hla v mu one_pos hs).2, ?_⟩
  have h := C72_student_t_law I one_pos mu hs hA MeasurableSet.univ
  simp only [measure_univ, mul_one, Set.mem_univ, true_and, div_one, one_smul] at h
  rw [h]
  exact lintegral_congr fun v => by
    rw [Real.exp_log (C72_student_t_score hla v mu one_pos hs).1]

/-- Three degrees of freedom in the plane. -/
example {la : Dist.NIW.LinAlg XR} (hla : ExactLinAlg la) (I : IdealNumpy σ) :
    ∃ f : (Fin 2 → ℝ) → ℝ,
      (∀ v, Dbg.NIW.scoreStudentT la (vec v) (.fin 3) (vec 0) (mat 1) = .ok (.fin (f v))) ∧
      ∃ A, MeasurableSet A ∧
        I.P {s | ∃ v ∈ A, ∃ s', Dbg.sampleStudentT I.toNumpy s (.fin 3) (vec 0) (mat 1) =
          (vec v, s')} ≠ ∫⁻ v in A, ENNReal.ofReal (Real.exp (f v)) :=
  C72_student_t_fails hla I (by norm_num) (by norm_num) (by norm_num) 0 Matrix.PosDef.one

/-! ## Wishart matrices

A Wishart matrix with `nu` degrees of freedom and scale `Lambda` has mean `nu Lambda`: the mean of
`uᵀ S u` is `nu uᵀ Lambda u`. -/

/-- **C72, `sample_wishart_naive`** has that mean. -/
theorem C72_wishart_naive_partial (I : IdealNumpy σ) {lambda : Matrix (Fin d) (Fin d) ℝ}
    (hl : lambda.PosDef) (nu : ℕ) :
    ∃ S : σ → Matrix (Fin d) (Fin d) ℝ,
      (∀ s, (Dbg.sampleWishartNaive I.toNumpy s nu (mat lambda)).1 = mat (S s)) ∧
      ∀ u : Fin d → ℝ, ∫⁻ s, ENNReal.ofReal (u ⬝ᵥ (S s *ᵥ u)) ∂I.P =
        ENNReal.ofReal (nu * (u ⬝ᵥ (lambda *ᵥ u))) := by
  refine ⟨fun s => gramOf (Dbg.realMvNormals I 0 lambda nu s).1, fun s => ?_, fun u => ?_⟩
  · have e1 : (fun _ : Fin d => (ofInt 0 : XR)) = vec 0 := by funext i; simp [vec]
    unfold Dbg.sampleWishartNaive
    rw [e1, Dbg.mvNormals_eq]
    funext i j
    show Dist.NIW.dot (vec fun k => (Dbg.realMvNormals I 0 lambda nu s).1 k i)
      (vec fun k => (Dbg.realMvNormals I 0 lambda nu s).1 k j) = XR.fin _
    rw [Dist.NIW.dot_eq]
    exact congrArg XR.fin (gramOf_apply _ i j).symm
  · rw [← (Dbg.realMvNormals_mean I hl u nu).2]
    apply lintegral_congr
    intro s
    congr 1
    unfold gramOf
    rw [← mulVec_mulVec, dotProduct_mulVec, ← mulVec_transpose, transpose_transpose]
    simp only [dotProduct, mulVec, Matrix.of_apply]
    exact Finset.sum_congr rfl fun k _ => by ring

/-- **C72, `sample_wishart` is wrong from two dimensions on.** The mean of the first entry is
`(nu - 2 d + 2) Lambda₀₀` instead of `nu Lambda₀₀`. -/
theorem C72_wishart_mean {la : Dbg.NumpyLinAlg XR} (hla : ExactNumpy la) (I : IdealNumpy σ) {n : ℕ}
    {lambda : Matrix (Fin (n + 1)) (Fin (n + 1)) ℝ} (hl : lambda.PosDef) {nu : ℝ}
    (hnu : 2 * (n : ℝ) < nu) :
    ∃ S : σ → Matrix (Fin (n + 1)) (Fin (n + 1)) ℝ,
      (∀ᵐ s ∂I.P, ∃ s', Dbg.sampleWishart la I.toNumpy s (.fin nu) (mat lambda) =
        .ok (mat (S s), s')) ∧
      ∫⁻ s, ENNReal.ofReal (S s 0 0) ∂I.P = ENNReal.ofReal ((nu - 2 * n) * lambda 0 0) := by
  set diag : ℕ → σ → XR × σ := fun _ s =>
    let (g, s) := I.toNumpy.gamma s (lit 1 2 * XR.fin nu - ofInt (n + 1 : ℕ) + lit 1 1) (lit 2 1)
    (sqrt g, s) with hdiag
  have hsh : (lit 1 2 * XR.fin nu - ofInt (n + 1 : ℕ) + lit 1 1 : XR) =
      .fin ((nu - 2 * n) / 2) := by
    simp only [XR.lit_eq, XR.ofInt_eq, XR.fin_mul, XR.fin_sub, XR.fin_add, XR.fin_inj]
    push_cast
    ring
  have h2 : (lit 2 1 : XR) = .fin 2 := by rw [XR.lit_eq]; norm_num
  obtain ⟨S, h3, h4⟩ := Dbg.wishart_mean I hl diag (fun _ => nu - 2 * n)
    (fun _ _ => by linarith) (fun _ s => I.gamma (((nu - 2 * n) / 2, 2), s))
    (fun _ => I.gamma_meas.comp measurable_prodMk_left)
    (fun _ _ => I.gamma_law ((nu - 2 * n) / 2) 2 (by linarith) (by norm_num))
    (fun _ s => by
      simp only [hdiag]
      rw [hsh, h2]
      rfl)
  refine ⟨S, ?_, h4⟩
  filter_upwards [h3] with s hs
  unfold Dbg.sampleWishart
  rw [Dbg.chol_eq hla hl]
  exact ⟨_, congrArg Res.ok (Prod.ext hs rfl)⟩

/-- **C72, `sample_wishart_v2` is wrong always.** The mean of the first entry is
`(nu + 1) Lambda₀₀`. -/
theorem C72_wishart_v2_mean {la : Dbg.NumpyLinAlg XR} (hla : ExactNumpy la) (I : IdealNumpy σ)
    {n : ℕ} {lambda : Matrix (Fin (n + 1)) (Fin (n + 1)) ℝ} (hl : lambda.PosDef) {nu : ℝ}
    (hnu : (n : ℝ) - 1 < nu) :
    ∃ S : σ → Matrix (Fin (n + 1)) (Fin (n + 1)) ℝ,
      (∀ᵐ s ∂I.P, ∃ s', Dbg.sampleWishartV2 la I.toNumpy s (.fin nu) (mat lambda) =
        .ok (mat (S s), s')) ∧
      ∫⁻ s, ENNReal.ofReal (S s 0 0) ∂I.P = ENNReal.ofReal ((nu + 1) * lambda 0 0) := by
  set diag : ℕ → σ → XR × σ := fun i s =>
    let (c, s) := I.toNumpy.chisq s (XR.fin nu - ofInt i + lit 1 1)
    (sqrt c, s) with hdiag
  have hsh : ∀ i : ℕ, (XR.fin nu - ofInt i + lit 1 1 : XR) = .fin (nu - i + 1) := fun i => by
    simp only [XR.lit_eq, XR.ofInt_eq, XR.fin_sub, XR.fin_add, XR.fin_inj]
    push_cast
    ring
  obtain ⟨S, h3, h4⟩ := Dbg.wishart_mean I hl diag (fun i => nu - i + 1)
    (fun i hi => by
      have : (i : ℝ) ≤ n := by exact_mod_cast Nat.lt_succ_iff.1 hi
      linarith) (fun i s => I.chisq (nu - i + 1, s))
    (fun _ => I.chisq_meas.comp measurable_prodMk_left)
    (fun i hi => I.chisq_law _ (by
      have : (i : ℝ) ≤ n := by exact_mod_cast Nat.lt_succ_iff.1 hi
      linarith))
    (fun i s => by
      simp only [hdiag]
      rw [hsh]
      rfl)
  rw [Nat.cast_zero, sub_zero] at h4
  refine ⟨S, ?_, h4⟩
  filter_upwards [h3] with s hs
  unfold Dbg.sampleWishartV2
  rw [Dbg.chol_eq hla hl]
  exact ⟨_, congrArg Res.ok (Prod.ext hs rfl)⟩

/-- Five degrees of freedom in the plane: means 5, 3 and 6 of the first entry. -/
example {la : Dbg.NumpyLinAlg XR} (hla : ExactNumpy la) (I : IdealNumpy σ) :
    (∃ S : σ → Matrix (Fin 2) (Fin 2) ℝ,
      (∀ s, (Dbg.sampleWishartNaive I.toNumpy s 5 (mat 1)).1 = mat (S s)) ∧
      ∫⁻ s, ENNReal.ofReal (S s 0 0) ∂I.P = 5) ∧
    (∃ S : σ → Matrix (Fin 2) (Fin 2) ℝ,
      (∀ᵐ s ∂I.P, ∃ s', Dbg.sampleWishart la I.toNumpy s (.fin 5) (mat 1) = .ok (mat (S s), s')) ∧
      ∫⁻ s, ENNReal.ofReal (S s 0 0) ∂I.P = 3) ∧
    ∃ S : σ → Matrix (Fin 2) (Fin 2) ℝ,
      (∀ᵐ s ∂I.P, ∃ s', Dbg.sampleWishartV2 la I.toNumpy s (.fin 5) (mat 1) =
        .ok (mat (S s), s')) ∧
      ∫⁻ s, ENNReal.ofReal (S s 0 0) ∂I.P = 6 := by
  refine ⟨?_, ?_, ?_⟩
  · obtain ⟨S, h1, h2⟩ := C72_wishart_naive_partial I (Matrix.PosDef.one (n := Fin 2) (R := ℝ)) 5
    refine ⟨S, h1, ?_⟩
    have := h2 (Pi.single 0 1)
    simpa using this
  · obtain ⟨S, h1, h2⟩ := C72_wishart_mean hla I (Matrix.PosDef.one (n := Fin 2) (R := ℝ)) (nu := 5)
      (by norm_num)
    refine ⟨S, h1, h2.trans ?_⟩
    norm_num
  · obtain ⟨S, h1, h2⟩ := C72_wishart_v2_mean hla I (Matrix.PosDef.one (n := Fin 2) (R := ℝ))
      (nu := 5) (by norm_num)
    refine ⟨S, h1, h2.trans ?_⟩
    norm_num

end Dist
