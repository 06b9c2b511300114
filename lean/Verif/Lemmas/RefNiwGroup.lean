import Verif.Lemmas.NIWGroup
import Verif.Lemmas.NormalMany

/-! # The law of the normal-inverse-Wishart samplers of the reference implementation -/

namespace Dist

open MeasureTheory ProbabilityTheory Real Spec Matrix FloatOps FloatNotation

variable {σ : Type} [MeasurableSpace σ] {d : ℕ}

theorem gramCov_measurable {Ω : Type} [MeasurableSpace Ω] {G : Ω → Matrix (Fin d) (Fin d) ℝ}
    (hG : Measurable (fun w i j => G w i j)) (C : Matrix (Fin d) (Fin d) ℝ) :
    Measurable fun w i j => gramCov C (G w) i j := by
  have h : Measurable fun w i j => (G w)⁻¹ i j := matInv_measurable.comp hG
  refine measurable_pi_iff.2 fun i => measurable_pi_iff.2 fun j => ?_
  simp only [gramCov, Matrix.mul_apply]
  exact Finset.measurable_sum _ fun k _ => (Finset.measurable_sum _ fun l _ =>
    (measurable_pi_iff.1 (measurable_pi_iff.1 h l) k).const_mul _).mul_const _

/-- A normal vector with a given covariance. -/
theorem mvNormal_law_cov (I : IdealNumpy σ) (m : Fin d → ℝ) {S : Matrix (Fin d) (Fin d) ℝ}
    (hS : S.PosDef) :
    HasLaw I.P (fun s => I.mvNormal ((m, fun i j => S i j), s))
      ((stdNormals d).map fun z => m + cholM S *ᵥ z) := by
  have hc := cholM_isChol hS
  have h := I.mvNormal_law m (cholM S) hc.det_pos.ne'
  rw [hc.mul] at h
  exact h

theorem measurable_affine (m : Fin d → ℝ) (T : Matrix (Fin d) (Fin d) ℝ) :
    Measurable fun z : Fin d → ℝ => m + T *ᵥ z :=
  (matClm T).continuous.measurable.const_add m

/-- Several normal vectors with the same mean and covariance. -/
theorem lintegral_draws (I : IdealNumpy σ) {Ω : Type} [MeasurableSpace Ω]
    {S : Ω → Matrix (Fin d) (Fin d) ℝ} (hSm : Measurable fun w i j => S w i j) {w : Ω}
    (hS : (S w).PosDef) (m : Fin d → ℝ) (n : ℕ) {f : (Fin n → Fin d → ℝ) × σ → ENNReal}
    (hf : Measurable f) :
    ∫⁻ s, f (drawVec (fun q : ((Fin d → ℝ) × Ω) × σ =>
        I.mvNormal ((q.1.1, fun i j => S q.1.2 i j), q.2)) n ((m, w), s)) ∂I.P =
      ∫⁻ y, ∫⁻ s, f (fun k => m + cholM (S w) *ᵥ y k, s) ∂I.P
        ∂Measure.pi (fun _ => stdNormals d) := by
  haveI := I.prob
  have hE : Measurable fun q : ((Fin d → ℝ) × Ω) × σ =>
      I.mvNormal ((q.1.1, fun i j => S q.1.2 i j), q.2) :=
    I.mvNormal_meas.comp (((measurable_fst.comp measurable_fst).prodMk
      (hSm.comp (measurable_snd.comp measurable_fst))).prodMk measurable_snd)
  haveI : IsProbabilityMeasure ((stdNormals d).map fun z => m + cholM (S w) *ᵥ z) :=
    Measure.isProbabilityMeasure_map (measurable_affine m _).aemeasurable
  have h := drawVec_lintegral (P := I.P) hE (θ := (m, w)) (mvNormal_law_cov I m hS) n hf
  refine h.trans ?_
  have hpi := Measure.pi_map_pi (μ := fun _ : Fin n => stdNormals d)
    (f := fun _ z => m + cholM (S w) *ᵥ z) (fun _ => (measurable_affine m _).aemeasurable)
  rw [← hpi, lintegral_map]
  · exact hf.lintegral_prod_right'
  · exact measurable_pi_iff.2 fun k => (measurable_affine m _).comp (measurable_pi_apply k)

namespace Dbg

open Dist.NIW (vec mat)

theorem smul_inv_inv {S : Matrix (Fin d) (Fin d) ℝ} (hS : S.PosDef) {kappa : ℝ} (hk : 0 < kappa) :
    (kappa • S⁻¹)⁻¹ = (1 / kappa) • S := by
  apply Matrix.inv_eq_left_inv
  rw [smul_mul_smul_comm, one_div, inv_mul_cancel₀ hk.ne', one_smul,
    Matrix.mul_nonsing_inv _ (isUnit_iff_ne_zero.2 hS.det_pos.ne')]

/-- **The law of the sampler.** Mean and covariance are drawn once, then `n` values. -/
theorem sampleNIW_law {la : NumpyLinAlg XR} (hla : ExactNumpy la) (I : IdealNumpy σ)
    {mu : Fin d → ℝ} {kappa : ℝ} {psi : Matrix (Fin d) (Fin d) ℝ} {nu : ℝ}
    (hr : Dist.NIW.InRange mu kappa psi nu) (n : ℕ) :
    ∃ D : σ → (Fin n → Fin d → ℝ) × σ, Measurable D ∧
      (∀ f : (Fin n → Fin d → ℝ) × σ → ENNReal, Measurable f →
        ∫⁻ s, f (D s) ∂I.P = ∫⁻ v, ENNReal.ofReal
          (exp (Dist.NIW.logMarginal mu kappa psi nu (List.ofFn v))) * ∫⁻ s, f (v, s) ∂I.P) ∧
      ∀ᵐ s ∂I.P, ∃ m S s', sampleNormalInverseWishart la I.toNumpy s (vec mu) (.fin kappa) (mat psi)
          (.fin nu) = .ok ((vec m, mat S), s') ∧
        sampleLoop (fun s => .ok (I.toNumpy.mvNormal s (vec m) (mat S))) n s' =
          .ok (List.ofFn fun k => vec ((D s).1 k), (D s).2) := by
  haveI := I.prob
  have hk := hr.kappa
  obtain ⟨Ω, _, ρ, G, D, hρ, hGm, hDm, hD, hpd, hT, hrun⟩ :=
    sampleInvWishart_law hla I hr.psi hr.nu
  have hC := cholM_isChol hr.psi
  set C := cholM psi with hCdef
  have hcov := gramCov_measurable hGm C
  -- the mean
  let M : Ω × σ → (Fin d → ℝ) × σ := fun q =>
    I.mvNormal ((mu, fun i j => 1 / kappa * gramCov C (G q.1) i j), q.2)
  have hM : Measurable M := by
    refine I.mvNormal_meas.comp (Measurable.prodMk (measurable_const.prodMk ?_) measurable_snd)
    refine measurable_pi_iff.2 fun i => measurable_pi_iff.2 fun j => ?_
    exact ((measurable_pi_iff.1 (measurable_pi_iff.1 hcov i) j).comp measurable_fst).const_mul _
  let E : ((Fin d → ℝ) × Ω) × σ → (Fin d → ℝ) × σ := fun q =>
    I.mvNormal ((q.1.1, fun i j => gramCov C (G q.1.2) i j), q.2)
  have hE : Measurable E :=
    I.mvNormal_meas.comp (((measurable_fst.comp measurable_fst).prodMk
      (hcov.comp (measurable_snd.comp measurable_fst))).prodMk measurable_snd)
  let R : Ω × σ → (Fin n → Fin d → ℝ) × σ := fun q => drawVec E n (((M q).1, q.1), (M q).2)
  have hR : Measurable R :=
    (drawVec_meas hE n).comp ((hM.fst.prodMk measurable_fst).prodMk hM.snd)
  refine ⟨fun s => R (D s), hR.comp hDm, fun f hf => ?_, ?_⟩
  · have hfv : Measurable fun v => ∫⁻ s, f (v, s) ∂I.P := hf.lintegral_prod_right'
    have h1 := hD.lintegral hDm (hf.comp hR)
    refine h1.trans ?_
    rw [← niw_joint hGm hpd (hT n) hC.det_pos hC.mul hr hfv]
    apply lintegral_congr_ae
    filter_upwards [hpd] with w hw
    have hS := gramCov_posDef hC.det_pos.ne' hw
    have hS' : ((1 / kappa) • gramCov C (G w)).PosDef := hS.smul (by positivity)
    rw [smul_inv_inv hS hk]
    -- the mean
    have hlaw := mvNormal_law_cov I mu hS'
    have hMw : Measurable fun s => M (w, s) := hM.comp measurable_prodMk_left
    have hg : Measurable fun q : (Fin d → ℝ) × σ => f (drawVec E n ((q.1, w), q.2)) :=
      hf.comp ((drawVec_meas hE n).comp ((measurable_fst.prodMk measurable_const).prodMk
        measurable_snd))
    have h2 := hlaw.lintegral (d := fun s => M (w, s)) hMw hg
    refine h2.trans ?_
    rw [lintegral_map hg.lintegral_prod_right' (measurable_affine mu _)]
    apply lintegral_congr
    intro x
    exact lintegral_draws I hcov hS _ n hf
  · filter_upwards [hrun] with s hs
    refine ⟨(M (D s)).1, gramCov C (G (D s).1), (M (D s)).2, ?_, ?_⟩
    · unfold sampleNormalInverseWishart
      rw [if_neg, if_neg, hs, Res.ok_bind]
      · simp only [Res.pure_eq, Res.ok.injEq]
        have e : (fun i j => (lit 1 1 : XR) / .fin kappa * mat (gramCov C (G (D s).1)) i j) =
            mat (of fun i j => 1 / kappa * gramCov C (G (D s).1) i j) := by
          funext i j
          rw [XR.lit_eq, XR.fin_div _ _ hk.ne']
          simp [Dist.NIW.mat]
        have e2 := mvNormal_eq I (D s).2 mu (of fun i j => 1 / kappa * gramCov C (G (D s).1) i j)
        rw [← e] at e2
        have e3 := congrArg Prod.fst e2
        have e4 := congrArg Prod.snd e2
        exact Prod.ext (Prod.ext e3 rfl) e4
      · have := hr.nu
        simp only [XR.ofInt_eq, XR.fin_sub, XR.lt_fin]
        simpa using this
      · simp only [XR.ofInt_eq, XR.lt_fin]
        simpa using hk
    · exact drawVec_loop (E := E) (θ := ((M (D s)).1, (D s).1)) vec (fun s => by
        rw [mvNormal_eq]) n _

end Dbg

end Dist
