import Verif.Model.SampleGroupNiw
import Verif.Lemmas.RefNiwGroup

/-!
# The law of a group of normal-inverse-Wishart values drawn by the C++ code
-/

namespace Dist

open Spec FloatOps FloatNotation MeasureTheory ProbabilityTheory
open Matrix hiding vec

variable {σ : Type} [MeasurableSpace σ] {d : ℕ}

/-- The factor of the scaled matrix: the inverse transpose of the factor of the inverse. -/
theorem invT_factor {psi L : Matrix (Fin d) (Fin d) ℝ} (hpsi : psi.PosDef) (hL : IsChol psi⁻¹ L)
    {k : ℝ} (hk : 0 < k) :
    0 < (√k • (Lᵀ)⁻¹).det ∧ (√k • (Lᵀ)⁻¹) * (√k • (Lᵀ)⁻¹)ᵀ = k • psi ∧
      ∀ c M, gramCov (√k • (Lᵀ)⁻¹) (bart c M * (bart c M)ᵀ) = k • bartCov L c M := by
  have hu : IsUnit psi.det := isUnit_iff_ne_zero.2 hpsi.det_pos.ne'
  refine ⟨?_, ?_, fun c M => ?_⟩
  · rw [det_smul, det_nonsing_inv, det_transpose, Ring.inverse_eq_inv']
    have := hL.det_pos
    positivity
  · rw [transpose_smul, smul_mul_smul_comm, Real.mul_self_sqrt hk.le, transpose_nonsing_inv,
      transpose_transpose, ← Matrix.mul_inv_rev, hL.mul, Matrix.nonsing_inv_nonsing_inv _ hu]
  · unfold gramCov bartCov
    rw [transpose_smul, smul_mul_assoc, smul_mul_smul_comm, Real.mul_self_sqrt hk.le,
      transpose_nonsing_inv, transpose_transpose, ← Matrix.mul_inv_rev, ← Matrix.mul_inv_rev,
      transpose_mul]
    simp only [Matrix.mul_assoc]

/-- **The law of the sampler.** Mean and covariance are drawn once, then `n` values: they are
distributed as if the prior weight of the mean were 1 and the scale matrix `psi / kappa`. -/
theorem NIW.sampleGroup_law {e : NIW.Eigen XR} (he : ExactEigen e) (I : IdealRng σ)
    {mu : Fin d → ℝ} {kappa : ℝ} {psi : Matrix (Fin d) (Fin d) ℝ} {nu : ℝ}
    (hr : NIW.InRange mu kappa psi nu) (n : ℕ) :
    ∃ D : σ → (Fin n → Fin d → ℝ) × σ, Measurable D ∧
      (∀ f : (Fin n → Fin d → ℝ) × σ → ENNReal, Measurable f →
        ∫⁻ s, f (D s) ∂I.P = ∫⁻ v, ENNReal.ofReal
          (Real.exp (NIW.logMarginal mu 1 ((1 / kappa) • psi) nu (List.ofFn v))) *
            ∫⁻ s, f (v, s) ∂I.P) ∧
      ∀ᵐ s ∂I.P, ∃ p s', NIW.sampleNormalInverseWishart e I.toRng s (NIW.vec mu) (.fin kappa)
          (NIW.mat psi) (.fin nu) = .ok (p, s') ∧
        sampleLoop (fun s => NIW.Sampler.eval e I.toRng s p) n s' =
          .ok (List.ofFn fun k => NIW.vec ((D s).1 k), (D s).2) := by
  haveI := I.prob
  have hk := hr.kappa
  have hk1 : 0 < 1 / kappa := by positivity
  have hnu := hr.nu
  haveI := chiLaw_prob (nu := nu) d hnu
  have hL := cholM_isChol hr.psi.inv
  set L := cholM psi⁻¹ with hLdef
  obtain ⟨hC, hCm, hCov⟩ := invT_factor hr.psi hL hk1
  set C := √(1 / kappa) • (Lᵀ)⁻¹ with hCdef
  let Ω := (Fin d → ℝ) × (Fin d → Fin d → ℝ)
  let G : Ω → Matrix (Fin d) (Fin d) ℝ := fun p => bart p.1 p.2 * (bart p.1 p.2)ᵀ
  let ρ : Measure Ω := (chiLaw nu d).prod (lowLaw d)
  have hGm : Measurable fun (w : Ω) i j => G w i j := bartGram_measurable
  have hpd : ∀ᵐ w ∂ρ, (G w).PosDef := by
    filter_upwards [Measure.quasiMeasurePreserving_fst.ae (chiLaw_pos d hnu),
      Measure.quasiMeasurePreserving_snd.ae (lowLaw_lower d)] with p hc hM
    have := (bartCov_posDef (L := 1) (by simp) hc hM).1
    simpa using this
  let D : σ → Ω × σ := fun s => (((realChis I nu d s).1,
    (realLowers I d (realChis I nu d s).2).1), (realLowers I d (realChis I nu d s).2).2)
  have hlow : Measurable fun s => realLowers I d (realChis I nu d s).2 :=
    (realLowers_meas I d).comp (realChis_meas I nu d).snd
  have hDm : Measurable D := ((realChis_meas I nu d).fst.prodMk hlow.fst).prodMk hlow.snd
  have hD : HasLaw I.P D ρ := (realChis_law I d hnu).seq (realChis_meas I nu d)
    (realLowers_law I d) (realLowers_meas I d)
  have hcov : Measurable fun w i j => gramCov C (G w) i j := gramCov_measurable hGm C
  have hchol : Measurable fun w => cholR fun i j => gramCov C (G w) i j :=
    cholR_measurable.comp hcov
  -- one normal vector
  let E : ((Fin d → ℝ) × Ω) × σ → (Fin d → ℝ) × σ := fun q =>
    (q.1.1 + cholM (gramCov C (G q.1.2)) *ᵥ (realNormals I d q.2).1, (realNormals I d q.2).2)
  have hn := realNormals_meas I d
  have hE : Measurable E := by
    have h1 := measurable_mulVec (hchol.comp
      (measurable_snd.comp (measurable_fst (α := (Fin d → ℝ) × Ω) (β := σ))))
      (hn.fst.comp (measurable_snd (α := (Fin d → ℝ) × Ω) (β := σ)))
    exact ((measurable_fst.comp measurable_fst).add h1).prodMk (hn.snd.comp measurable_snd)
  have hElaw : ∀ (m : Fin d → ℝ) (w : Ω), HasLaw I.P (fun s => E ((m, w), s))
      ((stdNormals d).map fun z => m + cholM (gramCov C (G w)) *ᵥ z) := by
    intro m w
    have h := (HasLaw.const I.P ()).bind (measurable_const.prodMk measurable_id)
      (realNormals_law I d) hn
      (g := fun q : Unit × (Fin d → ℝ) => m + cholM (gramCov C (G w)) *ᵥ q.2)
      ((measurable_affine m _).comp measurable_snd)
    refine Eq.trans h ?_
    congr 1
    rw [Measure.dirac_prod]
    exact Measure.map_map ((measurable_affine m _).comp measurable_snd) measurable_prodMk_left
  let R : Ω × σ → (Fin n → Fin d → ℝ) × σ := fun q =>
    drawVec E n (((E ((mu, q.1), q.2)).1, q.1), (E ((mu, q.1), q.2)).2)
  have hM : Measurable fun q : Ω × σ => E ((mu, q.1), q.2) :=
    hE.comp ((measurable_const.prodMk measurable_fst).prodMk measurable_snd)
  have hR : Measurable R :=
    (drawVec_meas hE n).comp ((hM.fst.prodMk measurable_fst).prodMk hM.snd)
  have hr1 : NIW.InRange mu 1 ((1 / kappa) • psi) nu :=
    ⟨hr.dim, one_pos, hr.psi.smul hk1, hnu⟩
  refine ⟨fun s => R (D s), hR.comp hDm, fun f hf => ?_, ?_⟩
  · have hfv : Measurable fun v => ∫⁻ s, f (v, s) ∂I.P := hf.lintegral_prod_right'
    have h1 := hD.lintegral hDm (hf.comp hR)
    refine h1.trans ?_
    rw [← niw_joint hGm hpd (bart_gram_tilt hnu n) hC hCm hr1 hfv]
    apply lintegral_congr_ae
    filter_upwards [hpd] with w hw
    have hS := gramCov_posDef hC.ne' hw
    rw [Dbg.smul_inv_inv hS one_pos, one_div_one, one_smul]
    have hMw : Measurable fun s => E ((mu, w), s) := hE.comp measurable_prodMk_left
    have hg : Measurable fun q : (Fin d → ℝ) × σ => f (drawVec E n ((q.1, w), q.2)) :=
      hf.comp ((drawVec_meas hE n).comp ((measurable_fst.prodMk measurable_const).prodMk
        measurable_snd))
    have h2 := (hElaw mu w).lintegral (d := fun s => E ((mu, w), s)) hMw hg
    refine h2.trans ?_
    rw [lintegral_map hg.lintegral_prod_right' (measurable_affine mu _)]
    apply lintegral_congr
    intro x
    set m := mu + cholM (gramCov C (G w)) *ᵥ x
    haveI : IsProbabilityMeasure ((stdNormals d).map fun z => m + cholM (gramCov C (G w)) *ᵥ z) :=
      Measure.isProbabilityMeasure_map (measurable_affine m _).aemeasurable
    refine (drawVec_lintegral hE (hElaw m w) n hf).trans ?_
    have hpi := Measure.pi_map_pi (μ := fun _ : Fin n => stdNormals d)
      (f := fun _ z => m + cholM (gramCov C (G w)) *ᵥ z)
      (fun _ => (measurable_affine m _).aemeasurable)
    rw [← hpi, lintegral_map]
    · exact hf.lintegral_prod_right'
    · exact measurable_pi_iff.2 fun k => (measurable_affine m _).comp (measurable_pi_apply k)
  · filter_upwards [NIW.sampleNormalInverseWishart_eq he I hr.psi hk hnu mu] with s hs
    refine ⟨_, _, hs.2, ?_⟩
    have hw : gramCov C (G (D s).1) = (1 / kappa) • bartCov L (realChis I nu d s).1
        (realLowers I d (realChis I nu d s).2).1 := hCov _ _
    refine (drawVec_loop (E := E) (θ := ((E ((mu, (D s).1), (D s).2)).1, (D s).1)) NIW.vec
      (fun s₂ => ?_) n _).trans ?_
    · unfold NIW.Sampler.eval
      rw [NIW.sampleMvNormal_eq he I hs.1]
      simp only [E, hw]
      rfl
    · simp only [R, E, hw]
      rfl

end Dist
