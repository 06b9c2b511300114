import Verif.Lemmas.BartlettTilt

/-! # The inverse Wishart matrix drawn by the reference implementation -/

namespace Dist

open MeasureTheory ProbabilityTheory Real Spec Matrix FloatOps FloatNotation

variable {σ : Type} [MeasurableSpace σ] {d : ℕ}

/-- `√det G ⁿ exp (-⟨S, G⟩ / 2)`. -/
noncomputable def gramTilt (S : Matrix (Fin d) (Fin d) ℝ) (n : ℕ)
    (G : Matrix (Fin d) (Fin d) ℝ) : ENNReal :=
  ENNReal.ofReal (√G.det ^ n * exp (-(∑ i, ∑ j, S i j * G i j) / 2))

theorem bart_gramTilt {c : Fin d → ℝ} (hc : ∀ i, 0 < c i) {M : Fin d → Fin d → ℝ}
    (hM : ∀ i j, i < j → M i j = 0) (S : Matrix (Fin d) (Fin d) ℝ) (n : ℕ) :
    gramTilt S n (bart c M * (bart c M)ᵀ) = bartTilt S n c M := by
  unfold gramTilt bartTilt
  rw [det_mul, det_transpose, bart_det c M hM,
    Real.sqrt_mul_self (Finset.prod_pos fun i _ => hc i).le]

theorem bart_gram_tilt {nu : ℝ} (hnu : (d : ℝ) - 1 < nu) (n : ℕ) :
    ∃ K : ENNReal, ∀ S : Matrix (Fin d) (Fin d) ℝ, (1 + S).PosDef →
      ∫⁻ p, gramTilt S n (bart p.1 p.2 * (bart p.1 p.2)ᵀ) ∂(chiLaw nu d).prod (lowLaw d) =
        K * ENNReal.ofReal (√(1 + S).det ^ (-(nu + n))) := by
  obtain ⟨K, hK, h⟩ := bart_tilt n d hnu
  haveI := chiLaw_prob (nu := nu) d hnu
  refine ⟨ENNReal.ofReal K, fun S hS => ?_⟩
  rw [← ENNReal.ofReal_mul hK.le, ← h S hS]
  have e : ∫⁻ p, gramTilt S n (bart p.1 p.2 * (bart p.1 p.2)ᵀ) ∂(chiLaw nu d).prod (lowLaw d) =
      ∫⁻ p, bartTilt S n p.1 p.2 ∂(chiLaw nu d).prod (lowLaw d) := by
    apply lintegral_congr_ae
    filter_upwards [Measure.quasiMeasurePreserving_fst.ae (chiLaw_pos d hnu),
      Measure.quasiMeasurePreserving_snd.ae (lowLaw_lower d)] with p hc hM
    exact bart_gramTilt hc hM S n
  rw [e, lintegral_prod _ (bartTilt_measurable S n).aemeasurable]

theorem rows_gram_tilt (m n : ℕ) :
    ∃ K : ENNReal, ∀ S : Matrix (Fin d) (Fin d) ℝ, (1 + S).PosDef →
      ∫⁻ x, gramTilt S n (gramOf x) ∂rowsLaw m d =
        K * ENNReal.ofReal (√(1 + S).det ^ (-((m : ℝ) + n))) := by
  refine ⟨∫⁻ x, ENNReal.ofReal (√(gramOf x).det ^ n) ∂rowsLaw m d, fun S hS => ?_⟩
  have e : ∀ x : Fin m → Fin d → ℝ, ∑ i, ∑ j, S i j * gramOf x i j = ∑ k, x k ⬝ᵥ (S *ᵥ x k) := by
    intro x
    simp only [gramOf_apply, dotProduct, mulVec, Finset.mul_sum]
    rw [Finset.sum_congr rfl fun i _ => Finset.sum_comm, Finset.sum_comm]
    exact Finset.sum_congr rfl fun k _ => Finset.sum_congr rfl fun i _ =>
      Finset.sum_congr rfl fun j _ => by ring
  simp only [gramTilt, e]
  rw [rowsLaw_det_tilt hS, mul_comm]
  congr 2
  have h0 : 0 < √(1 + S).det := Real.sqrt_pos.2 hS.det_pos
  rw [Real.rpow_neg h0.le, ← Nat.cast_add, Real.rpow_natCast, inv_pow]

namespace Dbg

open Dist.NIW (vec mat)

theorem randn_eq (I : IdealNumpy σ) (n m : ℕ) (s : σ) :
    randn I.toNumpy n m s = (fun i j => .fin ((realRandn I.toIdealRng n m s).1 i j),
      (realRandn I.toIdealRng n m s).2) := by
  induction m with
  | zero => exact Prod.ext (funext fun i => i.elim0) rfl
  | succ m ih =>
    unfold randn realRandn
    rw [ih]
    have hn : ∀ s, Dist.NIW.normals I.toNumpy.toRng n s =
        (vec (realNormals I.toIdealRng n s).1, (realNormals I.toIdealRng n s).2) :=
      fun s => Dist.NIW.normals_eq I.toIdealRng n s
    simp only [hn]
    refine Prod.ext (funext fun i => funext fun j => ?_) rfl
    simp only
    refine Fin.lastCases ?_ (fun i => ?_) i <;> simp [Dist.NIW.vec]

theorem uppers_eq (I : IdealNumpy σ) (n : ℕ) (s : σ) :
    uppers I.toNumpy n s = (fun i j => .fin ((realUppers I.toIdealRng n s).1 j i),
      (realUppers I.toIdealRng n s).2) := by
  induction n generalizing s with
  | zero => exact Prod.ext (funext fun i => i.elim0) rfl
  | succ n ih =>
    unfold uppers realUppers
    have hn : ∀ s, Dist.NIW.normals I.toNumpy.toRng n s =
        (vec (realNormals I.toIdealRng n s).1, (realNormals I.toIdealRng n s).2) :=
      fun s => Dist.NIW.normals_eq I.toIdealRng n s
    simp only [hn, ih]
    refine Prod.ext (funext fun i => funext fun j => ?_) rfl
    simp only [consMat]
    refine Fin.cases ?_ (fun j => ?_) j
    · simp
    · simp only [Fin.cases_succ]
      refine Fin.cases ?_ (fun i => ?_) i <;> simp [Dist.NIW.vec]

open Classical in
theorem mvNormal_eq (I : IdealNumpy σ) (s : σ) (mean : Fin d → ℝ) (cov : Matrix (Fin d) (Fin d) ℝ) :
    I.toNumpy.mvNormal s (vec mean) (mat cov) =
      (vec (I.mvNormal ((mean, cov), s)).1, (I.mvNormal ((mean, cov), s)).2) := by
  have h : ∃ q : (Fin d → ℝ) × (Fin d → Fin d → ℝ),
      vec mean = (fun i => XR.fin (q.1 i)) ∧ mat cov = fun i j => XR.fin (q.2 i j) :=
    ⟨(mean, cov), rfl, rfl⟩
  have hc : h.choose = (mean, cov) := by
    have h2 := h.choose_spec
    refine Prod.ext (funext fun i => ?_) (funext fun i => funext fun j => ?_)
    · exact (XR.fin_inj.1 (congrFun h2.1 i)).symm
    · exact (XR.fin_inj.1 (congrFun (congrFun h2.2 i) j)).symm
  show (if h : _ then _ else _) = _
  rw [dif_pos h, hc]
  rfl

open Classical in
theorem whole_some {I : IdealNumpy σ} {nu : ℝ} {m : ℕ} (h : I.toNumpy.whole (.fin nu) = some m) :
    nu = m := by
  have h' : (if h : ∃ n : ℕ, XR.fin nu = .fin n then some h.choose else none) = some m := h
  split_ifs at h' with h2
  have := h2.choose_spec
  rw [Option.some.inj h'] at this
  exact XR.fin_inj.1 this

theorem chol_eq {la : NumpyLinAlg XR} (hla : ExactNumpy la) {M : Matrix (Fin d) (Fin d) ℝ}
    (hM : M.PosDef) : la.chol (mat M) = some (mat (cholM M)) := by
  obtain ⟨L, h1, h2, h3, h4⟩ := hla.chol M hM
  rw [← IsChol.eq_cholM ⟨h1, h2, h3⟩]
  exact h4

/-- The end of `sample_invwishart`, from the matrix whose QR decomposition is taken. -/
theorem invWishart_of_gram {la : NumpyLinAlg XR} (hla : ExactNumpy la) {m : ℕ}
    (C : Matrix (Fin d) (Fin d) ℝ) (X : Matrix (Fin m) (Fin d) ℝ) (hX : (Xᵀ * X).PosDef) :
    ∃ Tt, la.solveLower (fun i j => la.qrR (fun i j => XR.fin (X i j)) j i) (fun i j => mat C j i) =
      some Tt ∧ Dist.NIW.matMul (fun i j => Tt j i) Tt = mat (gramCov C (Xᵀ * X)) := by
  obtain ⟨R, h1, h2, h3, h4⟩ := hla.qrR X hX.det_pos.ne'
  rw [h4]
  have h5 := hla.solve Rᵀ Cᵀ (fun i j h => h1 j i h) h2
  refine ⟨_, h5, ?_⟩
  have h6 := Dist.NIW.matMul_eq (Rᵀ⁻¹ * Cᵀ)ᵀ (Rᵀ⁻¹ * Cᵀ)
  refine h6.trans ?_
  congr 1
  rw [gramCov, ← h3, Matrix.mul_inv_rev, transpose_mul, transpose_transpose, transpose_nonsing_inv,
    transpose_transpose]
  simp only [Matrix.mul_assoc]

/-- **The draw of `sample_invwishart`**: `Σ = C G⁻¹ Cᵀ` with `C` the Cholesky factor of the scale,
and `G` a Wishart matrix by either of the two ways the code draws it. -/
theorem sampleInvWishart_law {la : NumpyLinAlg XR} (hla : ExactNumpy la) (I : IdealNumpy σ)
    {psi : Matrix (Fin d) (Fin d) ℝ} (hpsi : psi.PosDef) {nu : ℝ} (hnu : (d : ℝ) - 1 < nu) :
    ∃ (Ω : Type) (_ : MeasurableSpace Ω) (ρ : Measure Ω) (G : Ω → Matrix (Fin d) (Fin d) ℝ)
      (D : σ → Ω × σ), IsProbabilityMeasure ρ ∧ Measurable (fun w i j => G w i j) ∧ Measurable D ∧
      HasLaw I.P D ρ ∧ (∀ᵐ w ∂ρ, (G w).PosDef) ∧
      (∀ n, ∃ K : ENNReal, ∀ S : Matrix (Fin d) (Fin d) ℝ, (1 + S).PosDef →
        ∫⁻ w, gramTilt S n (G w) ∂ρ = K * ENNReal.ofReal (√(1 + S).det ^ (-(nu + n)))) ∧
      ∀ᵐ s ∂I.P, sampleInvWishart la I.toNumpy s (mat psi) (.fin nu) =
        .ok (mat (gramCov (cholM psi) (G (D s).1)), (D s).2) := by
  have hcm := cholM_isChol hpsi
  rcases hw : (I.toNumpy.whole (.fin nu)).filter fun m => m ≤ 81 + d with _ | m
  · haveI := chiLaw_prob (nu := nu) d hnu
    have hpd : ∀ᵐ p ∂(chiLaw nu d).prod (lowLaw d), (bart p.1 p.2 * (bart p.1 p.2)ᵀ).PosDef := by
      filter_upwards [Measure.quasiMeasurePreserving_fst.ae (chiLaw_pos d hnu),
        Measure.quasiMeasurePreserving_snd.ae (lowLaw_lower d)] with p hc hM
      have := (bartCov_posDef (L := 1) (by simp) hc hM).1
      simpa using this
    have hG := bartGram_measurable (d := d)
    have hU : Measurable fun s => realUppers I.toIdealRng d (realChis I.toIdealRng nu d s).2 :=
      (realUppers_meas _ d).comp (realChis_meas _ nu d).snd
    have hD : Measurable fun s => (((realChis I.toIdealRng nu d s).1,
        (realUppers I.toIdealRng d (realChis I.toIdealRng nu d s).2).1),
        (realUppers I.toIdealRng d (realChis I.toIdealRng nu d s).2).2) :=
      ((realChis_meas _ nu d).fst.prodMk hU.fst).prodMk hU.snd
    have hL := (realChis_law I.toIdealRng d hnu).seq (realChis_meas _ nu d)
        (realUppers_law I.toIdealRng d) (realUppers_meas _ d)
    refine ⟨_, inferInstance, (chiLaw nu d).prod (lowLaw d),
      fun p => bart p.1 p.2 * (bart p.1 p.2)ᵀ,
      fun s => (((realChis I.toIdealRng nu d s).1,
        (realUppers I.toIdealRng d (realChis I.toIdealRng nu d s).2).1),
        (realUppers I.toIdealRng d (realChis I.toIdealRng nu d s).2).2),
      inferInstance, hG, hD, hL, hpd, bart_gram_tilt hnu, ?_⟩
    · filter_upwards [Dist.NIW.chis_eq I.toIdealRng d hnu, hL.ae hD hpd] with s hs hp
      unfold sampleInvWishart
      rw [chol_eq hla hpsi]
      simp only [hw, uppers_eq]
      have hs' : Dist.NIW.chis I.toNumpy.toRng (.fin nu) d s = _ := hs
      rw [hs']
      simp only
      set c := (realChis I.toIdealRng nu d s).1
      set s₁ := (realChis I.toIdealRng nu d s).2
      set M := (realUppers I.toIdealRng d s₁).1
      have hX : (fun i j => if i = j then Dist.NIW.vec c i else XR.fin (M j i)) =
          fun i j => XR.fin ((bart c M)ᵀ i j) := by
        funext i j
        by_cases h : i = j
        · subst h; simp [bart, Dist.NIW.vec]
        · simp [bart, h, Ne.symm h]
      rw [hX]
      have hp' : ((bart c M)ᵀᵀ * (bart c M)ᵀ).PosDef := by rw [transpose_transpose]; exact hp
      obtain ⟨Tt, h1, h2⟩ := invWishart_of_gram hla (cholM psi) (bart c M)ᵀ hp'
      rw [h1]
      simp only [h2, transpose_transpose]
  · obtain ⟨hw1, -⟩ := Option.filter_eq_some_iff.1 hw
    have hm : nu = m := whole_some hw1
    have hdm : d ≤ m := by
      rw [hm] at hnu
      have : (d : ℝ) < m + 1 := by linarith
      exact Nat.lt_succ_iff.1 (by exact_mod_cast this)
    refine ⟨_, inferInstance, rowsLaw m d, gramOf, realRandn I.toIdealRng d m, inferInstance,
      gramOf_measurable, realRandn_meas _ d m, realRandn_law _ d m, rowsLaw_posDef hdm,
      fun n => ?_, ?_⟩
    · rw [hm]; exact rows_gram_tilt m n
    · filter_upwards [(realRandn_law I.toIdealRng d m).ae (realRandn_meas _ d m)
        (rowsLaw_posDef hdm)] with s hp
      unfold sampleInvWishart
      rw [chol_eq hla hpsi]
      simp only [hw, randn_eq]
      obtain ⟨Tt, h1, h2⟩ := invWishart_of_gram hla (cholM psi)
        (of (realRandn I.toIdealRng d m s).1) hp
      simp only [of_apply] at h1
      rw [h1]
      simp only [h2, gramOf]

end Dbg

end Dist
