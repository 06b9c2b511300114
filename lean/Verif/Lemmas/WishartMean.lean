import Verif.Lemmas.StudentDraw
import Verif.Lemmas.IdealNumpyExists

/-! # Means of the matrices the Wishart samplers draw -/

namespace Dist

open MeasureTheory ProbabilityTheory Real Spec FloatOps FloatNotation
open Matrix hiding vec
open Dist.NIW (vec mat)

variable {σ : Type} [MeasurableSpace σ] {d : ℕ}

/-- The mean of a gamma variable. -/
theorem gamma_mean {a r : ℝ} (ha : 0 < a) (hr : 0 < r) :
    ∫⁻ x, ENNReal.ofReal x ∂gammaMeasure a r = ENNReal.ofReal (a / r) := by
  have h := gamma_moment (k := 1) (t := 0) ha hr (by linarith) (by linarith)
  simp only [zero_mul, neg_zero, Real.exp_zero, mul_one, Real.rpow_one, add_zero] at h
  rw [h, Real.Gamma_add_one ha.ne']
  congr 1
  have := Real.Gamma_pos_of_pos ha
  rw [Real.rpow_neg hr.le, Real.rpow_add hr, Real.rpow_one]
  have := Real.rpow_pos_of_pos hr a
  field_simp

/-- The second moment of a standard normal variable. -/
theorem gaussian_sq : ∫⁻ x, ENNReal.ofReal (x ^ 2) ∂gaussianReal 0 1 = 1 := by
  have h := variance_fun_id_gaussianReal (μ := 0) (v := 1)
  rw [variance_eq_integral (by fun_prop)] at h
  simp only [integral_id_gaussianReal, sub_zero, NNReal.coe_one] at h
  have hi : Integrable (fun x : ℝ => x ^ 2) (gaussianReal 0 1) := by
    by_contra hc
    rw [integral_undef hc] at h
    exact zero_ne_one h
  rw [← ofReal_integral_eq_lintegral_ofReal hi (Filter.Eventually.of_forall fun x => sq_nonneg x), h,
    ENNReal.ofReal_one]

/-- The second moment of a linear form of standard normal variables. -/
theorem stdNormals_form_sq (w : Fin d → ℝ) :
    ∫⁻ z, ENNReal.ofReal ((w ⬝ᵥ z) ^ 2) ∂stdNormals d = ENNReal.ofReal (w ⬝ᵥ w) := by
  rcases Nat.eq_zero_or_pos d with rfl | hd
  · simp [dotProduct]
  let o : Fin d := ⟨0, hd⟩
  have hw : 0 ≤ w ⬝ᵥ w := by
    rw [dotProduct]; exact Finset.sum_nonneg fun i _ => mul_self_nonneg _
  let A : Matrix (Fin d) (Fin d) ℝ := Matrix.of fun i j => if i = o then w j else 0
  let B : Matrix (Fin d) (Fin d) ℝ := Matrix.of fun i j => if i = o ∧ j = o then √(w ⬝ᵥ w) else 0
  have hAB : A * Aᵀ = B * Bᵀ := by
    ext i j
    simp only [Matrix.mul_apply, transpose_apply, A, B, Matrix.of_apply]
    by_cases hi : i = o <;> by_cases hj : j = o
    · simp only [hi, hj, if_true, true_and]
      have : ∑ k, (if k = o then √(w ⬝ᵥ w) else 0) * (if k = o then √(w ⬝ᵥ w) else 0) =
          w ⬝ᵥ w := by
        rw [Finset.sum_eq_single o]
        · simp only [if_true]; exact Real.mul_self_sqrt hw
        · intro k _ hk; simp [hk]
        · simp
      rw [this]
      rfl
    all_goals simp [hi, hj]
  have h := stdNormals_map_eq hAB
  have hA : Measurable fun z : Fin d → ℝ => A *ᵥ z := (matClm A).continuous.measurable
  have hB : Measurable fun z : Fin d → ℝ => B *ᵥ z := (matClm B).continuous.measurable
  have hg : Measurable fun y : Fin d → ℝ => ENNReal.ofReal (y o ^ 2) := by fun_prop
  have e1 : ∀ z : Fin d → ℝ, (A *ᵥ z) o = w ⬝ᵥ z := fun z => by
    simp [A, mulVec, dotProduct]
  have e2 : ∀ z : Fin d → ℝ, (B *ᵥ z) o = √(w ⬝ᵥ w) * z o := fun z => by
    simp only [B, mulVec, dotProduct, true_and, Matrix.of_apply]
    rw [Finset.sum_eq_single o]
    · simp
    · intro k _ hk; simp [hk]
    · simp
  have h2 := lintegral_map (μ := stdNormals d) hg hA
  rw [h, lintegral_map hg hB] at h2
  simp only [e1, e2] at h2
  rw [← h2]
  have h3 := (measurePreserving_eval (fun _ : Fin d => gaussianReal 0 1) o).lintegral_comp
    (f := fun x => ENNReal.ofReal (x ^ 2)) (by fun_prop)
  have e3 : ∀ z : Fin d → ℝ, ENNReal.ofReal ((√(w ⬝ᵥ w) * z o) ^ 2) =
      ENNReal.ofReal (w ⬝ᵥ w) * ENNReal.ofReal (z o ^ 2) := fun z => by
    rw [mul_pow, Real.sq_sqrt hw, ENNReal.ofReal_mul hw]
  rw [lintegral_congr e3, lintegral_const_mul _ hg]
  have h4 : ∫⁻ z, ENNReal.ofReal (z o ^ 2) ∂stdNormals d = 1 := h3.trans gaussian_sq
  rw [h4, mul_one]

namespace Dbg

/-- The rows drawn by `multivariate_normal`. -/
noncomputable def realMvNormals (I : IdealNumpy σ) (mean : Fin d → ℝ)
    (cov : Matrix (Fin d) (Fin d) ℝ) : (n : ℕ) → σ → (Fin n → Fin d → ℝ) × σ
  | 0, s => (Fin.elim0, s)
  | n + 1, s =>
    (Fin.snoc (α := fun _ => Fin d → ℝ) (realMvNormals I mean cov n s).1
        (I.mvNormal ((mean, cov), (realMvNormals I mean cov n s).2)).1,
      (I.mvNormal ((mean, cov), (realMvNormals I mean cov n s).2)).2)

theorem mvNormals_eq (I : IdealNumpy σ) (mean : Fin d → ℝ) (cov : Matrix (Fin d) (Fin d) ℝ) (n : ℕ)
    (s : σ) : mvNormals I.toNumpy (vec mean) (mat cov) n s =
      (fun k => vec ((realMvNormals I mean cov n s).1 k), (realMvNormals I mean cov n s).2) := by
  induction n with
  | zero => exact Prod.ext (funext fun i => i.elim0) rfl
  | succ n ih =>
    have e : mvNormals I.toNumpy (vec mean) (mat cov) (n + 1) s =
        (Fin.snoc (α := fun _ => Dist.NIW.Vec XR d) (mvNormals I.toNumpy (vec mean) (mat cov) n s).1
          (I.toNumpy.mvNormal (mvNormals I.toNumpy (vec mean) (mat cov) n s).2 (vec mean) (mat cov)).1,
          (I.toNumpy.mvNormal (mvNormals I.toNumpy (vec mean) (mat cov) n s).2 (vec mean)
            (mat cov)).2) := rfl
    rw [e, ih, mvNormal_eq]
    refine Prod.ext (funext fun k => ?_) rfl
    refine Fin.lastCases ?_ (fun k => ?_) k
    · simp [realMvNormals]
    · simp [realMvNormals]

theorem realMvNormals_meas (I : IdealNumpy σ) (mean : Fin d → ℝ) (cov : Matrix (Fin d) (Fin d) ℝ)
    (n : ℕ) : Measurable (realMvNormals I mean cov n) := by
  induction n with
  | zero => exact measurable_const.prodMk measurable_id
  | succ n ih =>
    have h : Measurable fun s => I.mvNormal ((mean, cov), (realMvNormals I mean cov n s).2) :=
      (I.mvNormal_meas.comp measurable_prodMk_left).comp ih.snd
    exact (measurable_snocAny.comp (ih.fst.prodMk h.fst)).prodMk h.snd

/-- The quadratic form of the sum of squares, and the state after it. -/
theorem realMvNormals_mean (I : IdealNumpy σ) {cov : Matrix (Fin d) (Fin d) ℝ} (hc : cov.PosDef)
    (u : Fin d → ℝ) (n : ℕ) :
    (I.P.map fun s => (realMvNormals I 0 cov n s).2) = I.P ∧
    ∫⁻ s, ENNReal.ofReal (∑ k, ((realMvNormals I 0 cov n s).1 k ⬝ᵥ u) ^ 2) ∂I.P =
      ENNReal.ofReal (n * (u ⬝ᵥ (cov *ᵥ u))) := by
  haveI := I.prob
  induction n with
  | zero => exact ⟨by simp [realMvNormals, Measure.map_id'], by simp⟩
  | succ n ih =>
    obtain ⟨ih1, ih2⟩ := ih
    have hlaw := mvNormal_law_cov I (0 : Fin d → ℝ) hc
    simp only [zero_add] at hlaw
    have hCm : Measurable fun y => cholM cov *ᵥ y := (matClm (cholM cov)).continuous.measurable
    haveI : IsProbabilityMeasure ((stdNormals d).map fun z => cholM cov *ᵥ z) :=
      Measure.isProbabilityMeasure_map hCm.aemeasurable
    have hNm : Measurable fun s => I.mvNormal (((0 : Fin d → ℝ), cov), s) :=
      I.mvNormal_meas.comp measurable_prodMk_left
    have hst : (I.P.map fun s => (I.mvNormal (((0 : Fin d → ℝ), cov), s)).2) = I.P := by
      have : (I.P.map fun s => (I.mvNormal (((0 : Fin d → ℝ), cov), s)).2) =
          (I.P.map fun s => I.mvNormal (((0 : Fin d → ℝ), cov), s)).map Prod.snd :=
        (Measure.map_map measurable_snd hNm).symm
      rw [this, hlaw]
      exact measurePreserving_snd.map_eq
    have hm := realMvNormals_meas I 0 cov n
    refine ⟨?_, ?_⟩
    · have : (fun s => (realMvNormals I 0 cov (n + 1) s).2) =
          (fun s => (I.mvNormal (((0 : Fin d → ℝ), cov), s)).2) ∘
            fun s => (realMvNormals I 0 cov n s).2 := rfl
      rw [this, ← Measure.map_map hNm.snd hm.snd, ih1, hst]
    · have hq : 0 ≤ u ⬝ᵥ (cov *ᵥ u) := by
        have := hc.posSemidef.dotProduct_mulVec_nonneg u
        simpa using this
      have hg : Measurable fun y : Fin d → ℝ => ENNReal.ofReal ((y ⬝ᵥ u) ^ 2) := by
        unfold dotProduct; fun_prop
      have e : ∀ s, ENNReal.ofReal (∑ k, ((realMvNormals I 0 cov (n + 1) s).1 k ⬝ᵥ u) ^ 2) =
          ENNReal.ofReal (∑ k, ((realMvNormals I 0 cov n s).1 k ⬝ᵥ u) ^ 2) +
          ENNReal.ofReal (((I.mvNormal (((0 : Fin d → ℝ), cov),
            (realMvNormals I 0 cov n s).2)).1 ⬝ᵥ u) ^ 2) := by
        intro s
        rw [← ENNReal.ofReal_add (Finset.sum_nonneg fun k _ => sq_nonneg _) (sq_nonneg _),
          Fin.sum_univ_castSucc]
        simp [realMvNormals]
      simp only [e]
      have hm2 : Measurable fun s => ENNReal.ofReal (((I.mvNormal (((0 : Fin d → ℝ), cov),
          (realMvNormals I 0 cov n s).2)).1 ⬝ᵥ u) ^ 2) := hg.comp (hNm.comp hm.snd).fst
      rw [lintegral_add_right _ hm2, ih2]
      have h2 : ∫⁻ s, ENNReal.ofReal (((I.mvNormal (((0 : Fin d → ℝ), cov),
          (realMvNormals I 0 cov n s).2)).1 ⬝ᵥ u) ^ 2) ∂I.P =
          ∫⁻ s, ENNReal.ofReal (((I.mvNormal (((0 : Fin d → ℝ), cov), s)).1 ⬝ᵥ u) ^ 2) ∂I.P := by
        have := lintegral_map (μ := I.P) (hg.comp hNm.fst) hm.snd
        rw [ih1] at this
        exact this.symm
      have h3 : ∫⁻ s, ENNReal.ofReal (((I.mvNormal (((0 : Fin d → ℝ), cov), s)).1 ⬝ᵥ u) ^ 2) ∂I.P =
          ENNReal.ofReal (u ⬝ᵥ (cov *ᵥ u)) := by
        have := hlaw.lintegral hNm (f := fun q => ENNReal.ofReal ((q.1 ⬝ᵥ u) ^ 2))
          (hg.comp measurable_fst)
        refine this.trans ?_
        simp only [lintegral_const, measure_univ, mul_one]
        rw [lintegral_map hg hCm]
        have h4 := stdNormals_form_sq ((cholM cov)ᵀ *ᵥ u)
        have e5 : ((cholM cov)ᵀ *ᵥ u) ⬝ᵥ ((cholM cov)ᵀ *ᵥ u) = u ⬝ᵥ (cov *ᵥ u) := by
          conv_rhs => rw [← (cholM_isChol hc).mul]
          rw [← mulVec_mulVec, dotProduct_mulVec u, ← mulVec_transpose]
        rw [e5] at h4
        rw [← h4]
        apply lintegral_congr
        intro z
        rw [dotProduct_comm, dotProduct_mulVec, ← mulVec_transpose]
      rw [h2, h3, ← ENNReal.ofReal_add (by positivity) hq]
      congr 1
      push_cast
      ring

/-! ## The triangular factors -/

/-- The first entry of the triangular factor is the first draw. -/
theorem wishartFactor_first (np : Numpy XR σ) (diag : Nat → σ → XR × σ) (n : ℕ) (s : σ) :
    (wishartFactor np diag (n + 1) s).1 0 0 = (diag 0 s).1 := by
  induction n with
  | zero => rfl
  | succ n ih =>
    rw [← ih]
    conv_lhs => rw [wishartFactor]
    have e : (0 : Fin (n + 2)) = Fin.castSucc 0 := rfl
    simp only [e, Fin.lastCases_castSucc]

/-- Draws of finite numbers give a lower triangular matrix of finite numbers. -/
theorem wishartFactor_ae (I : IdealNumpy σ) (diag : Nat → σ → XR × σ) (n : ℕ)
    (h1 : ∀ k < n, ∀ᵐ s ∂I.P, ∃ c : ℝ, (diag k s).1 = .fin c)
    (h2 : ∀ k < n, ∀ p : σ → Prop, (∀ᵐ s ∂I.P, p s) → ∀ᵐ s ∂I.P, p (diag k s).2) :
    (∀ᵐ s ∂I.P, ∃ M : Matrix (Fin n) (Fin n) ℝ, (∀ i j, i < j → M i j = 0) ∧
      (wishartFactor I.toNumpy diag n s).1 = mat M) ∧
    ∀ p : σ → Prop, (∀ᵐ s ∂I.P, p s) → ∀ᵐ s ∂I.P, p (wishartFactor I.toNumpy diag n s).2 := by
  haveI := I.prob
  induction n with
  | zero =>
    exact ⟨Filter.Eventually.of_forall fun s => ⟨0, fun i => i.elim0, funext fun i => i.elim0⟩,
      fun p hp => hp⟩
  | succ n ih =>
    obtain ⟨ih1, ih2⟩ := ih (fun k hk => h1 k (by omega)) (fun k hk => h2 k (by omega))
    have hn := fun (p : σ → Prop) (hp : ∀ᵐ s ∂I.P, p s) =>
      ((realNormals_law I.toIdealRng n).ae_state (realNormals_meas I.toIdealRng n) hp :
        ∀ᵐ s ∂I.P, p (realNormals I.toIdealRng n s).2)
    have hnorm : ∀ s, Dist.NIW.normals I.toNumpy.toRng n s =
        (vec (realNormals I.toIdealRng n s).1, (realNormals I.toIdealRng n s).2) :=
      fun s => Dist.NIW.normals_eq I.toIdealRng n s
    refine ⟨?_, fun p hp => ?_⟩
    · filter_upwards [ih1, ih2 _ (hn _ (h1 n (by omega)))] with s hs hc
      obtain ⟨M, hM, e⟩ := hs
      obtain ⟨c, hc⟩ := hc
      refine ⟨fun i j => Fin.lastCases (Fin.lastCases c (fun _ => 0) i)
        (fun j => Fin.lastCases ((realNormals I.toIdealRng n
          (wishartFactor I.toNumpy diag n s).2).1 j) (fun i => M i j) i) j, fun i j hij => ?_, ?_⟩
      · refine Fin.lastCases (fun hij => ?_) (fun j hij => ?_) j hij
        · refine Fin.lastCases (fun hij => absurd hij (lt_irrefl _)) (fun i _ => ?_) i hij
          simp
        · refine Fin.lastCases (fun hij => ?_) (fun i hij => ?_) i hij
          · exact absurd hij (not_lt.2 (Fin.le_last _))
          · simp only [Fin.lastCases_castSucc]
            exact hM i j hij
      · rw [wishartFactor]
        simp only [hnorm, e, hc]
        funext i j
        refine Fin.lastCases ?_ (fun j => ?_) j
        · refine Fin.lastCases ?_ (fun i => ?_) i
          · simp [mat]
          · simp [mat]
        · refine Fin.lastCases ?_ (fun i => ?_) i
          · simp [mat, vec]
          · simp [mat]
    · filter_upwards [ih2 _ (hn _ (h2 n (by omega) p hp))] with s hs
      rw [wishartFactor]
      simp only [hnorm]
      exact hs

/-- The first entry of `ch T Tᵀ chᵀ` for triangular matrices. -/
theorem triangular_first {n : ℕ} {C M : Matrix (Fin (n + 1)) (Fin (n + 1)) ℝ}
    (hC : ∀ i j, i < j → C i j = 0) (hM : ∀ i j, i < j → M i j = 0) :
    (C * M * Mᵀ * Cᵀ) 0 0 = C 0 0 ^ 2 * M 0 0 ^ 2 := by
  have h1 : ∀ {X Y : Matrix (Fin (n + 1)) (Fin (n + 1)) ℝ}, (∀ i j, i < j → X i j = 0) →
      ∀ j, (X * Y) 0 j = X 0 0 * Y 0 j := by
    intro X Y hX j
    rw [Matrix.mul_apply, Finset.sum_eq_single 0]
    · intro k _ hk
      rw [hX 0 k (Fin.pos_iff_ne_zero.2 hk), zero_mul]
    · simp
  have h2 : ∀ j, 0 < j → (C * M) 0 j = 0 := fun j hj => by
    rw [h1 hC, hM 0 j hj, mul_zero]
  have e : C * M * Mᵀ * Cᵀ = (C * M) * (C * M)ᵀ := by
    rw [transpose_mul, Matrix.mul_assoc, Matrix.mul_assoc]
  rw [e, Matrix.mul_apply, Finset.sum_eq_single 0]
  · rw [transpose_apply, h1 hC]; ring
  · intro k _ hk
    rw [h2 k (Fin.pos_iff_ne_zero.2 hk), zero_mul]
  · simp

theorem chol_first {n : ℕ} {L : Matrix (Fin (n + 1)) (Fin (n + 1)) ℝ} (hL : L.PosDef) :
    (cholM L) 0 0 ^ 2 = L 0 0 := by
  have h := cholM_isChol hL
  have h2 := congrFun (congrFun h.mul 0) 0
  rw [← h2, Matrix.mul_apply, Finset.sum_eq_single 0]
  · rw [transpose_apply]; ring
  · intro k _ hk
    rw [h.lower 0 k (Fin.pos_iff_ne_zero.2 hk), zero_mul]
  · simp

/-- Both samplers with a triangular factor. -/
theorem wishart_mean {n : ℕ} (I : IdealNumpy σ) {lambda : Matrix (Fin (n + 1)) (Fin (n + 1)) ℝ}
    (hl : lambda.PosDef) (diag : Nat → σ → XR × σ) (a : ℕ → ℝ) (ha : ∀ k < n + 1, 0 < a k)
    (g : ℕ → σ → ℝ × σ) (hg : ∀ k, Measurable (g k))
    (hlaw : ∀ k < n + 1, HasLaw I.P (g k) (gammaMeasure (a k / 2) (1 / 2)))
    (hdiag : ∀ k s, diag k s = (sqrt (XR.fin (g k s).1), (g k s).2)) :
    ∃ S : σ → Matrix (Fin (n + 1)) (Fin (n + 1)) ℝ,
      (∀ᵐ s ∂I.P, Dist.NIW.matMul (Dist.NIW.matMul (Dist.NIW.matMul (mat (cholM lambda))
          (wishartFactor I.toNumpy diag (n + 1) s).1)
          fun i j => (wishartFactor I.toNumpy diag (n + 1) s).1 j i)
          (fun i j => mat (cholM lambda) j i) = mat (S s)) ∧
      ∫⁻ s, ENNReal.ofReal (S s 0 0) ∂I.P = ENNReal.ofReal (a 0 * lambda 0 0) := by
  haveI := I.prob
  have hp : ∀ k, k < n + 1 → IsProbabilityMeasure (gammaMeasure (a k / 2) (1 / 2)) := fun k hk =>
    isProbabilityMeasure_gammaMeasure (by have := ha k hk; linarith) (by norm_num)
  have hpos : ∀ k < n + 1, ∀ᵐ s ∂I.P, 0 < (g k s).1 := fun k hk => by
    haveI := hp k hk
    exact (hlaw k hk).ae (hg k) (gamma_pos_ae _ _)
  obtain ⟨h1, -⟩ := wishartFactor_ae I diag (n + 1)
    (fun k hk => by
      filter_upwards [hpos k hk] with s hs
      exact ⟨_, by rw [hdiag, XR.sqrt_fin hs.le]⟩)
    (fun k hk p hpp => by
      haveI := hp k hk
      filter_upwards [(hlaw k hk).ae_state (hg k) hpp] with s hs
      rw [hdiag]; exact hs)
  have h2 : ∀ᵐ s ∂I.P, ∃ S : Matrix (Fin (n + 1)) (Fin (n + 1)) ℝ,
      Dist.NIW.matMul (Dist.NIW.matMul (Dist.NIW.matMul (mat (cholM lambda))
          (wishartFactor I.toNumpy diag (n + 1) s).1)
          fun i j => (wishartFactor I.toNumpy diag (n + 1) s).1 j i)
          (fun i j => mat (cholM lambda) j i) = mat S ∧ S 0 0 = (g 0 s).1 * lambda 0 0 := by
    filter_upwards [h1, hpos 0 (by omega)] with s hs hq
    obtain ⟨M, hM, e⟩ := hs
    have hf := wishartFactor_first I.toNumpy diag n s
    rw [e, hdiag, XR.sqrt_fin hq.le] at hf
    have hM0 : M 0 0 = √(g 0 s).1 := XR.fin_inj.1 hf
    refine ⟨cholM lambda * M * Mᵀ * (cholM lambda)ᵀ, ?_, ?_⟩
    · rw [e, Dist.NIW.matMul_eq, show (fun i j => mat M j i : Dist.NIW.Mat XR (n + 1)) = mat Mᵀ from rfl,
        Dist.NIW.matMul_eq, show (fun i j => mat (cholM lambda) j i : Dist.NIW.Mat XR (n + 1)) =
          mat (cholM lambda)ᵀ from rfl, Dist.NIW.matMul_eq]
    · rw [triangular_first (cholM_isChol hl).lower hM, chol_first hl, hM0, Real.sq_sqrt hq.le]
      ring
  classical
  refine ⟨fun s => if h : ∃ S : Matrix (Fin (n + 1)) (Fin (n + 1)) ℝ,
      Dist.NIW.matMul (Dist.NIW.matMul (Dist.NIW.matMul (mat (cholM lambda))
          (wishartFactor I.toNumpy diag (n + 1) s).1)
          fun i j => (wishartFactor I.toNumpy diag (n + 1) s).1 j i)
          (fun i j => mat (cholM lambda) j i) = mat S ∧ S 0 0 = (g 0 s).1 * lambda 0 0
    then h.choose else 0, ?_, ?_⟩
  · filter_upwards [h2] with s hs
    rw [dif_pos hs]
    exact hs.choose_spec.1
  · have hl0 : 0 < lambda 0 0 := hl.diag_pos
    have h3 : ∫⁻ s, ENNReal.ofReal ((g 0 s).1 * lambda 0 0) ∂I.P =
        ENNReal.ofReal (a 0 * lambda 0 0) := by
      have hm : Measurable fun q : ℝ × σ => ENNReal.ofReal (q.1 * lambda 0 0) := by fun_prop
      have := (hlaw 0 (by omega)).lintegral (hg 0) hm
      refine this.trans ?_
      simp only [lintegral_const, measure_univ, mul_one]
      have e : ∀ x : ℝ, ENNReal.ofReal (x * lambda 0 0) =
          ENNReal.ofReal (lambda 0 0) * ENNReal.ofReal x := fun x => by
        rw [mul_comm, ENNReal.ofReal_mul hl0.le]
      rw [lintegral_congr e, lintegral_const_mul _ (by fun_prop), gamma_mean (by have := ha 0 (by omega); linarith)
        (by norm_num), ← ENNReal.ofReal_mul hl0.le]
      congr 1
      ring
    rw [← h3]
    apply lintegral_congr_ae
    filter_upwards [h2] with s hs
    rw [dif_pos hs, hs.choose_spec.2]

end Dbg

end Dist
