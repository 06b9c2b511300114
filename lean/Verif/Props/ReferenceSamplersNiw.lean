import Verif.Lemmas.RefNiwGroup
import Verif.Props.ReferenceSparse

/-!
# C68: the normal-inverse-Wishart samplers of the reference implementation

Unlike the ones of the C++ code (`C59_niw_fails`) they have the law the scores give.
-/

namespace Dist

open Spec FloatOps FloatNotation MeasureTheory ProbabilityTheory
open Matrix hiding vec

variable {σ : Type} [MeasurableSpace σ] {d : ℕ}

namespace Dbg.NIW

open Dist.NIW (vec mat real stats postPsi InRange logMarginal)

theorem add_eq (xs : List (Fin d → ℝ)) (v : Fin d → ℝ) :
    addValue (stats xs) (vec v) = stats (xs ++ [v]) := by
  simp only [addValue, stats, Dist.NIW.mk, Dist.NIW.Group.mk.injEq]
  refine ⟨by simp, funext fun i => ?_, funext fun i => funext fun j => ?_⟩
  · simp [vecSum, vec]
  · simp [outerSum, mat, vec, Dist.NIW.outer, vecMulVec_apply]

theorem fold_eq (xs : List (Fin d → ℝ)) :
    (xs.map vec).foldl addValue (init : Dist.NIW.Group XR d) = stats xs := by
  have h : ∀ (ys zs : List (Fin d → ℝ)),
      (ys.map vec).foldl addValue (stats zs) = stats (zs ++ ys) := by
    intro ys
    induction ys with
    | nil => intro zs; simp
    | cons v ys ih => intro zs; rw [List.map_cons, List.foldl_cons, add_eq, ih]; simp
  have h0 : (init : Dist.NIW.Group XR d) = stats [] := by
    simp only [init, stats, Dist.NIW.mk, Dist.NIW.Group.mk.injEq]
    refine ⟨by simp, funext fun i => ?_, funext fun i => funext fun j => ?_⟩
    · simp [vecSum, vec]
    · simp [outerSum, mat]
  rw [h0, h, List.nil_append]

theorem sum_nil (xs : List (Fin d → ℝ)) (h : (xs.length : Int) = 0) : vecSum xs = 0 := by
  have : xs = [] := List.length_eq_zero_iff.mp (by omega)
  subst this; simp [vecSum]

theorem plus_eq {mu : Fin d → ℝ} {kappa : ℝ} {psi : Matrix (Fin d) (Fin d) ℝ} {nu : ℝ}
    (hr : InRange mu kappa psi nu) (xs : List (Fin d → ℝ)) :
    plusGroup (real mu kappa psi nu) (stats xs) =
      .ok (real ((1 / (kappa + xs.length)) • (kappa • mu + vecSum xs)) (kappa + xs.length)
        (postPsi mu kappa psi xs.length (vecSum xs) (outerSum xs)) (nu + xs.length)) := by
  have hk := hr.kappa
  have h : ∃ post, plusGroup (real mu kappa psi nu) (stats xs) = .ok post := by
    simp only [plusGroup, XR.ofInt_eq, XR.fin_add, XR.fin_mul]
    rw [pyDiv_fin (by push_cast; positivity), Res.ok_bind, pyDiv_fin (by push_cast; positivity),
      Res.ok_bind, pyDiv_fin (by push_cast; positivity), Res.ok_bind]
    exact ⟨_, rfl⟩
  obtain ⟨post, h⟩ := h
  rw [h]
  have h2 := plusGroup_ok hr.dim 0 h
  rw [Dist.NIW.plusGroup_eq 0 hr.dim _ _ _ _ _ _ _ (sum_nil xs) (by push_cast; positivity)] at h2
  rw [← h2]
  simp

theorem post_range {mu : Fin d → ℝ} {kappa : ℝ} {psi : Matrix (Fin d) (Fin d) ℝ} {nu : ℝ}
    (hr : InRange mu kappa psi nu) (xs : List (Fin d → ℝ)) :
    InRange ((1 / (kappa + xs.length)) • (kappa • mu + vecSum xs)) (kappa + xs.length)
      (postPsi mu kappa psi xs.length (vecSum xs) (outerSum xs)) (nu + xs.length) := by
  have h0 : (0 : ℝ) ≤ xs.length := by positivity
  refine ⟨hr.dim, ?_, Dist.NIW.post_posDef mu kappa psi hr.kappa hr.psi xs, ?_⟩
  · have := hr.kappa; positivity
  · have := hr.nu; linarith

theorem post_nil {mu : Fin d → ℝ} {kappa : ℝ} {psi : Matrix (Fin d) (Fin d) ℝ} {nu : ℝ}
    (hr : InRange mu kappa psi nu) :
    plusGroup (real mu kappa psi nu) init = .ok (real mu kappa psi nu) := by
  have h := plus_eq hr []
  rw [← fold_eq] at h
  refine h.trans ?_
  have hk := hr.kappa.ne'
  have e1 : (1 / kappa) • (kappa • mu) = mu := by
    rw [smul_smul, one_div, inv_mul_cancel₀ hk, one_smul]
  have e2 : postPsi mu kappa psi 0 (vecSum []) (outerSum []) = psi := by
    ext i j
    simp only [Dist.NIW.postPsi_apply, vecSum, outerSum, List.sum_nil, List.map_nil, Pi.zero_apply,
      Matrix.zero_apply, add_zero]
    field_simp; ring
  simp only [List.length_nil, Nat.cast_zero, add_zero, e2]
  rw [show vecSum ([] : List (Fin d → ℝ)) = 0 by simp [vecSum], add_zero, e1]

/-- The score of the multivariate Student t law is defined. -/
theorem scoreStudentT_defined {la : Dist.NIW.LinAlg XR} (hla : ExactLinAlg la) (x mu : Fin d → ℝ)
    {nu : ℝ} (hnu : 0 < nu) {sigma : Matrix (Fin d) (Fin d) ℝ} (hs : sigma.PosDef) :
    ∃ y, scoreStudentT la (vec x) (.fin nu) (vec mu) (mat sigma) = .ok y := by
  have hq : 0 ≤ (x - mu) ⬝ᵥ (sigma⁻¹ *ᵥ (x - mu)) := by
    have := hs.inv.posSemidef.dotProduct_mulVec_nonneg (x - mu)
    simpa using this
  have hz : (fun i => vec x i - vec mu i : Dist.NIW.Vec XR d) = vec (x - mu) := by
    funext i; rw [XR.fin_sub]; rfl
  have hi : la.inv (mat sigma) = mat sigma⁻¹ := hla.inv sigma hs.det_pos.ne'
  have hd : la.det (mat sigma) = .fin sigma.det := hla.det sigma
  unfold scoreStudentT
  simp only [hz]
  rw [hi, hd, ← quad_same, Dist.NIW.mulVec_eq, Dist.NIW.dot_eq]
  have hpi : (FloatOps.pi : XR) = .fin Real.pi := rfl
  rw [hpi, XR.fin_mul, pyLog_fin (mul_pos hnu Real.pi_pos), Res.ok_bind, pyLog_fin hs.det_pos,
    Res.ok_bind, pyDiv_fin hnu.ne', Res.ok_bind, XR.lit_eq, XR.fin_add, pyLog_fin, Res.ok_bind]
  · exact ⟨_, rfl⟩
  · simp only [Int.cast_one, Nat.cast_one, div_one]; positivity

/-- The score of one value given a data set. -/
theorem scoreValue_eq {la : Dist.NIW.LinAlg XR} (hla : ExactLinAlg la) {mu : Fin d → ℝ}
    {kappa : ℝ} {psi : Matrix (Fin d) (Fin d) ℝ} {nu : ℝ} (hr : InRange mu kappa psi nu)
    (xs : List (Fin d → ℝ)) (v : Fin d → ℝ) :
    scoreValue la (real mu kappa psi nu) (stats xs) (vec v) =
      .ok (.fin (logMarginal ((1 / (kappa + xs.length)) • (kappa • mu + vecSum xs))
        (kappa + xs.length) (postPsi mu kappa psi xs.length (vecSum xs) (outerSum xs))
        (nu + xs.length) [v])) := by
  have hr' := post_range hr xs
  have hplus := plus_eq hr xs
  set mu' := (1 / (kappa + (xs.length : ℝ))) • (kappa • mu + vecSum xs)
  set kappa' := kappa + (xs.length : ℝ)
  set psi' := postPsi mu kappa psi xs.length (vecSum xs) (outerSum xs)
  set nu' := nu + (xs.length : ℝ)
  -- scoring given the data is scoring with the posterior
  have h0 : (init : Dist.NIW.Group XR d) = stats [] := (fold_eq []).symm ▸ rfl
  have e1 : scoreValue la (real mu kappa psi nu) (stats xs) (vec v) =
      scoreValue la (real mu' kappa' psi' nu') (stats []) (vec v) := by
    have hnil := post_nil hr'
    rw [h0] at hnil
    unfold scoreValue
    rw [hplus, hnil]
  rw [e1]
  have hdef : ∃ y, scoreValue la (real mu' kappa' psi' nu') (stats []) (vec v) = .ok y := by
    have hnil := post_nil hr'
    rw [h0] at hnil
    have hk := hr'.kappa
    have hdof : 0 < nu' - d + 1 := by have := hr'.nu; linarith
    unfold scoreValue
    rw [hnil, Res.ok_bind]
    have e2 : (ofInt d : XR) = .fin d := by rw [XR.ofInt_eq]; simp
    have e3 : (lit 1 1 : XR) = .fin 1 := by rw [XR.lit_eq]; simp
    have e4 : (fun i j => (real mu' kappa' psi' nu').psi i j * ((real mu' kappa' psi' nu').kappa +
        lit 1 1) / ((real mu' kappa' psi' nu').kappa * ((real mu' kappa' psi' nu').nu - ofInt d +
        lit 1 1)) : Dist.NIW.Mat XR d) =
        mat (((kappa' + 1) / (kappa' * (nu' - d + 1))) • psi') := by
      funext i j
      simp only [e2, e3, real, mat, XR.fin_add, XR.fin_sub, XR.fin_mul]
      rw [XR.fin_div _ _ (by positivity), Matrix.smul_apply, smul_eq_mul]
      congr 1; ring
    simp only [e4]
    simp only [e2, e3, real, XR.fin_add, XR.fin_sub]
    exact scoreStudentT_defined hla v mu' hdof (hr'.psi.smul (by positivity))
  obtain ⟨y, hy⟩ := hdef
  rw [hy]
  have h3 := C57_niw_score_value hr'.dim 0 la _ _ _ _ hy
  obtain ⟨hpd, hpos, h4⟩ := Dist.NIW.predictive_stats 0 la hla mu' kappa' psi' nu' hr' [] v
  rw [h3] at h4
  rw [h4, show [v] = [] ++ [v] from rfl, Dist.NIW.logMarginal_step hr' [] v hpd,
    Dist.NIW.logMarginal_nil hr', zero_add]

theorem multigammaln_eq {a : ℝ} (ha : ((d : ℝ) - 1) / 2 < a) :
    multigammaln (XR.fin a) d = .ok (.fin (d * (d - 1) / 4 * Real.log Real.pi +
      ∑ j ∈ Finset.range d, Real.log (Real.Gamma (a - j / 2)))) := by
  have hf : ∀ (n : ℕ) (_ : n ≤ d), (List.range n).foldl (fun t (j : Nat) =>
      t + lgamma (XR.fin a - ofInt j / lit 2 1)) (ofInt 0) =
        .fin (∑ j ∈ Finset.range n, Real.log (Real.Gamma (a - j / 2))) := by
    intro n hn
    induction n with
    | zero => simp
    | succ n ih =>
      rw [List.range_succ, List.foldl_append, ih (by omega), Finset.sum_range_succ]
      simp only [List.foldl_cons, List.foldl_nil, XR.ofInt_eq, XR.lit_eq]
      rw [XR.fin_div _ _ (by norm_num), XR.fin_sub, XR.lgamma_fin, XR.fin_add]
      · congr 3
        push_cast
        ring_nf
      · have h1 : (n : ℝ) + 1 ≤ d := by exact_mod_cast hn
        push_cast
        linarith
  unfold multigammaln
  rw [if_neg, hf d le_rfl]
  · simp only [XR.ofInt_eq, XR.lit_eq, XR.logPi_eq, XR.fin_mul, XR.fin_add, Res.ok.injEq,
      XR.fin_inj]
    push_cast
    ring
  · simp only [XR.ofInt_eq, XR.lit_eq, XR.fin_sub, XR.fin_mul, XR.le_fin, not_le]
    push_cast
    linarith

/-- The score of a data set of any size. -/
theorem scoreData_eq {la : Dist.NIW.LinAlg XR} (hla : ExactLinAlg la) {mu : Fin d → ℝ}
    {kappa : ℝ} {psi : Matrix (Fin d) (Fin d) ℝ} {nu : ℝ} (hr : InRange mu kappa psi nu)
    (xs : List (Fin d → ℝ)) :
    scoreData la (real mu kappa psi nu) (stats xs) =
      .ok (.fin (logMarginal mu kappa psi nu xs)) := by
  have hr' := post_range hr xs
  have hk := hr.kappa
  have h0 : (0 : ℝ) ≤ xs.length := by positivity
  have hnu := hr.nu
  unfold scoreData
  rw [plus_eq hr xs, Res.ok_bind]
  simp only [XR.lit_eq, Int.cast_ofNat, Nat.cast_one, div_one]
  rw [XR.fin_div _ _ two_ne_zero, XR.fin_div _ _ two_ne_zero, multigammaln_eq (by linarith),
    Res.ok_bind, multigammaln_eq (by linarith), Res.ok_bind, pyDiv_fin (by positivity), Res.ok_bind,
    XR.log_fin (show 0 < kappa / (kappa + xs.length) by positivity)]
  have e1 : la.det (mat psi) = .fin psi.det := hla.det psi
  have e2 : la.det (mat (postPsi mu kappa psi xs.length (vecSum xs) (outerSum xs))) =
      .fin (postPsi mu kappa psi xs.length (vecSum xs) (outerSum xs)).det := hla.det _
  rw [e1, e2, XR.log_fin hr.psi.det_pos, XR.log_fin hr'.psi.det_pos, XR.ofInt_eq, XR.ofInt_eq,
    XR.fin_div _ _ two_ne_zero, XR.fin_div _ _ two_ne_zero]
  simp only [XR.logPi_eq, XR.fin_mul, XR.fin_add, XR.fin_sub, Res.pure_eq, Res.ok.injEq, XR.fin_inj]
  unfold logMarginal
  push_cast
  ring

end Dbg.NIW

theorem NIW.vec_inj {v w : Fin d → ℝ} (h : NIW.vec v = NIW.vec w) : v = w :=
  funext fun i => XR.fin_inj.1 (congrFun h i)

/-- **C68 (Normal-Inverse-Wishart), one value.**  After any data the vector drawn has density
`exp(score_value)`. -/
theorem C68_niw_value {la : Dbg.NumpyLinAlg XR} (hla : ExactNumpy la) (I : IdealNumpy σ)
    (mu : Fin d → ℝ) (kappa : ℝ) (psi : Matrix (Fin d) (Fin d) ℝ) (nu : ℝ)
    (hr : NIW.InRange mu kappa psi nu) (xs : List (Fin d → ℝ)) {A : Set (Fin d → ℝ)}
    (hA : MeasurableSet A) {B : Set σ} (hB : MeasurableSet B) :
    ∃ f : (Fin d → ℝ) → ℝ,
      (∀ x, Dbg.NIW.scoreValue la.toLinAlg (NIW.real mu kappa psi nu)
        ((xs.map NIW.vec).foldl Dbg.NIW.addValue Dbg.NIW.init) (NIW.vec x) = .ok (.fin (f x))) ∧
      I.P {s | ∃ x ∈ A, ∃ s' ∈ B, Dbg.NIW.sampleValue la I.toNumpy s (NIW.real mu kappa psi nu)
          ((xs.map NIW.vec).foldl Dbg.NIW.addValue Dbg.NIW.init) = .ok (NIW.vec x, s')} =
        (∫⁻ x in A, ENNReal.ofReal (Real.exp (f x))) * I.P B := by
  rw [Dbg.NIW.fold_eq]
  refine ⟨_, fun x => Dbg.NIW.scoreValue_eq hla.toExactLinAlg hr xs x, ?_⟩
  have hr' := Dbg.NIW.post_range hr xs
  have hplus := Dbg.NIW.plus_eq hr xs
  set mu' := (1 / (kappa + (xs.length : ℝ))) • (kappa • mu + vecSum xs)
  set kappa' := kappa + (xs.length : ℝ)
  set psi' := NIW.postPsi mu kappa psi xs.length (vecSum xs) (outerSum xs)
  set nu' := nu + (xs.length : ℝ)
  obtain ⟨D, hD, hlaw, hrun⟩ := Dbg.sampleNIW_law hla I hr' 1
  have hA' : MeasurableSet ((fun v : Fin 1 → Fin d → ℝ => v 0) ⁻¹' A) := measurable_pi_apply 0 hA
  have hset : I.P {s | ∃ x ∈ A, ∃ s' ∈ B, Dbg.NIW.sampleValue la I.toNumpy s
      (NIW.real mu kappa psi nu) (NIW.stats xs) = .ok (NIW.vec x, s')} =
      I.P (D ⁻¹' (((fun v : Fin 1 → Fin d → ℝ => v 0) ⁻¹' A) ×ˢ B)) := by
    apply measure_congr
    filter_upwards [hrun] with s hs
    obtain ⟨m, S, s', h1, h2⟩ := hs
    have h3 : I.toNumpy.mvNormal s' (NIW.vec m) (NIW.mat S) = (NIW.vec ((D s).1 0), (D s).2) := by
      simp only [sampleLoop, Res.ok_bind, Res.pure_eq, Res.ok.injEq, List.ofFn_succ, List.ofFn_zero,
        Prod.mk.injEq, List.cons.injEq, and_true] at h2
      exact Prod.ext h2.1 h2.2
    apply propext
    show (∃ x ∈ A, ∃ s' ∈ B, _) ↔ D s ∈ _
    rw [Dbg.NIW.sampleValue, Dbg.NIW.samplerInit, hplus, Res.ok_bind, h1, Res.ok_bind]
    simp only [h3, Res.pure_eq, Res.ok.injEq, Prod.mk.injEq, Set.mem_prod, Set.mem_preimage]
    constructor
    · rintro ⟨x, hx, s'', hs'', h4, rfl⟩
      rw [NIW.vec_inj h4]; exact ⟨hx, hs''⟩
    · rintro ⟨h4, h5⟩; exact ⟨_, h4, _, h5, rfl, rfl⟩
  rw [hset]
  have hAB := hA'.prod hB
  have h4 := hlaw ((((fun v : Fin 1 → Fin d → ℝ => v 0) ⁻¹' A) ×ˢ B).indicator fun _ => 1)
    (measurable_one.indicator hAB)
  have h5 : ∫⁻ s, (((fun v : Fin 1 → Fin d → ℝ => v 0) ⁻¹' A) ×ˢ B).indicator
      (fun _ => (1 : ENNReal)) (D s) ∂I.P =
      I.P (D ⁻¹' (((fun v : Fin 1 → Fin d → ℝ => v 0) ⁻¹' A) ×ˢ B)) := by
    rw [← lintegral_indicator_one (hD hAB)]
    rfl
  rw [← h5, h4]
  simp only [lintegral_indicator_prod I.P _ hB]
  have h6 := (volume_preserving_funUnique (Fin 1) (Fin d → ℝ)).lintegral_comp_emb
    (MeasurableEquiv.measurableEmbedding _) (fun x => ENNReal.ofReal
      (Real.exp (NIW.logMarginal mu' kappa' psi' nu' [x])) * A.indicator (fun _ => I.P B) x)
  have h7 : ∀ v : Fin 1 → Fin d → ℝ, ENNReal.ofReal
      (Real.exp (NIW.logMarginal mu' kappa' psi' nu' (List.ofFn v))) *
        ((fun v : Fin 1 → Fin d → ℝ => v 0) ⁻¹' A).indicator (fun _ => I.P B) v =
      ENNReal.ofReal (Real.exp (NIW.logMarginal mu' kappa' psi' nu'
        [MeasurableEquiv.funUnique (Fin 1) (Fin d → ℝ) v])) *
        A.indicator (fun _ => I.P B) (MeasurableEquiv.funUnique (Fin 1) (Fin d → ℝ) v) := by
    intro v
    simp only [List.ofFn_succ, List.ofFn_zero]
    rfl
  simp only [h7]
  refine h6.trans ?_
  rw [← lintegral_mul_const', ← lintegral_indicator hA]
  · apply lintegral_congr
    intro x
    by_cases hx : x ∈ A <;> simp [hx]
  · haveI := I.prob; exact measure_ne_top _ _

/-- **C68 (Normal-Inverse-Wishart), a group.**  `sample_group(shared, n)` returns `n` vectors with
joint density `exp(score_data)` of the group that holds them. -/
theorem C68_niw_group {la : Dbg.NumpyLinAlg XR} (hla : ExactNumpy la) (I : IdealNumpy σ)
    (mu : Fin d → ℝ) (kappa : ℝ) (psi : Matrix (Fin d) (Fin d) ℝ) (nu : ℝ)
    (hr : NIW.InRange mu kappa psi nu) (n : ℕ) {A : Set (Fin n → Fin d → ℝ)}
    (hA : MeasurableSet A) {B : Set σ} (hB : MeasurableSet B) :
    ∃ f : (Fin n → Fin d → ℝ) → ℝ,
      (∀ x, Dbg.NIW.scoreData la.toLinAlg (NIW.real mu kappa psi nu)
        (((List.ofFn x).map NIW.vec).foldl Dbg.NIW.addValue Dbg.NIW.init) = .ok (.fin (f x))) ∧
      I.P {s | ∃ x ∈ A, ∃ s' ∈ B, Dbg.NIW.sampleGroup la I.toNumpy s (NIW.real mu kappa psi nu) n =
          .ok (List.ofFn fun i => NIW.vec (x i), s')} =
        (∫⁻ x in A, ENNReal.ofReal (Real.exp (f x))) * I.P B := by
  refine ⟨fun x => NIW.logMarginal mu kappa psi nu (List.ofFn x), fun x => ?_, ?_⟩
  · rw [Dbg.NIW.fold_eq, Dbg.NIW.scoreData_eq hla.toExactLinAlg hr]
  obtain ⟨D, hD, hlaw, hrun⟩ := Dbg.sampleNIW_law hla I hr n
  have hset : I.P {s | ∃ x ∈ A, ∃ s' ∈ B, Dbg.NIW.sampleGroup la I.toNumpy s
      (NIW.real mu kappa psi nu) n = .ok (List.ofFn fun i => NIW.vec (x i), s')} =
      I.P (D ⁻¹' (A ×ˢ B)) := by
    apply measure_congr
    filter_upwards [hrun] with s hs
    obtain ⟨m, S, s', h1, h2⟩ := hs
    apply propext
    show (∃ x ∈ A, ∃ s' ∈ B, _) ↔ D s ∈ _
    rw [Dbg.NIW.sampleGroup, Dbg.NIW.samplerInit, Dbg.NIW.post_nil hr, Res.ok_bind, h1, Res.ok_bind]
    simp only [h2, Res.ok.injEq, Prod.mk.injEq, Set.mem_prod]
    constructor
    · rintro ⟨x, hx, s'', hs'', h4, rfl⟩
      have h5 : (D s).1 = x := funext fun i => NIW.vec_inj (congrFun (List.ofFn_injective h4) i)
      rw [h5]; exact ⟨hx, hs''⟩
    · rintro ⟨h4, h5⟩; exact ⟨_, h4, _, h5, rfl, rfl⟩
  rw [hset]
  have hAB := hA.prod hB
  have h4 := hlaw ((A ×ˢ B).indicator fun _ => 1) (measurable_one.indicator hAB)
  have h5 : ∫⁻ s, (A ×ˢ B).indicator (fun _ => (1 : ENNReal)) (D s) ∂I.P =
      I.P (D ⁻¹' (A ×ˢ B)) := by
    rw [← lintegral_indicator_one (hD hAB)]
    rfl
  rw [← h5, h4]
  simp only [lintegral_indicator_prod I.P _ hB]
  rw [← lintegral_mul_const', ← lintegral_indicator hA]
  · apply lintegral_congr
    intro x
    by_cases hx : x ∈ A <;> simp [hx]
  · haveI := I.prob; exact measure_ne_top _ _

/-! ## Non-vacuity -/

open Classical in
/-- Exact linear algebra exists. -/
theorem exists_exactNumpy : ∃ la : Dbg.NumpyLinAlg XR, ExactNumpy la := by
  obtain ⟨la, hla⟩ := NIW.exists_exactLinAlg
  let back : {m d : Nat} → (Fin m → Fin d → XR) → Matrix (Fin m) (Fin d) ℝ := fun m i j =>
    match m i j with
    | .fin r => r
    | .nan => 0
  refine ⟨⟨la, fun m => some fun i j => .fin (cholM (back m) i j),
    fun x i j => .fin (cholM ((back x)ᵀ * back x) j i),
    fun a b => some fun i j => .fin (((back a)⁻¹ * back b) i j)⟩, hla, ?_, ?_, ?_⟩
  · intro d M hM
    have h := cholM_isChol hM
    exact ⟨cholM M, h.lower, h.diag, h.mul, rfl⟩
  · intro m d X hX
    have hpd : (Xᵀ * X).PosDef := by
      have h1 : (Xᵀ * X).PosSemidef := by
        have := Matrix.posSemidef_conjTranspose_mul_self X
        rwa [conjTranspose_eq_transpose_of_trivial] at this
      exact h1.posDef_iff_isUnit.2
        ((Matrix.isUnit_iff_isUnit_det _).2 (isUnit_iff_ne_zero.2 hX))
    have h := cholM_isChol hpd
    refine ⟨(cholM (Xᵀ * X))ᵀ, fun i j hij => h.lower j i hij, fun i => (h.diag i).ne', ?_, rfl⟩
    rw [transpose_transpose]; exact h.mul
  · intro d A B _ _
    rfl

/-- Two points of the unit square, from a plane prior with weight 2 on the mean. -/
example : ∃ (I : IdealNumpy Supply) (la : Dbg.NumpyLinAlg XR) (f : (Fin 2 → Fin 2 → ℝ) → ℝ),
    (∀ x, Dbg.NIW.scoreData la.toLinAlg (NIW.real ![0, 1] 2 1 3)
      (((List.ofFn x).map NIW.vec).foldl Dbg.NIW.addValue Dbg.NIW.init) = .ok (.fin (f x))) ∧
    I.P {s | ∃ x ∈ Set.Icc (0 : Fin 2 → Fin 2 → ℝ) 1, ∃ s' ∈ Set.univ,
      Dbg.NIW.sampleGroup la I.toNumpy s (NIW.real ![0, 1] 2 1 3) 2 =
        .ok (List.ofFn fun i => NIW.vec (x i), s')} =
      (∫⁻ x in Set.Icc 0 1, ENNReal.ofReal (Real.exp (f x))) * I.P Set.univ := by
  obtain ⟨I⟩ := idealNumpy_exists
  obtain ⟨la, hla⟩ := exists_exactNumpy
  obtain ⟨f, h1, h2⟩ := C68_niw_group hla I ![0, 1] 2 1 3
    ⟨by norm_num, by norm_num, Matrix.PosDef.one, by norm_num⟩ 2
    (measurableSet_Icc (a := 0) (b := 1)) MeasurableSet.univ
  exact ⟨I, la, f, h1, h2⟩

/-- A point of the unit square after two points, with fractional degrees of freedom. -/
example : ∃ (I : IdealNumpy Supply) (la : Dbg.NumpyLinAlg XR) (f : (Fin 2 → ℝ) → ℝ),
    I.P {s | ∃ x ∈ Set.Icc (0 : Fin 2 → ℝ) 1, ∃ s' ∈ Set.univ,
      Dbg.NIW.sampleValue la I.toNumpy s (NIW.real ![0, 1] 2 1 (3 / 2))
        (([![1, 2], ![3, 5]].map NIW.vec).foldl Dbg.NIW.addValue Dbg.NIW.init) =
          .ok (NIW.vec x, s')} =
      (∫⁻ x in Set.Icc 0 1, ENNReal.ofReal (Real.exp (f x))) * I.P Set.univ := by
  obtain ⟨I⟩ := idealNumpy_exists
  obtain ⟨la, hla⟩ := exists_exactNumpy
  obtain ⟨f, -, h2⟩ := C68_niw_value hla I ![0, 1] 2 1 (3 / 2)
    ⟨by norm_num, by norm_num, Matrix.PosDef.one, by norm_num⟩ [![1, 2], ![3, 5]]
    (measurableSet_Icc (a := 0) (b := 1)) MeasurableSet.univ
  exact ⟨I, la, f, h2⟩

end Dist
