import Verif.Lemmas.NIWSample
import Verif.Lemmas.IdealRngExists
import Verif.Props.NIW

/-!
# C59: the law of values sampled from a Normal-Inverse-Wishart group

`sample_normal_inverse_wishart` (`include/distributions/random.hpp:249-259`) divides the inverse
Wishart matrix by `lambda` and returns the quotient, the covariance of the mean, as the covariance
of the values.  `C59_niw_law` gives the law that results for every data set, `C59_niw_partial` the
only case in which it is the law the scores describe, and `C59_niw_fails` says that in every other
case it is not.
-/

namespace Dist

open Spec FloatOps FloatNotation MeasureTheory ProbabilityTheory Matrix

variable {σ : Type} [MeasurableSpace σ] {d : ℕ}

theorem NIW.scale_eq (mu : Fin d → ℝ) {kappa : ℝ} (hk : 0 < kappa)
    (psi : Matrix (Fin d) (Fin d) ℝ) (xs : List (Fin d → ℝ)) :
    psi + kappa • vecMulVec mu mu + (xs.map fun x => vecMulVec x x).sum - (kappa + xs.length) •
      vecMulVec ((1 / (kappa + (xs.length : ℝ))) • (kappa • mu + xs.sum))
        ((1 / (kappa + (xs.length : ℝ))) • (kappa • mu + xs.sum)) =
    NIW.postPsi mu kappa psi xs.length (vecSum xs) (outerSum xs) := by
  have h0 : (0 : ℝ) ≤ xs.length := by positivity
  have hK : kappa + (xs.length : ℝ) ≠ 0 := by positivity
  ext i j
  rw [NIW.postPsi_apply]
  simp only [Matrix.add_apply, Matrix.sub_apply, Matrix.smul_apply, vecMulVec_apply,
    Pi.smul_apply, smul_eq_mul, Pi.add_apply, vecSum, outerSum]
  field_simp

/-- **C59 (Normal-Inverse-Wishart, the law of the samples).** Values sampled from the group of a
data set have a multivariate Student t law, with twice the scale of the posterior mean. -/
theorem C59_niw_law (lvl : Nat) (e : NIW.Eigen XR) (he : ExactEigen e) (I : IdealRng σ)
    (mu : Fin d → ℝ) (kappa : ℝ) (psi : Matrix (Fin d) (Fin d) ℝ) (nu : ℝ)
    (hr : NIW.InRange mu kappa psi nu) (xs : List (Fin d → ℝ)) (hl : xs.length ≤ 2147483647)
    {A : Set (Fin d → ℝ)} (hA : MeasurableSet A) {B : Set σ} (hB : MeasurableSet B) :
    let n : ℝ := xs.length
    let mean : Fin d → ℝ := (1 / (kappa + n)) • (kappa • mu + xs.sum)
    let scale : Matrix (Fin d) (Fin d) ℝ := psi + kappa • vecMulVec mu mu +
      (xs.map fun x => vecMulVec x x).sum - (kappa + n) • vecMulVec mean mean
    let dof := nu + n - d + 1
    ∃ g, addAll NIW.opsReal (NIW.mk 0 0 0) xs = .ok g ∧
      I.P {s | ∃ v ∈ A, ∃ s' ∈ B, g.sampleValue lvl e I.toRng s (NIW.real mu kappa psi nu) =
          .ok (NIW.vec v, s')} =
        (∫⁻ v in A, ENNReal.ofReal (mvStudentT dof mean ((2 / ((kappa + n) * dof)) • scale) v)) *
          I.P B := by
  intro n mean scale dof
  refine ⟨_, NIW.addAll_eq xs hl, ?_⟩
  have hk := hr.kappa
  have h0 : (0 : ℝ) ≤ n := by positivity
  have hK : 0 < kappa + n := by positivity
  have hscale : scale = NIW.postPsi mu kappa psi n (vecSum xs) (outerSum xs) :=
    NIW.scale_eq mu hk psi xs
  have hpd : scale.PosDef := by
    rw [hscale]; exact NIW.post_posDef mu kappa psi hk hr.psi xs
  have hnu : (d : ℝ) - 1 < nu + n := by have := hr.nu; linarith
  have hplus := NIW.plusGroup_eq lvl hr.dim mu kappa psi nu xs.length (vecSum xs) (outerSum xs)
    (by
      intro h
      have : xs = [] := List.length_eq_zero_iff.1 (by exact_mod_cast h)
      simp [this, vecSum]) (by exact_mod_cast hK.ne')
  simp only [Int.cast_natCast] at hplus
  have hval := NIW.sampleValue_eq he I hpd hK hnu mean
  have hset : {s | ∃ v ∈ A, ∃ s' ∈ B,
      (NIW.stats xs).sampleValue lvl e I.toRng s (NIW.real mu kappa psi nu) =
          .ok (NIW.vec v, s')} =ᵐ[I.P]
      {s | niwValue mean (cholM scale⁻¹) (1 / (kappa + n)) (1 / (kappa + n))
          (niwDraws I (nu + n) d s).1 ∈ A ∧ (niwDraws I (nu + n) d s).2 ∈ B} := by
    filter_upwards [hval] with s hs
    have hs' : (NIW.stats xs).sampleValue lvl e I.toRng s (NIW.real mu kappa psi nu) =
        .ok (NIW.vec (niwValue mean (cholM scale⁻¹) (1 / (kappa + n)) (1 / (kappa + n))
          (niwDraws I (nu + n) d s).1), (niwDraws I (nu + n) d s).2) := by
      unfold NIW.Group.sampleValue NIW.Sampler.init
      rw [hplus]
      simp only [Res.ok_bind]
      rw [← hs, hscale]
      rfl
    apply propext
    show (∃ v ∈ A, ∃ s' ∈ B, (NIW.stats xs).sampleValue lvl e I.toRng s
      (NIW.real mu kappa psi nu) = .ok (NIW.vec v, s')) ↔ _
    rw [hs']
    constructor
    · rintro ⟨v, hv, s', hs', he⟩
      simp only [Res.ok.injEq, Prod.mk.injEq] at he
      have hv' : niwValue mean (cholM scale⁻¹) (1 / (kappa + n)) (1 / (kappa + n))
          (niwDraws I (nu + n) d s).1 = v := funext fun i => XR.fin_inj.1 (congrFun he.1 i)
      exact ⟨by rw [hv']; exact hv, by rw [he.2]; exact hs'⟩
    · rintro ⟨h1, h2⟩
      exact ⟨_, h1, _, h2, rfl⟩
  rw [measure_congr hset, niwValue_law I hpd (cholM_isChol hpd.inv) (by positivity)
    (by positivity) hnu mean hA hB]
  congr 2
  funext v
  have e1 : (1 / (kappa + n) + 1 / (kappa + n)) / (nu + n - d + 1) =
      2 / ((kappa + n) * dof) := by
    have : dof ≠ 0 := by
      show nu + n - d + 1 ≠ 0
      have : 0 < nu + n - d + 1 := by linarith
      exact this.ne'
    show (1 / (kappa + n) + 1 / (kappa + n)) / dof = _
    field_simp
    ring
  rw [e1]

/-- **C59 (Normal-Inverse-Wishart, partial).** The claim is that sampled values have the density
`exp(score_value)` for every prior and data set.  It holds when the prior weight of the mean and the
number of data add up to 1; `C59_niw_fails` shows that it holds in no other case. -/
theorem C59_niw_partial (lvl : Nat) (e : NIW.Eigen XR) (he : ExactEigen e) (I : IdealRng σ)
    (mu : Fin d → ℝ) (kappa : ℝ) (psi : Matrix (Fin d) (Fin d) ℝ) (nu : ℝ)
    (hr : NIW.InRange mu kappa psi nu) (xs : List (Fin d → ℝ)) (hl : xs.length ≤ 2147483647)
    (h1 : kappa + xs.length = 1)
    {A : Set (Fin d → ℝ)} (hA : MeasurableSet A) {B : Set σ} (hB : MeasurableSet B) :
    ∃ g, addAll NIW.opsReal (NIW.mk 0 0 0) xs = .ok g ∧ ∃ f : (Fin d → ℝ) → ℝ,
      (∀ v, g.scoreValue lvl e.toLinAlg (NIW.real mu kappa psi nu) (NIW.vec v) =
        .ok (.fin (f v))) ∧
      I.P {s | ∃ v ∈ A, ∃ s' ∈ B, g.sampleValue lvl e I.toRng s (NIW.real mu kappa psi nu) =
          .ok (NIW.vec v, s')} =
        (∫⁻ v in A, ENNReal.ofReal (Real.exp (f v))) * I.P B := by
  have hp := C41_predictive lvl e.toLinAlg he.toExactLinAlg mu kappa psi nu hr xs hl
  obtain ⟨g, hg, hs⟩ := C59_niw_law lvl e he I mu kappa psi nu hr xs hl hA hB
  refine ⟨g, hg, ?_, fun v => ?_, ?_⟩
  · exact fun v => Real.log (mvStudentT (nu + (xs.length : ℝ) - d + 1)
      ((1 / (kappa + (xs.length : ℝ))) • (kappa • mu + xs.sum))
      (((kappa + (xs.length : ℝ) + 1) /
        ((kappa + (xs.length : ℝ)) * (nu + (xs.length : ℝ) - d + 1))) •
        (psi + kappa • vecMulVec mu mu + (xs.map fun x => vecMulVec x x).sum -
          (kappa + (xs.length : ℝ)) • vecMulVec
            ((1 / (kappa + (xs.length : ℝ))) • (kappa • mu + xs.sum))
            ((1 / (kappa + (xs.length : ℝ))) • (kappa • mu + xs.sum)))) v)
  · obtain ⟨-, -, g', hg', hv⟩ := hp v
    rw [hg] at hg'
    obtain rfl := Res.ok.inj hg'
    exact hv
  · rw [hs]
    congr 2
    funext v
    obtain ⟨-, hpos, -⟩ := hp v
    rw [Real.exp_log hpos, h1]
    norm_num

theorem mvStudentT_continuous {nu : ℝ} (hnu : 0 < nu) (mu : Fin d → ℝ)
    {sigma : Matrix (Fin d) (Fin d) ℝ} (hs : sigma.PosDef) :
    Continuous (mvStudentT nu mu sigma) := by
  unfold mvStudentT
  refine continuous_const.mul ?_
  have hq : Continuous fun x : Fin d → ℝ => 1 + (x - mu) ⬝ᵥ (sigma⁻¹ *ᵥ (x - mu)) / nu := by
    unfold dotProduct mulVec dotProduct
    fun_prop
  refine hq.rpow_const fun x => Or.inl ?_
  have := hs.inv.posSemidef.dotProduct_mulVec_nonneg (x - mu)
  simp only [star_trivial] at this
  positivity

theorem mvStudentT_mean {nu : ℝ} (mu : Fin d → ℝ) {sigma : Matrix (Fin d) (Fin d) ℝ} {c : ℝ}
    (hc : 0 < c) (hs : sigma.PosDef) :
    mvStudentT nu mu (c • sigma) mu =
      Real.Gamma ((nu + d) / 2) / (Real.Gamma (nu / 2) * (nu * Real.pi) ^ ((d : ℝ) / 2) *
        sigma.det ^ (1 / 2 : ℝ)) / c ^ ((d : ℝ) / 2) := by
  unfold mvStudentT
  rw [sub_self, zero_dotProduct, zero_div, add_zero, Real.one_rpow, mul_one, det_smul,
    Fintype.card_fin, Real.mul_rpow (by positivity) hs.det_pos.le, ← Real.rpow_natCast,
    ← Real.rpow_mul hc.le, mul_one_div, div_div]
  congr 1
  ring

/-- Two continuous densities that differ at a point differ on some set. -/
theorem exists_setLIntegral_lt {p q : (Fin d → ℝ) → ℝ} (hp : Continuous p) (hq : Continuous q)
    {m : Fin d → ℝ} (h0 : 0 ≤ p m) (hm : p m < q m)
    (hfin : ∫⁻ v, ENNReal.ofReal (p v) ≠ ⊤) :
    ∃ A, MeasurableSet A ∧
      ∫⁻ v in A, ENNReal.ofReal (p v) < ∫⁻ v in A, ENNReal.ofReal (q v) := by
  have hop : IsOpen {v | p v < q v ∧ 0 < q v} :=
    (isOpen_lt hp hq).inter (isOpen_lt continuous_const hq)
  refine ⟨_, hop.measurableSet, ?_⟩
  refine setLIntegral_strict_mono hop.measurableSet ?_ (hq.measurable.ennreal_ofReal) ?_ ?_
  · exact (hop.measure_pos volume ⟨m, hm, h0.trans_lt hm⟩).ne'
  · exact ne_top_of_le_ne_top hfin (setLIntegral_le_lintegral _ _)
  · exact Filter.Eventually.of_forall fun v hv => (ENNReal.ofReal_lt_ofReal_iff hv.2).2 hv.1

/-- **C59 (Normal-Inverse-Wishart, the code does not satisfy the claim).** For every prior and every
data set, unless prior weight and number of data add up to 1, there is a set of values that
`sample_value` hits with a probability different from the one the scores give. -/
theorem C59_niw_fails (lvl : Nat) (e : NIW.Eigen XR) (he : ExactEigen e) (I : IdealRng σ)
    (mu : Fin d → ℝ) (kappa : ℝ) (psi : Matrix (Fin d) (Fin d) ℝ) (nu : ℝ)
    (hr : NIW.InRange mu kappa psi nu) (xs : List (Fin d → ℝ)) (hl : xs.length ≤ 2147483647)
    (h1 : kappa + xs.length ≠ 1) :
    ∃ g, addAll NIW.opsReal (NIW.mk 0 0 0) xs = .ok g ∧ ∃ f : (Fin d → ℝ) → ℝ,
      (∀ v, g.scoreValue lvl e.toLinAlg (NIW.real mu kappa psi nu) (NIW.vec v) =
        .ok (.fin (f v))) ∧
      ∃ A, MeasurableSet A ∧
        I.P {s | ∃ v ∈ A, ∃ s', g.sampleValue lvl e I.toRng s (NIW.real mu kappa psi nu) =
          .ok (NIW.vec v, s')} ≠ ∫⁻ v in A, ENNReal.ofReal (Real.exp (f v)) := by
  have hp := C41_predictive lvl e.toLinAlg he.toExactLinAlg mu kappa psi nu hr xs hl
  have hlaw := fun (A : Set (Fin d → ℝ)) (hA : MeasurableSet A) =>
    C59_niw_law lvl e he I mu kappa psi nu hr xs hl hA MeasurableSet.univ
  have hk := hr.kappa
  set n : ℝ := (xs.length : ℝ) with hn
  have h0 : (0 : ℝ) ≤ n := by positivity
  have hK : 0 < kappa + n := by positivity
  set mean : Fin d → ℝ := (1 / (kappa + n)) • (kappa • mu + xs.sum)
  set scale : Matrix (Fin d) (Fin d) ℝ := psi + kappa • vecMulVec mu mu +
    (xs.map fun x => vecMulVec x x).sum - (kappa + n) • vecMulVec mean mean
  set dof := nu + n - d + 1 with hdof
  have hdof0 : 0 < dof := by have := hr.nu; linarith
  have hpd : scale.PosDef := (hp 0).1
  refine ⟨_, NIW.addAll_eq xs hl, fun v => Real.log
    (mvStudentT dof mean (((kappa + n + 1) / ((kappa + n) * dof)) • scale) v), fun v => ?_, ?_⟩
  · obtain ⟨-, -, g', hg', hv⟩ := hp v
    rw [NIW.addAll_eq xs hl] at hg'
    obtain rfl := Res.ok.inj hg'
    exact hv
  have hexp : ∀ v, Real.exp (Real.log
      (mvStudentT dof mean (((kappa + n + 1) / ((kappa + n) * dof)) • scale) v)) =
      mvStudentT dof mean (((kappa + n + 1) / ((kappa + n) * dof)) • scale) v :=
    fun v => Real.exp_log (hp v).2.1
  simp only [hexp]
  have hlaw' : ∀ A : Set (Fin d → ℝ), MeasurableSet A →
      I.P {s | ∃ v ∈ A, ∃ s', (NIW.stats xs).sampleValue lvl e I.toRng s
          (NIW.real mu kappa psi nu) = .ok (NIW.vec v, s')} =
        ∫⁻ v in A, ENNReal.ofReal (mvStudentT dof mean ((2 / ((kappa + n) * dof)) • scale) v) := by
    intro A hA
    obtain ⟨g', hg', h⟩ := hlaw A hA
    rw [NIW.addAll_eq xs hl] at hg'
    obtain rfl := Res.ok.inj hg'
    rw [measure_univ, mul_one] at h
    refine Eq.trans ?_ h
    simp only [Set.mem_univ, true_and]
  have c1 : 0 < 2 / ((kappa + n) * dof) := by positivity
  have c2 : 0 < (kappa + n + 1) / ((kappa + n) * dof) := by positivity
  have k1 := mvStudentT_continuous hdof0 mean (hpd.smul c1)
  have k2 := mvStudentT_continuous hdof0 mean (hpd.smul c2)
  have m1 := mvStudentT_mean (nu := dof) mean c1 hpd
  have m2 := mvStudentT_mean (nu := dof) mean c2 hpd
  have hC : 0 < Real.Gamma ((dof + d) / 2) / (Real.Gamma (dof / 2) *
      (dof * Real.pi) ^ ((d : ℝ) / 2) * scale.det ^ (1 / 2 : ℝ)) := by
    have := hpd.det_pos
    have g1 := Real.Gamma_pos_of_pos (show 0 < (dof + d) / 2 by positivity)
    have g2 := Real.Gamma_pos_of_pos (show 0 < dof / 2 by positivity)
    have := Real.pi_pos
    positivity
  have hd2 : 0 < (d : ℝ) / 2 := by have := hr.dim; positivity
  have hfin1 : ∫⁻ v, ENNReal.ofReal (mvStudentT dof mean ((2 / ((kappa + n) * dof)) • scale) v) ≠
      ⊤ := by
    have := hlaw' Set.univ MeasurableSet.univ
    rw [Measure.restrict_univ] at this
    rw [← this]
    exact measure_ne_top _ _
  have hkd : 0 < (kappa + n) * dof := by positivity
  rcases lt_or_gt_of_ne h1 with h | h
  · -- the scale of the scores is smaller, so their density is higher at the mean
    obtain ⟨A, hA, hlt⟩ := exists_setLIntegral_lt k1 k2 (m := mean)
      (by rw [m1]; positivity) (by
        rw [m1, m2]
        refine div_lt_div_of_pos_left hC (by positivity) ?_
        refine Real.rpow_lt_rpow c2.le ?_ hd2
        gcongr
        linarith) hfin1
    exact ⟨A, hA, by rw [hlaw' A hA]; exact hlt.ne⟩
  · have hlt' : mvStudentT dof mean (((kappa + n + 1) / ((kappa + n) * dof)) • scale) mean <
        mvStudentT dof mean ((2 / ((kappa + n) * dof)) • scale) mean := by
      rw [m1, m2]
      refine div_lt_div_of_pos_left hC (by positivity) ?_
      refine Real.rpow_lt_rpow c1.le ?_ hd2
      gcongr
      linarith
    have hop : IsOpen {v | mvStudentT dof mean (((kappa + n + 1) / ((kappa + n) * dof)) • scale) v <
        mvStudentT dof mean ((2 / ((kappa + n) * dof)) • scale) v} := isOpen_lt k2 k1
    refine ⟨_, hop.measurableSet, ?_⟩
    rw [hlaw' _ hop.measurableSet]
    refine (setLIntegral_strict_mono hop.measurableSet ?_ k1.measurable.ennreal_ofReal ?_ ?_).ne'
    · exact (hop.measure_pos volume ⟨mean, hlt'⟩).ne'
    · refine ne_top_of_le_ne_top hfin1 ((setLIntegral_mono' hop.measurableSet ?_).trans
        (setLIntegral_le_lintegral _ _))
      exact fun v hv => ENNReal.ofReal_le_ofReal (le_of_lt hv)
    · exact Filter.Eventually.of_forall fun v hv =>
        (ENNReal.ofReal_lt_ofReal_iff ((hp v).2.1.trans hv)).2 hv

/-! ## Concrete cases -/

theorem NIW.exists_exactEigen : ∃ e : NIW.Eigen XR, ExactEigen e := by
  obtain ⟨la, hla⟩ := NIW.exists_exactLinAlg
  let back : {d : Nat} → NIW.Mat XR d → Matrix (Fin d) (Fin d) ℝ := fun m i j =>
    match m i j with
    | .fin r => r
    | .nan => 0
  refine ⟨⟨la, fun m => some fun i j => .fin (cholM (back m) i j)⟩, hla, ?_⟩
  intro d M hM
  have h := cholM_isChol hM
  exact ⟨cholM M, h.lower, h.diag, h.mul, rfl⟩

/-- A plane prior with weight 2 on the mean, and two points: `sample_value` hits some set with a
probability different from the one the scores give. -/
example : ∃ (I : IdealRng Supply) (e : NIW.Eigen XR) (g : NIW.Group XR 2) (f : (Fin 2 → ℝ) → ℝ)
    (A : Set (Fin 2 → ℝ)),
    addAll NIW.opsReal (NIW.mk 0 0 0) [![1, 2], ![3, 5]] = .ok g ∧
    (∀ v, g.scoreValue 0 e.toLinAlg (NIW.real ![0, 1] 2 1 3) (NIW.vec v) = .ok (.fin (f v))) ∧
    I.P {s | ∃ v ∈ A, ∃ s', g.sampleValue 0 e I.toRng s (NIW.real ![0, 1] 2 1 3) =
      .ok (NIW.vec v, s')} ≠ ∫⁻ v in A, ENNReal.ofReal (Real.exp (f v)) := by
  obtain ⟨I⟩ := idealRng_exists
  obtain ⟨e, he⟩ := NIW.exists_exactEigen
  obtain ⟨g, hg, f, hf, A, -, h⟩ := C59_niw_fails 0 e he I ![0, 1] 2 1 3
    ⟨by norm_num, by norm_num, Matrix.PosDef.one, by norm_num⟩ [![1, 2], ![3, 5]] (by decide)
    (by norm_num)
  exact ⟨I, e, g, f, A, hg, hf, h⟩

/-- Without data and with weight 1 the sampler is right. -/
example : ∃ (I : IdealRng Supply) (e : NIW.Eigen XR) (g : NIW.Group XR 2) (f : (Fin 2 → ℝ) → ℝ),
    (∀ v, g.scoreValue 0 e.toLinAlg (NIW.real ![0, 1] 1 1 3) (NIW.vec v) = .ok (.fin (f v))) ∧
    I.P {s | ∃ v ∈ Set.Icc (0 : Fin 2 → ℝ) 1, ∃ s' ∈ Set.univ,
      g.sampleValue 0 e I.toRng s (NIW.real ![0, 1] 1 1 3) =
      .ok (NIW.vec v, s')} = (∫⁻ v in Set.Icc 0 1, ENNReal.ofReal (Real.exp (f v))) *
        I.P Set.univ := by
  obtain ⟨I⟩ := idealRng_exists
  obtain ⟨e, he⟩ := NIW.exists_exactEigen
  obtain ⟨g, -, f, hf, h⟩ := C59_niw_partial 0 e he I ![0, 1] 1 1 3
    ⟨by norm_num, by norm_num, Matrix.PosDef.one, by norm_num⟩ [] (by decide)
    (by norm_num) (measurableSet_Icc (a := 0) (b := 1)) MeasurableSet.univ
  exact ⟨I, e, g, f, hf, h⟩

end Dist
