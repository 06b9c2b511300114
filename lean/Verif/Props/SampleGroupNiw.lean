import Verif.Lemmas.NIWSampleGroup
import Verif.Props.SampleGroup
import Verif.Props.SamplerLawsNiw
import Verif.Props.ReferenceSamplersNiw

/-!
# C62: `sample_group` of the normal-inverse-Wishart model

`sample_normal_inverse_wishart` (`include/distributions/random.hpp:249-259`) returns the covariance
of the mean as the covariance of the values (see C59).  `C62_niw_law` says what the lists drawn are
distributed like for every prior, `C62_niw_partial` gives the case in which that is what the scores
say, `C62_niw_fails` that it is the only one.
-/

namespace Dist

open Spec FloatOps FloatNotation MeasureTheory ProbabilityTheory Matrix

variable {σ : Type} [MeasurableSpace σ] {d : ℕ}

theorem NIW.prior_eq (lvl : Nat) {mu : Fin d → ℝ} {kappa : ℝ} {psi : Matrix (Fin d) (Fin d) ℝ}
    {nu : ℝ} (hr : NIW.InRange mu kappa psi nu) :
    (NIW.real mu kappa psi nu).plusGroup lvl (NIW.mk 0 0 0) = .ok (NIW.real mu kappa psi nu) := by
  have hk := hr.kappa.ne'
  have h := NIW.plusGroup_eq lvl hr.dim mu kappa psi nu 0 0 0 (fun _ => rfl) (by simpa using hk)
  rw [h]
  have e1 : kappa⁻¹ • (kappa • mu) = mu := by
    rw [smul_smul, inv_mul_cancel₀ hk, one_smul]
  have e2 : NIW.postPsi mu kappa psi 0 0 0 = psi := by
    ext i j
    simp only [NIW.postPsi_apply, Pi.zero_apply, Matrix.zero_apply, add_zero]
    field_simp; ring
  simp [e1, e2]

/-- The lists `sample_group` returns, in terms of the draws. -/
theorem NIW.sampleGroup_set (lvl : Nat) {e : NIW.Eigen XR} (he : ExactEigen e) (I : IdealRng σ)
    {mu : Fin d → ℝ} {kappa : ℝ} {psi : Matrix (Fin d) (Fin d) ℝ} {nu : ℝ}
    (hr : NIW.InRange mu kappa psi nu) (n : ℕ) (hn : n ≤ 2147483647)
    {A : Set (Fin n → Fin d → ℝ)} (hA : MeasurableSet A) {B : Set σ} (hB : MeasurableSet B) :
    I.P {s | ∃ x ∈ A, ∃ s' ∈ B, NIW.sampleGroup lvl e I.toRng s (NIW.real mu kappa psi nu) n =
        .ok (List.ofFn fun i => NIW.vec (x i), s')} =
      (∫⁻ x in A, ENNReal.ofReal
        (Real.exp (NIW.logMarginal mu 1 ((1 / kappa) • psi) nu (List.ofFn x)))) * I.P B := by
  obtain ⟨D, hD, hlaw, hrun⟩ := NIW.sampleGroup_law he I hr n
  have hset : I.P {s | ∃ x ∈ A, ∃ s' ∈ B, NIW.sampleGroup lvl e I.toRng s
      (NIW.real mu kappa psi nu) n = .ok (List.ofFn fun i => NIW.vec (x i), s')} =
      I.P (D ⁻¹' (A ×ˢ B)) := by
    apply measure_congr
    filter_upwards [hrun] with s hs
    obtain ⟨p, s', h1, h2⟩ := hs
    apply propext
    show (∃ x ∈ A, ∃ s' ∈ B, _) ↔ D s ∈ _
    rw [NIW.sampleGroup, sampleGroup_size hn, Res.ok_bind, NIW.init_eq lvl hr.dim, Res.ok_bind,
      NIW.Sampler.init, NIW.prior_eq lvl hr, Res.ok_bind]
    have h1' : NIW.sampleNormalInverseWishart e I.toRng s (NIW.real mu kappa psi nu).mu
      (NIW.real mu kappa psi nu).kappa (NIW.real mu kappa psi nu).psi
      (NIW.real mu kappa psi nu).nu = .ok (p, s') := h1
    rw [h1', Res.ok_bind]
    simp only [Int.toNat_natCast, h2, Res.ok.injEq, Prod.mk.injEq, Set.mem_prod]
    constructor
    · rintro ⟨x, hx, s'', hs'', h4, rfl⟩
      have h5 : (D s).1 = x := funext fun i => NIW.vec_inj (congrFun (List.ofFn_injective h4) i)
      rw [h5]; exact ⟨hx, hs''⟩
    · rintro ⟨h3, h4⟩; exact ⟨_, h3, _, h4, rfl, rfl⟩
  rw [hset]
  have hAB := hA.prod hB
  have h4 := hlaw ((A ×ˢ B).indicator fun _ => 1) (measurable_one.indicator hAB)
  have h5 : ∫⁻ s, (A ×ˢ B).indicator (fun _ => (1 : ENNReal)) (D s) ∂I.P =
      I.P (D ⁻¹' (A ×ˢ B)) := by
    rw [← lintegral_indicator_one (hD hAB)]
    rfl
  rw [← h5, h4]
  simp only [lintegral_indicator_prod I.P _ hB]
  rw [← lintegral_mul_const', ← lintegral_indicator hA]
  · apply lintegral_congr
    intro x
    by_cases hx : x ∈ A <;> simp [hx]
  · haveI := I.prob; exact measure_ne_top _ _

/-- **C62 (Normal-Inverse-Wishart, the law of the lists).** `sample_group(shared, n)` draws lists with
the joint density `exp(score_data)` of *another* prior: the one whose weight on the mean is 1 and
whose scale matrix is divided by the weight the caller gave. -/
theorem C62_niw_law (lvl : Nat) (e : NIW.Eigen XR) (he : ExactEigen e) (I : IdealRng σ)
    (mu : Fin d → ℝ) (kappa : ℝ) (psi : Matrix (Fin d) (Fin d) ℝ) (nu : ℝ)
    (hr : NIW.InRange mu kappa psi nu) (n : ℕ) (hn : n ≤ 2147483647) (hd : n * d < 4294967296)
    {A : Set (Fin n → Fin d → ℝ)} (hA : MeasurableSet A) {B : Set σ} (hB : MeasurableSet B) :
    ∃ f : (Fin n → Fin d → ℝ) → ℝ,
      (∀ x, ∃ g, addAll NIW.opsReal (NIW.mk 0 0 0) (List.ofFn x) = .ok g ∧
        g.scoreData lvl e.toLinAlg (NIW.real mu 1 ((1 / kappa) • psi) nu) = .ok (.fin (f x))) ∧
      I.P {s | ∃ x ∈ A, ∃ s' ∈ B, NIW.sampleGroup lvl e I.toRng s (NIW.real mu kappa psi nu) n =
          .ok (List.ofFn fun i => NIW.vec (x i), s')} =
        (∫⁻ x in A, ENNReal.ofReal (Real.exp (f x))) * I.P B := by
  refine ⟨_, fun x => ⟨_, NIW.addAll_eq _ (by simpa using hn), ?_⟩,
    NIW.sampleGroup_set lvl he I hr n hn hA hB⟩
  exact NIW.scoreData_eq lvl e.toLinAlg he.toExactLinAlg mu 1 _ nu
    ⟨hr.dim, one_pos, hr.psi.smul (by have := hr.kappa; positivity), hr.nu⟩ (List.ofFn x)
    (by simpa using hd)

/-- **C62 (Normal-Inverse-Wishart, partial).** The claim is that lists are drawn with the joint density
`exp(score_data)` for every prior.  It holds when the prior weight of the mean is 1;
`C62_niw_fails` shows that it holds for no other weight. -/
theorem C62_niw_partial (lvl : Nat) (e : NIW.Eigen XR) (he : ExactEigen e) (I : IdealRng σ)
    (mu : Fin d → ℝ) (psi : Matrix (Fin d) (Fin d) ℝ) (nu : ℝ)
    (hr : NIW.InRange mu 1 psi nu) (n : ℕ) (hn : n ≤ 2147483647) (hd : n * d < 4294967296)
    {A : Set (Fin n → Fin d → ℝ)} (hA : MeasurableSet A) {B : Set σ} (hB : MeasurableSet B) :
    ∃ f : (Fin n → Fin d → ℝ) → ℝ,
      (∀ x, ∃ g, addAll NIW.opsReal (NIW.mk 0 0 0) (List.ofFn x) = .ok g ∧
        g.scoreData lvl e.toLinAlg (NIW.real mu 1 psi nu) = .ok (.fin (f x))) ∧
      I.P {s | ∃ x ∈ A, ∃ s' ∈ B, NIW.sampleGroup lvl e I.toRng s (NIW.real mu 1 psi nu) n =
          .ok (List.ofFn fun i => NIW.vec (x i), s')} =
        (∫⁻ x in A, ENNReal.ofReal (Real.exp (f x))) * I.P B := by
  have h := C62_niw_law lvl e he I mu 1 psi nu hr n hn hd hA hB
  rwa [one_div_one, one_smul] at h

/-- A list of one value is what `sample_value` of a new group returns. -/
theorem NIW.sampleGroup_one (lvl : Nat) (hd : 0 < d) (e : NIW.Eigen XR) (rng : Rng XR σ) (s s' : σ)
    (sh : NIW.Shared XR d) (v : NIW.Vec XR d) :
    NIW.sampleGroup lvl e rng s sh 1 = .ok ([v], s') ↔
      (NIW.mk 0 0 0 : NIW.Group XR d).sampleValue lvl e rng s sh = .ok (v, s') := by
  have h1 : Hp.cInt 1 = .ok 1 := sampleGroup_size (n := 1) (by norm_num)
  rw [NIW.sampleGroup, h1, Res.ok_bind, NIW.init_eq lvl hd, Res.ok_bind, NIW.Group.sampleValue]
  rcases NIW.Sampler.init lvl e rng s sh (NIW.mk 0 0 0) with ⟨p, s₁⟩ | _ | _
  · simp only [Res.ok_bind, Int.toNat_one, sampleLoop]
    rcases NIW.Sampler.eval e rng s₁ p with ⟨w, s₂⟩ | _ | _ <;> simp [Res.ok_bind]
  · simp
  · simp

/-- **C62 (Normal-Inverse-Wishart, the code does not satisfy the claim).** For every prior whose
weight on the mean is not 1, there is a set of values that the value of a list of length 1 hits with
a probability different from the one the scores give. -/
theorem C62_niw_fails (lvl : Nat) (e : NIW.Eigen XR) (he : ExactEigen e) (I : IdealRng σ)
    (mu : Fin d → ℝ) (kappa : ℝ) (psi : Matrix (Fin d) (Fin d) ℝ) (nu : ℝ)
    (hr : NIW.InRange mu kappa psi nu) (h1 : kappa ≠ 1) (hd : d < 4294967296) :
    ∃ f : (Fin d → ℝ) → ℝ,
      (∀ v, ∃ g, addAll NIW.opsReal (NIW.mk 0 0 0) [v] = .ok g ∧
        g.scoreData lvl e.toLinAlg (NIW.real mu kappa psi nu) = .ok (.fin (f v))) ∧
      ∃ A, MeasurableSet A ∧
        I.P {s | ∃ v ∈ A, ∃ s', NIW.sampleGroup lvl e I.toRng s (NIW.real mu kappa psi nu) 1 =
          .ok ([NIW.vec v], s')} ≠ ∫⁻ v in A, ENNReal.ofReal (Real.exp (f v)) := by
  obtain ⟨g, hg, f, hf, A, hA, hne⟩ := C59_niw_fails lvl e he I mu kappa psi nu hr [] (by simp)
    (by simpa using h1)
  obtain rfl : NIW.mk 0 0 0 = g := Res.ok.inj hg
  refine ⟨f, fun v => ?_, A, hA, ?_⟩
  · obtain ⟨g, g', a, b, hg, hg', ha, hb, hab⟩ := C41_step lvl e.toLinAlg he.toExactLinAlg mu kappa
      psi nu hr [] v (by simp) (by simpa using hd)
    obtain rfl : NIW.mk 0 0 0 = g := Res.ok.inj hg
    have h0 := NIW.scoreData_eq lvl e.toLinAlg he.toExactLinAlg mu kappa psi nu hr [] (by simp)
    rw [NIW.logMarginal_nil hr] at h0
    have e : NIW.stats ([] : List (Fin d → ℝ)) = NIW.mk 0 0 0 := by simp [vecSum, outerSum]
    rw [e] at h0
    obtain rfl : a = 0 := XR.fin_inj.1 (Res.ok.inj (ha.symm.trans h0))
    obtain rfl : b = f v := XR.fin_inj.1 (Res.ok.inj (hb.symm.trans (hf v)))
    rw [zero_add] at hab
    refine ⟨g', ?_, hab⟩
    have h2 := NIW.addAll_eq [v] (by simp)
    rw [h2]
    rw [← hg', NIW.add_eq _ (by unfold InInt32 int32Min int32Max; omega)]
    simp [vecSum, outerSum]
  · simp only [NIW.sampleGroup_one lvl hr.dim]
    exact hne

/-! ## Concrete cases -/

/-- One point of the plane drawn with weight 2 on the mean. -/
example : ∃ (I : IdealRng Supply) (e : NIW.Eigen XR) (f : (Fin 2 → ℝ) → ℝ) (A : Set (Fin 2 → ℝ)),
    (∀ v, ∃ g, addAll NIW.opsReal (NIW.mk 0 0 0) [v] = .ok g ∧
      g.scoreData 0 e.toLinAlg (NIW.real ![0, 1] 2 1 3) = .ok (.fin (f v))) ∧
    I.P {s | ∃ v ∈ A, ∃ s', NIW.sampleGroup 0 e I.toRng s (NIW.real ![0, 1] 2 1 3) 1 =
      .ok ([NIW.vec v], s')} ≠ ∫⁻ v in A, ENNReal.ofReal (Real.exp (f v)) := by
  obtain ⟨I⟩ := idealRng_exists
  obtain ⟨e, he⟩ := NIW.exists_exactEigen
  obtain ⟨f, hf, A, -, h⟩ := C62_niw_fails 0 e he I ![0, 1] 2 1 3
    ⟨by norm_num, by norm_num, Matrix.PosDef.one, by norm_num⟩ (by norm_num) (by norm_num)
  exact ⟨I, e, f, A, hf, h⟩

/-- Three points of the unit square drawn with weight 1 on the mean. -/
example : ∃ (I : IdealRng Supply) (e : NIW.Eigen XR) (f : (Fin 3 → Fin 2 → ℝ) → ℝ),
    (∀ x, ∃ g, addAll NIW.opsReal (NIW.mk 0 0 0) [x 0, x 1, x 2] = .ok g ∧
      g.scoreData 0 e.toLinAlg (NIW.real ![0, 1] 1 1 3) = .ok (.fin (f x))) ∧
    I.P {s | ∃ x ∈ Set.Icc (0 : Fin 3 → Fin 2 → ℝ) 1, ∃ s',
      NIW.sampleGroup 0 e I.toRng s (NIW.real ![0, 1] 1 1 3) 3 =
        .ok ([NIW.vec (x 0), NIW.vec (x 1), NIW.vec (x 2)], s')} =
      ∫⁻ x in Set.Icc 0 1, ENNReal.ofReal (Real.exp (f x)) := by
  obtain ⟨I⟩ := idealRng_exists
  obtain ⟨e, he⟩ := NIW.exists_exactEigen
  obtain ⟨f, hf, h⟩ := C62_niw_partial 0 e he I ![0, 1] 1 3
    ⟨by norm_num, by norm_num, Matrix.PosDef.one, by norm_num⟩ 3 (by norm_num) (by norm_num)
    (measurableSet_Icc (a := 0) (b := 1)) MeasurableSet.univ
  haveI := I.prob
  refine ⟨I, e, f, fun x => by simpa [List.ofFn_succ] using hf x, ?_⟩
  simpa [List.ofFn_succ] using h

end Dist
