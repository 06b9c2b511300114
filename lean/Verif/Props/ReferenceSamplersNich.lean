import Verif.Props.ReferenceSamplers
import Verif.Props.SampleGroupNich
import Verif.Props.SamplerLaws

/-!
# C68: the normal-inverse-chi-squared samplers of the reference implementation
-/

namespace Dist

open Spec FloatOps FloatNotation MeasureTheory ProbabilityTheory

variable {σ : Type} [MeasurableSpace σ]

theorem Dbg.NICH.stats_cons (M : Multiset ℝ) (v : ℝ) :
    Dbg.NICH.addValue (NICH.stats M) (XR.fin v) = .ok (NICH.stats (v ::ₘ M)) := by
  have h : (((M.card : Int) + 1 : Int) : ℝ) ≠ 0 := by push_cast; positivity
  simp only [Dbg.NICH.addValue, NICH.stats, NICH.mk, XR.fin_sub, XR.ofInt_eq]
  rw [Dbg.pyDiv_fin h, Res.ok_bind]
  simp only [XR.fin_add, XR.fin_sub, XR.fin_mul, Res.pure_eq]
  have hz : M.card = 0 → M.sum = 0 ∧ (M.map fun x => x ^ 2).sum = 0 := by
    intro h; rw [Multiset.card_eq_zero] at h; subst h; simp
  simp only [Multiset.card_cons, Multiset.sum_cons, Multiset.map_cons]
  generalize M.sum = s at *
  generalize (M.map fun x => x ^ 2).sum = q at *
  generalize M.card = n at *
  have hn1 : ((n : ℝ) + 1) ≠ 0 := by positivity
  simp only [Res.ok.injEq, NICH.Group.mk.injEq, XR.fin_inj, Int.cast_natCast, Nat.cast_add,
    Nat.cast_one, Int.cast_add, Int.cast_one]
  by_cases h0 : n = 0
  · obtain ⟨rfl, rfl⟩ := hz h0
    subst h0; simp
  · have hn0 : (n : ℝ) ≠ 0 := by exact_mod_cast h0
    refine ⟨trivial, ?_, ?_⟩
    · field_simp; ring
    · field_simp; ring

theorem Dbg.NICH.fold_eq (xs : List ℝ) :
    (xs.map XR.fin).foldlM Dbg.NICH.addValue (Dbg.NICH.init : NICH.Group XR) =
      .ok (NICH.stats xs) := by
  have h : ∀ (xs : List ℝ) (M : Multiset ℝ),
      (xs.map XR.fin).foldlM Dbg.NICH.addValue (NICH.stats M) = .ok (NICH.stats (xs + M)) := by
    intro xs
    induction xs with
    | nil => intro M; simp [Res.pure_eq]
    | cons v xs ih =>
      intro M
      rw [List.map_cons, List.foldlM_cons, Dbg.NICH.stats_cons]
      show (List.map _ xs).foldlM _ _ = _
      rw [ih]
      congr 2
      rw [← Multiset.cons_coe, Multiset.add_cons, Multiset.cons_add]
  have h0 : (Dbg.NICH.init : NICH.Group XR) = NICH.stats 0 := by
    simp [Dbg.NICH.init, NICH.stats, NICH.mk, XR.lit_eq]
  rw [h0, h, add_zero]

theorem Dbg.NICH.plus_eq {mu kappa sigmasq nu : ℝ} (hk : 0 < kappa) (hv : 0 < nu) (n : Int)
    (hn : 0 ≤ n) (m c : ℝ) :
    Dbg.NICH.plusGroup (NICH.real mu kappa sigmasq nu) (NICH.mk n m c) =
      .ok ((NICH.real mu kappa sigmasq nu).plusGroup (NICH.mk n m c)) := by
  have hn' : (0 : ℝ) ≤ n := by exact_mod_cast hn
  have h : ∃ post, Dbg.NICH.plusGroup (NICH.real mu kappa sigmasq nu) (NICH.mk n m c) = .ok post := by
    simp only [Dbg.NICH.plusGroup, NICH.real, NICH.mk, XR.ofInt_eq, XR.fin_add, XR.fin_mul,
      XR.fin_sub, XR.lit_eq]
    rw [Dbg.pyDiv_fin (by positivity), Res.ok_bind, Dbg.pyDiv_fin (by positivity), Res.ok_bind,
      Dbg.pyDiv_fin (by positivity), Res.ok_bind]
    exact ⟨_, rfl⟩
  obtain ⟨post, h⟩ := h
  rw [h, Dbg.NICH.plusGroup_ok h]

theorem Dbg.pySqrt_fin {x : ℝ} (h : 0 ≤ x) : Dbg.pySqrt (XR.fin x) = .ok (.fin √x) := by
  rw [Dbg.pySqrt, if_neg, XR.sqrt_fin h]
  rw [XR.ofInt_eq, XR.lt_fin]
  simpa using h

/-- The parameters the sampler draws, if the chi-squared variable is positive. -/
theorem Dbg.NICH.samplerInit_eq (I : IdealNumpy σ) {mu kappa sigmasq nu : ℝ} (hk : 0 < kappa)
    (hs : 0 < sigmasq) (hv : 0 < nu) {sh : NICH.Shared XR} {g : NICH.Group XR}
    (h : Dbg.NICH.plusGroup sh g = .ok (NICH.real mu kappa sigmasq nu)) (s : σ)
    (hc : 0 < (I.chisq (nu, s)).1) :
    Dbg.NICH.samplerInit I.toNumpy s sh g =
      .ok ((XR.fin (I.normal ((mu, √(nu * sigmasq / (I.chisq (nu, s)).1 / kappa)),
          (I.chisq (nu, s)).2)).1, XR.fin √(nu * sigmasq / (I.chisq (nu, s)).1)),
        (I.normal ((mu, √(nu * sigmasq / (I.chisq (nu, s)).1 / kappa)),
          (I.chisq (nu, s)).2)).2) := by
  rw [Dbg.NICH.samplerInit, h, Res.ok_bind]
  have e : I.toNumpy.chisq s (XR.fin nu) = (.fin (I.chisq (nu, s)).1, (I.chisq (nu, s)).2) := rfl
  simp only [NICH.real, e, XR.fin_mul]
  rw [XR.fin_div _ _ hc.ne', Dbg.pySqrt_fin (by positivity), Res.ok_bind, Dbg.pyDiv_fin hk.ne',
    Res.ok_bind, Dbg.pySqrt_fin (by positivity), Res.ok_bind]
  rfl

/-- **C68 (Normal-inverse-chi-squared), one value.**  After any data the number drawn has density
`exp(score_value)`. -/
theorem C68_nich_value (I : IdealNumpy σ) (mu kappa sigmasq nu : ℝ) (hk : 0 < kappa)
    (hs : 0 < sigmasq) (hv : 0 < nu) (xs : List ℝ) {A : Set ℝ} (hA : MeasurableSet A) {B : Set σ}
    (hB : MeasurableSet B) :
    ∃ g, ∃ f : ℝ → ℝ,
      (xs.map XR.fin).foldlM Dbg.NICH.addValue (Dbg.NICH.init : NICH.Group XR) = .ok g ∧
      (∀ x, Dbg.NICH.scoreValue (NICH.real mu kappa sigmasq nu) g (.fin x) = .ok (.fin (f x))) ∧
      I.P {s | ∃ x ∈ A, ∃ s' ∈ B, Dbg.NICH.sampleValue I.toNumpy s
          (NICH.real mu kappa sigmasq nu) g = .ok (.fin x, s')} =
        (∫⁻ x in A, ENNReal.ofReal (Real.exp (f x))) * I.P B := by
  have hg := Dbg.NICH.fold_eq xs
  rw [NICH.stats_eq] at hg
  generalize hm : meanOf (xs : Multiset ℝ) = m at hg
  have hc0 : 0 ≤ sqDev (xs : Multiset ℝ) := by
    unfold sqDev
    apply Multiset.sum_nonneg
    intro y hy
    obtain ⟨z, -, rfl⟩ := Multiset.mem_map.1 hy
    positivity
  generalize sqDev (xs : Multiset ℝ) = c at hg hc0
  have hn : (0 : Int) ≤ ((xs : Multiset ℝ).card : Int) := by omega
  generalize ((xs : Multiset ℝ).card : Int) = n at hg hn
  obtain ⟨f, hf, h⟩ := C59_nich I.toIdealRng mu kappa sigmasq nu hk hs hv n hn m c hc0 hA hB
  refine ⟨_, f, hg, fun x => ?_, ?_⟩
  · obtain ⟨r, hr⟩ := C57_nich_score_value_defined mu kappa sigmasq nu m c x n hk hs hv hn hc0
    have h1 := C57_nich_score_value _ _ _ _ hr
    have h2 := hf x
    rw [NICH.real, h1] at h2
    rw [NICH.mk, NICH.real, hr, h2]
  rw [← h]
  apply measure_congr
  have hn0 : (0 : ℝ) ≤ n := by exact_mod_cast hn
  have hplus := NICH.plus_eq (mu := mu) (ka := kappa) (si := sigmasq) (nu := nu) hk hv n hn m c
  have hplus' := Dbg.NICH.plus_eq (mu := mu) (sigmasq := sigmasq) hk hv n hn m c
  rw [hplus] at hplus'
  set M := (kappa * mu + m * n) / (kappa + n) with hM
  set K := kappa + (n : ℝ) with hK
  set N := nu + (n : ℝ) with hN
  set S := 1 / N * (nu * sigmasq + c + (n * kappa * (mu - m) * (mu - m)) / K) with hS
  have K0 : 0 < K := by positivity
  have N0 : 0 < N := by positivity
  have S0 : 0 < S := by
    have : n * kappa * (mu - m) * (mu - m) / K = n * kappa * (mu - m) ^ 2 / K := by ring
    rw [hS, this]; positivity
  haveI : IsProbabilityMeasure (gammaMeasure (N / 2) (1 / 2)) :=
    isProbabilityMeasure_gammaMeasure (by positivity) (by norm_num)
  have hchi : Measurable fun s => I.chisq (N, s) := I.chisq_meas.comp measurable_prodMk_left
  have hcpos := (I.chisq_law N N0).ae hchi (p := fun y => 0 < y) (gamma_pos_ae _ _)
  filter_upwards [hcpos] with s hcs
  apply propext
  show (∃ x ∈ A, ∃ s' ∈ B, _) ↔ ∃ x ∈ A, ∃ s' ∈ B, _
  have e1 : Dbg.NICH.sampleValue I.toNumpy s (NICH.real mu kappa sigmasq nu) (NICH.mk n m c) =
      .ok ((⟨n, .fin m, .fin c⟩ : NICH.Group XR).sampleValue I.toRng s
        (NICH.real mu kappa sigmasq nu)) := by
    rw [Dbg.NICH.sampleValue, Dbg.NICH.samplerInit_eq I K0 S0 N0 hplus' s hcs, Res.ok_bind]
    have e0 : (⟨n, .fin m, .fin c⟩ : NICH.Group XR) = NICH.mk n m c := rfl
    rw [e0, NICH.Group.sampleValue, hplus]
    simp only [NICH.real, IdealRng.toRng, sampleNormal, XR.fin_mul]
    rw [XR.fin_div _ _ hcs.ne', XR.fin_div _ _ K0.ne', XR.sqrt_fin (by positivity),
      XR.sqrt_fin (by positivity)]
    rfl
  simp only [e1, Res.ok.injEq]

/-- **C68 (Normal-inverse-chi-squared), a group.**  `sample_group(shared, n)` returns `n` numbers
with joint density `exp(score_data)` of the group that holds them. -/
theorem C68_nich_group (I : IdealNumpy σ) (mu kappa sigmasq nu : ℝ) (hk : 0 < kappa)
    (hs : 0 < sigmasq) (hv : 0 < nu) (n : ℕ) {A : Set (Fin n → ℝ)} (hA : MeasurableSet A)
    {B : Set σ} (hB : MeasurableSet B) :
    ∃ f : (Fin n → ℝ) → ℝ,
      (∀ x, ∃ g, ((List.ofFn x).map XR.fin).foldlM Dbg.NICH.addValue
          (Dbg.NICH.init : NICH.Group XR) = .ok g ∧
        Dbg.NICH.scoreData (NICH.real mu kappa sigmasq nu) g = .ok (.fin (f x))) ∧
      I.P {s | ∃ x ∈ A, ∃ s' ∈ B, Dbg.NICH.sampleGroup I.toNumpy s
          (NICH.real mu kappa sigmasq nu) n = .ok (List.ofFn fun i => XR.fin (x i), s')} =
        (∫⁻ x in A, ENNReal.ofReal (Real.exp (f x))) * I.P B := by
  have hscore : ∀ x : Fin n → ℝ, ∃ y, (∃ g, ((List.ofFn x).map XR.fin).foldlM Dbg.NICH.addValue
        (Dbg.NICH.init : NICH.Group XR) = .ok g ∧
        Dbg.NICH.scoreData (NICH.real mu kappa sigmasq nu) g = .ok (.fin y)) ∧
      ENNReal.ofReal (Real.exp y) =
        ∫⁻ c, ∫⁻ y, ∏ i, gaussianPDF y (nu * sigmasq / c).toNNReal (x i)
          ∂gaussianReal mu (nu * sigmasq / c / kappa).toNNReal ∂gammaMeasure (nu / 2) (1 / 2) := by
    intro x
    obtain ⟨y, h1, h2⟩ := nich_density mu hk hs hv x
    have hm : meanOf (List.ofFn x : Multiset ℝ) = (∑ i, x i) / n := by
      simp [meanOf, List.sum_ofFn]
    have hst : NICH.stats (List.ofFn x : Multiset ℝ) =
        NICH.mk n ((∑ i, x i) / n) (∑ i, (x i - (∑ i, x i) / n) ^ 2) := by
      rw [NICH.stats_eq]
      congr 1
      · simp
      · rw [sqDev, hm, Multiset.map_coe, Multiset.sum_coe, List.map_ofFn, List.sum_ofFn]
        rfl
    have hfold := Dbg.NICH.fold_eq (List.ofFn x)
    rw [hst] at hfold
    obtain ⟨r, hr⟩ := C57_nich_score_data_defined mu kappa sigmasq nu ((∑ i, x i) / n)
      (∑ i, (x i - (∑ i, x i) / n) ^ 2) n hk hs hv (by omega) (by positivity)
    have h3 := C57_nich_score_data _ _ _ hr
    rw [NICH.real, NICH.mk, h3] at h1
    refine ⟨y, ⟨_, hfold, ?_⟩, h2⟩
    rw [NICH.real, NICH.mk, hr, h1]
  choose f₀ hf₀ hexp using hscore
  refine ⟨f₀, hf₀, ?_⟩
  simp_rw [hexp]
  rw [← nich_many I.toIdealRng mu hk (mul_pos hv hs) hv n hA hB]
  apply measure_congr
  haveI : IsProbabilityMeasure (gammaMeasure (nu / 2) (1 / 2)) :=
    isProbabilityMeasure_gammaMeasure (by positivity) (by norm_num)
  have hchi : Measurable fun s => I.chisq (nu, s) := I.chisq_meas.comp measurable_prodMk_left
  have hcpos := (I.chisq_law nu hv).ae hchi (p := fun y => 0 < y) (gamma_pos_ae _ _)
  filter_upwards [hcpos] with s hcs
  apply propext
  show (∃ x ∈ A, ∃ s' ∈ B, Dbg.NICH.sampleGroup I.toNumpy s (NICH.real mu kappa sigmasq nu) n = _) ↔
    nichDraws I.toIdealRng mu kappa (nu * sigmasq) nu n s ∈ A ×ˢ B
  have h0 : (Dbg.NICH.init : NICH.Group XR) = NICH.mk 0 0 0 := by
    simp [Dbg.NICH.init, NICH.mk, XR.lit_eq]
  have hplus : Dbg.NICH.plusGroup (NICH.real mu kappa sigmasq nu) (Dbg.NICH.init : NICH.Group XR) =
      .ok (NICH.real mu kappa sigmasq nu) := by
    rw [h0, Dbg.NICH.plus_eq hk hv 0 le_rfl, NICH.plus_eq hk hv 0 le_rfl]
    congr 1
    have e1 : 1 / nu * (nu * sigmasq) = sigmasq := by field_simp
    simp only [Int.cast_zero, add_zero, mul_zero, zero_mul, zero_div,
      mul_div_cancel_left₀ _ hk.ne', e1]
  have hval : Dbg.NICH.sampleGroup I.toNumpy s (NICH.real mu kappa sigmasq nu) n =
      .ok (List.ofFn fun i => XR.fin ((nichDraws I.toIdealRng mu kappa (nu * sigmasq) nu n s).1 i),
        (nichDraws I.toIdealRng mu kappa (nu * sigmasq) nu n s).2) := by
    rw [Dbg.NICH.sampleGroup, Dbg.NICH.samplerInit_eq I hk hs hv hplus s hcs, Res.ok_bind]
    exact drawVec_loop
      (E := fun q : (ℝ × ℝ) × σ => I.normal ((q.1.2, √(nu * sigmasq / q.1.1)), q.2))
      (θ := ((I.chisq (nu, s)).1,
        (I.normal ((mu, √(nu * sigmasq / (I.chisq (nu, s)).1 / kappa)), (I.chisq (nu, s)).2)).1))
      XR.fin (fun s => rfl) n _
  rw [hval]
  simp only [Res.ok.injEq, Prod.mk.injEq, Set.mem_prod]
  constructor
  · rintro ⟨x, hx, s', hs', h1, rfl⟩
    have : (nichDraws I.toIdealRng mu kappa (nu * sigmasq) nu n s).1 = x := by
      funext i
      have := congrFun (List.ofFn_injective h1) i
      exact XR.fin_inj.mp this
    rw [this]; exact ⟨hx, hs'⟩
  · rintro ⟨h1, h2⟩; exact ⟨_, h1, _, h2, rfl, rfl⟩

/-- Non-triviality: a number of the unit interval after the values 1 and 3. -/
example (I : IdealNumpy Supply) : ∃ g, ∃ f : ℝ → ℝ,
    [XR.fin 1, XR.fin 3].foldlM Dbg.NICH.addValue (Dbg.NICH.init : NICH.Group XR) = .ok g ∧
    (∀ x, Dbg.NICH.scoreValue (NICH.real 0 1 1 1) g (.fin x) = .ok (.fin (f x))) ∧
    I.P {s | ∃ x ∈ Set.Icc (0 : ℝ) 1, ∃ s', Dbg.NICH.sampleValue I.toNumpy s (NICH.real 0 1 1 1) g =
      .ok (.fin x, s')} = ∫⁻ x in Set.Icc (0 : ℝ) 1, ENNReal.ofReal (Real.exp (f x)) := by
  haveI := I.prob
  obtain ⟨g, f, h1, h2, h3⟩ := C68_nich_value I 0 1 1 1 one_pos one_pos one_pos [1, 3]
    (measurableSet_Icc (a := (0 : ℝ)) (b := 1)) MeasurableSet.univ
  exact ⟨g, f, h1, h2, by simpa using h3⟩

end Dist
