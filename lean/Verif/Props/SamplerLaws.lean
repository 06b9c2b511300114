import Verif.Lemmas.IdealRng
import Verif.Lemmas.IdealRngExists
import Verif.Lemmas.StudentMixture
import Verif.Props.CountSums
import Verif.Props.Scorers
import Verif.Props.NICH
import Verif.Props.BNB

/-!
# C59: sampled values follow the distribution the scores describe

The primitive draws are assumed to have the laws the C++ standard gives them (`Spec.IdealRng`).
Then the probability that `sample_value` returns `v` and leaves the engine in a set `B` of states is
`exp(score_value v) * P(B)`: the value has the predictive distribution and the remaining stream is
independent of it.
-/

namespace Dist

open Spec FloatOps FloatNotation MeasureTheory ProbabilityTheory

variable {σ : Type} [MeasurableSpace σ]

/-- Mixture of Poisson laws over a gamma law. -/
theorem gamma_poisson {a r : ℝ} (ha : 0 < a) (hr : 0 < r) (v : ℕ) :
    ∫⁻ m, ENNReal.ofReal (Real.exp (-m) * m ^ v / v.factorial) ∂gammaMeasure a r =
      ENNReal.ofReal (negBinomial a (r / (1 + r)) v) := by
  have h1 : ∀ m : ℝ, ENNReal.ofReal (Real.exp (-m) * m ^ v / v.factorial) =
      ENNReal.ofReal ((v.factorial : ℝ)⁻¹) * ENNReal.ofReal (m ^ (v : ℝ) * Real.exp (-(1 * m))) := by
    intro m
    rw [← ENNReal.ofReal_mul (by positivity), Real.rpow_natCast, one_mul]
    congr 1
    ring
  simp_rw [h1]
  rw [lintegral_const_mul _ (by fun_prop), gamma_moment ha hr (by positivity) (by linarith),
    ← ENNReal.ofReal_mul (by positivity), negBinomial]
  congr 1
  have hr1 : 0 < 1 + r := by linarith
  have e : 1 - r / (1 + r) = (1 + r)⁻¹ := by field_simp; ring
  rw [e, Real.div_rpow hr.le hr1.le, add_comm r 1, Real.rpow_neg hr1.le, Real.rpow_add hr1,
    Real.rpow_natCast, inv_pow]
  field_simp

/-- **C59 (Gamma-Poisson).** -/
theorem C59_gp (I : IdealRng σ) (a b : ℝ) (ha : 0 < a) (hb : 0 < b) (g : GP.Group XR) (v : UInt32)
    {B : Set σ} (hB : MeasurableSet B) :
    ∃ x : ℝ, g.scoreValue (GP.real a b) v = .fin x ∧
      I.P {s | ∃ s' ∈ B, g.sampleValue I.toRng s (GP.real a b) = ((v.toNat : ℤ), s')} =
        ENNReal.ofReal (Real.exp x) * I.P B := by
  obtain ⟨hp, -, hs⟩ := C34_gp a b ha hb g v
  refine ⟨_, hs, ?_⟩
  rw [Real.exp_log hp]
  obtain ⟨c, n, l⟩ := g
  simp only at hp hs ⊢
  have h1 : 0 < a + (n.toNat : ℝ) := by positivity
  have h2 : 0 < b + (c.toNat : ℝ) := by positivity
  have hval : ∀ s, GP.Group.sampleValue I.toRng s (GP.real a b) ⟨c, n, l⟩ =
      (((I.poisson (I.gamma ((a + n.toNat, 1 / (b + c.toNat)), s))).1 : ℤ),
        (I.poisson (I.gamma ((a + n.toNat, 1 / (b + c.toNat)), s))).2) := by
    intro s
    simp only [GP.Group.sampleValue, GP.Shared.plusGroup, GP.u32, XR.ofInt_eq, XR.fin_add,
      Int.cast_natCast, XR.lit_eq, GP.real]
    rw [XR.fin_div _ _ h2.ne']
    simp [IdealRng.toRng]
  let f : ℕ × σ → ENNReal := (({v.toNat} : Set ℕ) ×ˢ B).indicator fun _ => 1
  have hf : Measurable f := by
    apply Measurable.indicator measurable_const
    exact (measurableSet_singleton _).prod hB
  have hset : {s | ∃ s' ∈ B, GP.Group.sampleValue I.toRng s (GP.real a b) ⟨c, n, l⟩ =
      ((v.toNat : ℤ), s')} = (fun s => I.poisson (I.gamma ((a + n.toNat, 1 / (b + c.toNat)), s))) ⁻¹'
        (({v.toNat} : Set ℕ) ×ˢ B) := by
    ext s
    simp only [Set.mem_setOf_eq, hval, Prod.mk.injEq, Nat.cast_inj, Set.mem_preimage, Set.mem_prod,
      Set.mem_singleton_iff]
    constructor
    · rintro ⟨s', h, h1, rfl⟩; exact ⟨h1, h⟩
    · rintro ⟨h1, h⟩; exact ⟨_, h, h1, rfl⟩
  have hmeas : Measurable fun s => I.poisson (I.gamma ((a + n.toNat, 1 / (b + c.toNat)), s)) :=
    I.poisson_meas.comp (I.gamma_meas.comp measurable_prodMk_left)
  rw [hset, ← lintegral_indicator_one (hmeas ((measurableSet_singleton _).prod hB))]
  have e1 : ∀ s, ((fun s => I.poisson (I.gamma ((a + n.toNat, 1 / (b + c.toNat)), s))) ⁻¹'
      (({v.toNat} : Set ℕ) ×ˢ B)).indicator (1 : σ → ENNReal) s =
      f (I.poisson (I.gamma ((a + n.toNat, 1 / (b + c.toNat)), s))) := fun s => rfl
  simp_rw [e1]
  rw [I.gamma_lintegral (f := fun q => f (I.poisson q)) h1 (by positivity)
    (hf.comp I.poisson_meas)]
  have e2 : ∀ᵐ m ∂gammaMeasure (a + n.toNat) (1 / (1 / (b + c.toNat))),
      ∫⁻ s, f (I.poisson (m, s)) ∂I.P =
        ENNReal.ofReal (Real.exp (-m) * m ^ v.toNat / v.toNat.factorial) * I.P B := by
    filter_upwards [gamma_pos_ae _ _] with m hm
    rw [I.poisson_lintegral hm hf]
    simp_rw [f, lintegral_indicator_prod I.P _ hB]
    rw [lintegral_indicator (measurableSet_singleton _)]
    simp only [lintegral_const, Measure.restrict_apply MeasurableSet.univ, Set.univ_inter,
      poissonMeasure_singleton, Real.coe_toNNReal _ hm.le]
    rw [mul_comm]
  rw [lintegral_congr_ae e2, lintegral_mul_const _ (by fun_prop), one_div_one_div,
    gamma_poisson h1 h2]

/-- Non-triviality: an ideal source exists, and with it an empty group with shape and inverse scale
1 samples 0 with probability 1/2. -/
example : ∃ I : IdealRng Supply, I.P {s | ∃ s', GP.Group.sampleValue I.toRng s (GP.real 1 1)
    ⟨0, 0, .fin 0⟩ = (0, s')} = ENNReal.ofReal (1 / 2) := by
  obtain ⟨I⟩ := idealRng_exists
  refine ⟨I, ?_⟩
  obtain ⟨x, hx, h⟩ := C59_gp I 1 1 one_pos one_pos ⟨0, 0, .fin 0⟩ 0 MeasurableSet.univ
  obtain ⟨hp, -, h2⟩ := C34_gp 1 1 one_pos one_pos ⟨0, 0, .fin 0⟩ 0
  rw [hx] at h2
  have h3 : Real.exp x = 1 / 2 := by
    rw [XR.fin_inj.mp h2, Real.exp_log hp]
    simp [negBinomial]
    norm_num
  rw [h3] at h
  simpa using h

/-- **C59 (normal-inverse-chi-square).** The value sampled has the density `exp(score_value)`. -/
theorem C59_nich (I : IdealRng σ) (mu kappa sigmasq nu : ℝ) (hk : 0 < kappa) (hs : 0 < sigmasq)
    (hv : 0 < nu) (n : Int) (hn : 0 ≤ n) (m c : ℝ) (hc : 0 ≤ c) {A : Set ℝ} (hA : MeasurableSet A)
    {B : Set σ} (hB : MeasurableSet B) :
    ∃ f : ℝ → ℝ, (∀ x, (⟨n, .fin m, .fin c⟩ : NICH.Group XR).scoreValue
        (NICH.real mu kappa sigmasq nu) (.fin x) = .fin (f x)) ∧
      I.P {s | ∃ x ∈ A, ∃ s' ∈ B, (⟨n, .fin m, .fin c⟩ : NICH.Group XR).sampleValue I.toRng s
          (NICH.real mu kappa sigmasq nu) = (.fin x, s')} =
        (∫⁻ x in A, ENNReal.ofReal (Real.exp (f x))) * I.P B := by
  have hn0 : (0 : ℝ) ≤ n := by exact_mod_cast hn
  refine ⟨_, fun x => (C34_nich mu kappa sigmasq nu hk hs hv n hn m c x hc).2.2, ?_⟩
  have hpos := fun x => (C34_nich mu kappa sigmasq nu hk hs hv n hn m c x hc).1
  simp_rw [Real.exp_log (hpos _)]
  -- the posterior parameters
  have hplus := NICH.plus_eq (mu := mu) (ka := kappa) (si := sigmasq) (nu := nu) hk hv n hn m c
  set M := (kappa * mu + m * n) / (kappa + n) with hM
  set K := kappa + (n : ℝ) with hK
  set N := nu + (n : ℝ) with hN
  set S := 1 / N * (nu * sigmasq + c + (n * kappa * (mu - m) * (mu - m)) / K) with hS
  have K0 : 0 < K := by positivity
  have N0 : 0 < N := by positivity
  have S0 : 0 < S := by
    have : n * kappa * (mu - m) * (mu - m) / K = n * kappa * (mu - m) ^ 2 / K := by ring
    rw [hS, this]; positivity
  -- the draws as real numbers
  let D : σ → ℝ × σ := fun s =>
    I.normal (((I.normal ((M, √(N * S / (I.chisq (N, s)).1 / K)), (I.chisq (N, s)).2)).1,
      √(N * S / (I.chisq (N, s)).1)),
      (I.normal ((M, √(N * S / (I.chisq (N, s)).1 / K)), (I.chisq (N, s)).2)).2)
  let E : ℝ × σ → ℝ × σ := fun q =>
    I.normal (((I.normal ((M, √(N * S / q.1 / K)), q.2)).1, √(N * S / q.1)),
      (I.normal ((M, √(N * S / q.1 / K)), q.2)).2)
  have hchi : Measurable fun s => I.chisq (N, s) := I.chisq_meas.comp measurable_prodMk_left
  have hnorm := I.normal_meas
  have hE : Measurable E := by
    have h1 : Measurable fun q : ℝ × σ => I.normal ((M, √(N * S / q.1 / K)), q.2) :=
      hnorm.comp (by fun_prop)
    exact hnorm.comp (by fun_prop)
  have hD : Measurable D := hE.comp hchi
  haveI : IsProbabilityMeasure (gammaMeasure (N / 2) (1 / 2)) :=
    isProbabilityMeasure_gammaMeasure (by positivity) (by norm_num)
  have hval : ∀ᵐ s ∂I.P, (⟨n, .fin m, .fin c⟩ : NICH.Group XR).sampleValue I.toRng s
      (NICH.real mu kappa sigmasq nu) = (.fin (D s).1, (D s).2) := by
    have hcpos := (I.chisq_law N N0).ae hchi (p := fun y => 0 < y) (gamma_pos_ae _ _)
    filter_upwards [hcpos] with s hcs
    have e0 : (⟨n, .fin m, .fin c⟩ : NICH.Group XR) = NICH.mk n m c := rfl
    rw [e0, NICH.Group.sampleValue, hplus]
    simp only [NICH.real, IdealRng.toRng, sampleNormal, XR.fin_mul]
    rw [XR.fin_div _ _ hcs.ne', XR.fin_div _ _ K0.ne', XR.sqrt_fin (by positivity),
      XR.sqrt_fin (by positivity)]
  have hset : I.P {s | ∃ x ∈ A, ∃ s' ∈ B, (⟨n, .fin m, .fin c⟩ : NICH.Group XR).sampleValue I.toRng
      s (NICH.real mu kappa sigmasq nu) = (.fin x, s')} = I.P (D ⁻¹' (A ×ˢ B)) := by
    apply measure_congr
    filter_upwards [hval] with s hs
    apply propext
    show (∃ x ∈ A, ∃ s' ∈ B, _) ↔ D s ∈ A ×ˢ B
    rw [hs]
    simp only [Prod.mk.injEq, XR.fin_inj, Set.mem_prod]
    constructor
    · rintro ⟨x, hx, s', hs', rfl, rfl⟩; exact ⟨hx, hs'⟩
    · rintro ⟨h1, h2⟩; exact ⟨_, h1, _, h2, rfl, rfl⟩
  rw [hset]
  let f : ℝ × σ → ENNReal := (A ×ˢ B).indicator fun _ => 1
  have hf : Measurable f := Measurable.indicator measurable_const (hA.prod hB)
  rw [← lintegral_indicator_one (hD (hA.prod hB))]
  have e1 : ∀ s, (D ⁻¹' (A ×ˢ B)).indicator (1 : σ → ENNReal) s = f (E (I.chisq (N, s))) :=
    fun s => rfl
  simp_rw [e1]
  rw [I.chisq_lintegral (f := fun q => f (E q)) N0 (hf.comp hE)]
  have e2 : ∀ᵐ y ∂gammaMeasure (N / 2) (1 / 2), ∫⁻ s, f (E (y, s)) ∂I.P =
      gaussianReal M (N * S * (1 / K + 1) / y).toNNReal A * I.P B := by
    filter_upwards [gamma_pos_ae _ _] with y hy
    have hsig : 0 < N * S / y := by positivity
    have h1 : 0 < √(N * S / y / K) := by positivity
    have h2 : 0 < √(N * S / y) := by positivity
    have hm2 : Measurable fun q : ℝ × σ => f (I.normal ((q.1, √(N * S / y)), q.2)) :=
      hf.comp (hnorm.comp (by fun_prop))
    have := I.normal_lintegral M h1 hm2
    show ∫⁻ s, f (I.normal (((I.normal ((M, √(N * S / y / K)), s)).1, √(N * S / y)),
      (I.normal ((M, √(N * S / y / K)), s)).2)) ∂I.P = _
    rw [this]
    have e3 : ∀ z, ∫⁻ s, f (I.normal ((z, √(N * S / y)), s)) ∂I.P =
        gaussianReal z (N * S / y).toNNReal A * I.P B := by
      intro z
      rw [I.normal_lintegral z h2 hf]
      simp_rw [f, lintegral_indicator_prod I.P _ hB]
      rw [lintegral_indicator hA, Real.sq_sqrt hsig.le]
      simp only [lintegral_const, Measure.restrict_apply MeasurableSet.univ, Set.univ_inter]
      rw [mul_comm]
    simp_rw [e3]
    rw [lintegral_mul_const', Real.sq_sqrt (by positivity), gaussian_mix _ _ _ hA,
      ← Real.toNNReal_add (by positivity) (by positivity)]
    · congr 4
      field_simp
    · exact measure_ne_top _ _
  rw [lintegral_congr_ae e2, lintegral_mul_const', student_mix N0 (by positivity) M hA]
  swap
  · exact measure_ne_top _ _
  congr 1
  apply lintegral_congr
  intro x
  congr 2
  · rw [hM, mul_comm m]
  · rw [hS]
    field_simp
    ring

/-- Non-triviality: the empty group with prior 0, 1, 1, 1 samples a number of an interval
of positive length with positive probability. -/
example : ∃ I : IdealRng Supply, 0 < I.P {s | ∃ x ∈ Set.Icc (0 : ℝ) 1, ∃ s',
    NICH.Group.sampleValue I.toRng s (NICH.real 0 1 1 1) ⟨0, .fin 0, .fin 0⟩ = (.fin x, s')} := by
  obtain ⟨I⟩ := idealRng_exists
  refine ⟨I, ?_⟩
  obtain ⟨f, hf, h⟩ := C59_nich I 0 1 1 1 one_pos one_pos one_pos 0 le_rfl 0 0 le_rfl
    (measurableSet_Icc (a := (0 : ℝ)) (b := 1)) MeasurableSet.univ
  have h2 : {s | ∃ x ∈ Set.Icc (0 : ℝ) 1, ∃ s',
      NICH.Group.sampleValue I.toRng s (NICH.real 0 1 1 1) ⟨0, .fin 0, .fin 0⟩ = (.fin x, s')} =
      {s | ∃ x ∈ Set.Icc (0 : ℝ) 1, ∃ s' ∈ Set.univ,
      NICH.Group.sampleValue I.toRng s (NICH.real 0 1 1 1) ⟨0, .fin 0, .fin 0⟩ = (.fin x, s')} := by
    simp
  rw [h2, h, measure_univ, mul_one, pos_iff_ne_zero, Ne]
  intro h0
  have hm : Measurable fun x : ℝ => ENNReal.ofReal (Real.exp (f x)) := by
    have e : f = fun x => Real.log (studentT (1 + (0 : ℤ)) ((1 * 0 + (0 : ℤ) * 0) / (1 + (0 : ℤ)))
      ((1 * 1 + 0 + (0 : ℤ) * 1 * (0 - 0) ^ 2 / (1 + (0 : ℤ))) / (1 + (0 : ℤ)) *
        ((1 + (0 : ℤ) + 1) / (1 + (0 : ℤ)))) x) := by
      funext x
      have := (C34_nich 0 1 1 1 one_pos one_pos one_pos 0 le_rfl 0 0 x le_rfl).2.2
      exact XR.fin_inj.mp ((hf x).symm.trans this)
    rw [e]
    unfold studentT
    fun_prop
  rw [lintegral_eq_zero_iff hm] at h0
  have h3 : ∀ᵐ x ∂(volume.restrict (Set.Icc (0 : ℝ) 1)), False := by
    filter_upwards [h0] with x hx
    have := Real.exp_pos (f x)
    simp only [Pi.zero_apply, ENNReal.ofReal_eq_zero] at hx
    linarith
  rw [ae_iff] at h3
  simp at h3

end Dist
