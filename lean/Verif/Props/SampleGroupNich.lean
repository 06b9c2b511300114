import Verif.Lemmas.NichMany
import Verif.Props.SampleGroup
import Verif.Props.NICH

/-!
# C62: `sample_group` of the normal-inverse-chi-squared model
-/

namespace Dist

open Spec FloatOps FloatNotation MeasureTheory ProbabilityTheory

variable {σ : Type} [MeasurableSpace σ]

/-- The mixture density of the numbers is `exp(score_data)` of the group that holds them. -/
theorem nich_density (mu : ℝ) {kappa sigmasq nu : ℝ} (hk : 0 < kappa) (hs : 0 < sigmasq)
    (hv : 0 < nu) {n : ℕ} (x : Fin n → ℝ) :
    ∃ y, (NICH.mk n ((∑ i, x i) / n) (∑ i, (x i - (∑ i, x i) / n) ^ 2)).scoreData
        (NICH.real mu kappa sigmasq nu) = .fin y ∧
      ENNReal.ofReal (Real.exp y) =
        ∫⁻ c, ∫⁻ y, ∏ i, gaussianPDF y (nu * sigmasq / c).toNNReal (x i)
          ∂gaussianReal mu (nu * sigmasq / c / kappa).toNNReal ∂gammaMeasure (nu / 2) (1 / 2) := by
  let w := nu * sigmasq
  have hw : 0 < w := mul_pos hv hs
  refine ⟨_, NICH.scoreData_eq hk hs hv n (by omega) _ _ (by positivity), ?_⟩
  show _ = ∫⁻ c, ∫⁻ y, ∏ i, gaussianPDF y (w / c).toNNReal (x i)
    ∂gaussianReal mu (w / c / kappa).toNNReal ∂gammaMeasure (nu / 2) (1 / 2)
  rw [nich_marginal hk hw hv x _ _ rfl rfl]
  congr 1
  have hS := NICH.scale_pos (mu := mu) hk hs hv n (by omega) ((∑ i, x i) / n)
    (∑ i, (x i - (∑ i, x i) / n) ^ 2) (by positivity)
  rw [Int.cast_natCast, NICH.scale, Int.cast_natCast] at *
  have hkn : 0 < kappa + (n : ℝ) := by positivity
  have g1 : 0 < Real.Gamma (1 / 2 * nu) := Real.Gamma_pos_of_pos (by positivity)
  have g2 : 0 < Real.Gamma (1 / 2 * (nu + n)) := Real.Gamma_pos_of_pos (by positivity)
  rw [Real.exp_sub, Real.exp_add, Real.exp_add, Real.exp_sub, Real.exp_log g1, Real.exp_log g2,
    Real.exp_sub _ (1 / 2 * (nu + n) * _), mul_comm (1 / 2 * nu) (Real.log _),
    mul_comm (1 / 2 * (nu + (n : ℝ))) (Real.log _), mul_comm (1 / 2 * (n : ℝ)) (Real.log _),
    ← Real.rpow_def_of_pos hw, ← Real.rpow_def_of_pos hS, ← Real.rpow_def_of_pos Real.pi_pos,
    ← Real.log_div hk.ne' hkn.ne', mul_comm (1 / 2 : ℝ) (Real.log _),
    ← Real.rpow_def_of_pos (by positivity), ← Real.sqrt_eq_rpow, Real.rpow_neg hS.le,
    Real.rpow_neg Real.pi_pos.le]
  field_simp

/-- **C62 (Normal-inverse-chi-squared).**  `sample_group(shared, n)` returns `n` numbers with joint
density `exp(score_data)` of the group that holds them. -/
theorem C62_nich (I : IdealRng σ) (mu kappa sigmasq nu : ℝ) (hk : 0 < kappa) (hs : 0 < sigmasq)
    (hv : 0 < nu) (n : ℕ) (hn : n ≤ 2147483647) {A : Set (Fin n → ℝ)} (hA : MeasurableSet A)
    {B : Set σ} (hB : MeasurableSet B) :
    ∃ f : (Fin n → ℝ) → ℝ,
      (∀ x, ∃ g, addAll NICH.opsReal NICH.Group.init (List.ofFn x) = .ok g ∧
        g.scoreData (NICH.real mu kappa sigmasq nu) = .fin (f x)) ∧
      I.P {s | ∃ x ∈ A, ∃ s' ∈ B, NICH.sampleGroup I.toRng s (NICH.real mu kappa sigmasq nu) n =
          .ok (List.ofFn fun i => XR.fin (x i), s')} =
        (∫⁻ x in A, ENNReal.ofReal (Real.exp (f x))) * I.P B := by
  have hadd : ∀ x : Fin n → ℝ, ∃ g, addAll NICH.opsReal NICH.Group.init (List.ofFn x) = .ok g ∧
      g = NICH.mk n ((∑ i, x i) / n) (∑ i, (x i - (∑ i, x i) / n) ^ 2) := by
    intro x
    obtain ⟨g, hg, rfl, -⟩ := addAll_summarises NICH.summarises (List.ofFn x) (by simpa using hn)
    refine ⟨_, hg, ?_⟩
    have hm : meanOf (List.ofFn x : Multiset ℝ) = (∑ i, x i) / n := by
      simp [meanOf, List.sum_ofFn]
    rw [NICH.stats_eq]
    congr 1
    · simp
    · rw [sqDev, hm, Multiset.map_coe, Multiset.sum_coe, List.map_ofFn, List.sum_ofFn]
      rfl
  have hscore : ∀ x : Fin n → ℝ, ∃ y, (∃ g, addAll NICH.opsReal NICH.Group.init (List.ofFn x) =
      .ok g ∧ g.scoreData (NICH.real mu kappa sigmasq nu) = .fin y) ∧
      ENNReal.ofReal (Real.exp y) =
        ∫⁻ c, ∫⁻ y, ∏ i, gaussianPDF y (nu * sigmasq / c).toNNReal (x i)
          ∂gaussianReal mu (nu * sigmasq / c / kappa).toNNReal ∂gammaMeasure (nu / 2) (1 / 2) := by
    intro x
    obtain ⟨g, hg, rfl⟩ := hadd x
    obtain ⟨y, h1, h2⟩ := nich_density mu hk hs hv x
    exact ⟨y, ⟨_, hg, h1⟩, h2⟩
  choose f₀ hf₀ hexp using hscore
  refine ⟨f₀, hf₀, ?_⟩
  simp_rw [hexp]
  rw [← nich_many I mu hk (mul_pos hv hs) hv n hA hB]
  apply measure_congr
  haveI : IsProbabilityMeasure (gammaMeasure (nu / 2) (1 / 2)) :=
    isProbabilityMeasure_gammaMeasure (by positivity) (by norm_num)
  have hchi : Measurable fun s => I.chisq (nu, s) := I.chisq_meas.comp measurable_prodMk_left
  have hcpos := (I.chisq_law nu hv).ae hchi (p := fun y => 0 < y) (gamma_pos_ae _ _)
  filter_upwards [hcpos] with s hcs
  apply propext
  show (∃ x ∈ A, ∃ s' ∈ B, NICH.sampleGroup I.toRng s (NICH.real mu kappa sigmasq nu) n = _) ↔
    nichDraws I mu kappa (nu * sigmasq) nu n s ∈ A ×ˢ B
  have hval : NICH.sampleGroup I.toRng s (NICH.real mu kappa sigmasq nu) n =
      .ok (List.ofFn fun i => XR.fin ((nichDraws I mu kappa (nu * sigmasq) nu n s).1 i),
        (nichDraws I mu kappa (nu * sigmasq) nu n s).2) := by
    have hz : (⟨0, ofInt 0, ofInt 0⟩ : NICH.Group XR) = NICH.mk 0 0 0 := by
      simp [NICH.mk, XR.ofInt_eq]
    rw [NICH.sampleGroup, sampleGroup_size hn, Res.ok_bind, hz,
      NICH.plus_eq hk hv 0 le_rfl 0 0]
    simp only [NICH.real, IdealRng.toRng, sampleNormal, XR.fin_mul, Int.cast_zero, add_zero,
      mul_zero, zero_mul, zero_div, mul_div_cancel_left₀ _ hk.ne']
    have e1 : nu * (1 / nu * (nu * sigmasq)) = nu * sigmasq := by field_simp
    rw [e1, XR.fin_div _ _ hcs.ne', XR.fin_div _ _ hk.ne', XR.sqrt_fin (by positivity),
      XR.sqrt_fin (by positivity)]
    exact drawVec_loop
      (E := fun q : (ℝ × ℝ) × σ => I.normal ((q.1.2, √(nu * sigmasq / q.1.1)), q.2))
      (θ := ((I.chisq (nu, s)).1,
        (I.normal ((mu, √(nu * sigmasq / (I.chisq (nu, s)).1 / kappa)), (I.chisq (nu, s)).2)).1))
      XR.fin (fun s => rfl) n _
  rw [hval]
  simp only [Res.ok.injEq, Prod.mk.injEq, Set.mem_prod]
  constructor
  · rintro ⟨x, hx, s', hs', h1, rfl⟩
    have : (nichDraws I mu kappa (nu * sigmasq) nu n s).1 = x := by
      funext i
      have := congrFun (List.ofFn_injective h1) i
      exact XR.fin_inj.mp this
    rw [this]; exact ⟨hx, hs'⟩
  · rintro ⟨h1, h2⟩; exact ⟨_, h1, _, h2, rfl, rfl⟩

/-- Non-triviality: two numbers of the unit interval. -/
example (I : IdealRng Supply) : ∃ f : (Fin 2 → ℝ) → ℝ,
    (∀ x, ∃ g, addAll NICH.opsReal NICH.Group.init [x 0, x 1] = .ok g ∧
      g.scoreData (NICH.real 0 1 1 1) = .fin (f x)) ∧
    I.P {s | ∃ x ∈ Set.pi Set.univ fun _ : Fin 2 => Set.Icc (0 : ℝ) 1, ∃ s',
      NICH.sampleGroup I.toRng s (NICH.real 0 1 1 1) 2 = .ok ([.fin (x 0), .fin (x 1)], s')} =
      ∫⁻ x in Set.pi Set.univ fun _ : Fin 2 => Set.Icc (0 : ℝ) 1, ENNReal.ofReal (Real.exp (f x)) := by
  have hA : MeasurableSet (Set.pi Set.univ fun _ : Fin 2 => Set.Icc (0 : ℝ) 1) :=
    MeasurableSet.univ_pi fun _ => measurableSet_Icc
  obtain ⟨f, hf, h⟩ := C62_nich I 0 1 1 1 one_pos one_pos one_pos 2 (by norm_num) hA
    MeasurableSet.univ
  refine ⟨f, fun x => by simpa [List.ofFn_succ] using hf x, ?_⟩
  simpa [List.ofFn_succ] using h

end Dist
