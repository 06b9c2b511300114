import Mathlib.Probability.Kernel.Representation
import Mathlib.Probability.ProductMeasure
import Mathlib.Analysis.SpecificLimits.Normed
import Mathlib.Analysis.SpecialFunctions.Gamma.Deriv
import Verif.Spec.IdealRng

/-! # An ideal source of randomness exists -/

namespace Dist

open MeasureTheory ProbabilityTheory Spec unitInterval

/-- Engine states: an unlimited supply of numbers between 0 and 1. -/
abbrev Supply : Type := ℕ → I

/-- Independent uniform numbers. -/
noncomputable def Supply.P : Measure Supply := Measure.infinitePi fun _ => (volume : Measure I)

instance : IsProbabilityMeasure Supply.P := by unfold Supply.P; infer_instance

def Supply.tail (s : Supply) : Supply := fun n => s (n + 1)

theorem Supply.tail_meas : Measurable Supply.tail :=
  measurable_pi_iff.mpr fun n => measurable_pi_apply (n + 1)

/-- The first number is independent of the others, which are again independent and uniform. -/
theorem Supply.split : Supply.P.map (fun s => (s 0, s.tail)) = (volume : Measure I).prod Supply.P := by
  let c : I × Supply → Supply := fun q n => Nat.casesOn n q.1 q.2
  have hc : Measurable c := by
    refine measurable_pi_iff.mpr fun n => ?_
    cases n with
    | zero => exact measurable_fst
    | succ n => exact (measurable_pi_apply n).comp measurable_snd
  have hd : Measurable fun s : Supply => (s 0, s.tail) :=
    (measurable_pi_apply 0).prodMk Supply.tail_meas
  have key : ((volume : Measure I).prod Supply.P).map c = Supply.P := by
    apply Measure.eq_infinitePi
    intro s t ht
    have hs : MeasurableSet (Set.pi (s : Set ℕ) t) :=
      MeasurableSet.pi s.countable_toSet fun i _ => ht i
    rw [Measure.map_apply hc hs]
    let s' : Finset ℕ := s.preimage Nat.succ (Nat.succ_injective.injOn)
    have e : c ⁻¹' (Set.pi (s : Set ℕ) t) =
        (if 0 ∈ s then t 0 else Set.univ) ×ˢ Set.pi (s' : Set ℕ) fun n => t (n + 1) := by
      ext ⟨x, y⟩
      simp only [Set.mem_preimage, Set.mem_pi, Set.mem_prod, Finset.mem_coe]
      constructor
      · intro h
        refine ⟨?_, fun n hn => h (n + 1) (by simpa [s'] using hn)⟩
        split_ifs with h0
        · exact h 0 h0
        · trivial
      · rintro ⟨h1, h2⟩ i hi
        cases i with
        | zero => rw [if_pos hi] at h1; exact h1
        | succ n => exact h2 n (by simpa [s'] using hi)
    rw [e, Measure.prod_prod, Supply.P, Measure.infinitePi_pi _ (fun i _ => ht (i + 1))]
    have hprod : ∏ i ∈ s', (volume : Measure I) (t (i + 1)) =
        ∏ i ∈ s.erase 0, (volume : Measure I) (t i) := by
      refine Finset.prod_bij (fun i _ => i + 1) ?_ ?_ ?_ ?_
      · intro i hi
        simp only [s', Finset.mem_preimage] at hi
        exact Finset.mem_erase.mpr ⟨by omega, hi⟩
      · intro i _ j _ h; omega
      · intro j hj
        obtain ⟨h0, h1⟩ := Finset.mem_erase.mp hj
        obtain ⟨k, rfl⟩ := Nat.exists_eq_succ_of_ne_zero h0
        exact ⟨k, by simpa [s'] using h1, rfl⟩
      · intro i _; rfl
    rw [hprod]
    split_ifs with h0
    · exact Finset.mul_prod_erase s (fun i => (volume : Measure I) (t i)) h0
    · rw [Finset.erase_eq_of_notMem h0]; simp
  conv_lhs => rw [← key]
  rw [Measure.map_map hd hc]
  have : (fun s : Supply => (s 0, s.tail)) ∘ c = id := by
    funext q; rfl
  rw [this, Measure.map_id]

/-- A draw that uses the first number. -/
theorem Supply.law {Y : Type} [MeasurableSpace Y] {f : I → Y} (hf : Measurable f) :
    Spec.HasLaw Supply.P (fun s => (f (s 0), s.tail)) ((volume : Measure I).map f) := by
  have hd : Measurable fun s : Supply => (s 0, s.tail) :=
    (measurable_pi_apply 0).prodMk Supply.tail_meas
  have e : (fun s : Supply => (f (s 0), s.tail)) = Prod.map f id ∘ fun s => (s 0, s.tail) := rfl
  rw [Spec.HasLaw, e, ← Measure.map_map (hf.prodMap measurable_id) hd, Supply.split,
    ← Measure.map_prod_map _ _ hf measurable_id, Measure.map_id]

/-- The laws of the standard distributions depend measurably on their parameters. -/
theorem measurable_natMeasure {X : Type} [MeasurableSpace X] {m : X → Measure ℕ}
    (h : ∀ n, Measurable fun x => m x {n}) : Measurable m := by
  refine Measure.measurable_of_measurable_coe _ fun s hs => ?_
  have : ∀ x, m x s = ∑' n, s.indicator (fun n => m x {n}) n := fun x =>
    (Measure.tsum_indicator_apply_singleton (m x) s hs).symm
  simp_rw [this]
  refine Measurable.ennreal_tsum fun n => ?_
  by_cases hn : n ∈ s
  · simpa [hn] using h n
  · simp [hn]

noncomputable def gammaK : Kernel (ℝ × ℝ) ℝ where
  toFun q := if 0 < q.1 ∧ 0 < q.2 then gammaMeasure q.1 (1 / q.2) else Measure.dirac 0
  measurable' := by
    let G : ℝ → ℝ := fun x => if 0 < x then Real.Gamma x else 1
    have hG : Measurable G := by
      have hc : ContinuousOn Real.Gamma (Set.Ioi 0) := by
        intro x hx
        refine (Real.differentiableAt_Gamma fun m => ?_).continuousAt.continuousWithinAt
        have : (0 : ℝ) < x := hx
        have : (0 : ℝ) ≤ m := Nat.cast_nonneg m
        intro h; linarith
      have := ContinuousOn.measurable_piecewise (s := Set.Ioi (0 : ℝ)) hc
        (continuousOn_const (c := (1 : ℝ))) measurableSet_Ioi
      have e : G = (Set.Ioi 0).piecewise Real.Gamma fun _ => 1 := by
        funext x
        by_cases hx : 0 < x
        · have hx' : x ∈ Set.Ioi (0 : ℝ) := hx
          rw [Set.piecewise_eq_of_mem _ _ _ hx']; exact if_pos hx
        · have hx' : x ∉ Set.Ioi (0 : ℝ) := hx
          rw [Set.piecewise_eq_of_notMem _ _ _ hx']; exact if_neg hx
      rw [e]; exact this
    let g : (ℝ × ℝ) × ℝ → ENNReal := fun q => ENNReal.ofReal
      (if 0 ≤ q.2 then (1 / q.1.2) ^ q.1.1 / G q.1.1 * q.2 ^ (q.1.1 - 1) *
        Real.exp (-(1 / q.1.2 * q.2)) else 0)
    have hg : Measurable g := by
      refine Measurable.ennreal_ofReal ?_
      refine Measurable.ite (measurableSet_le measurable_const measurable_snd) ?_ measurable_const
      have h1 : Measurable fun q : (ℝ × ℝ) × ℝ => G q.1.1 :=
        hG.comp (measurable_fst.comp measurable_fst)
      fun_prop
    have e : (fun q : ℝ × ℝ => if 0 < q.1 ∧ 0 < q.2 then gammaMeasure q.1 (1 / q.2)
        else Measure.dirac 0) = fun q : ℝ × ℝ => if 0 < q.1 ∧ 0 < q.2 then
          volume.withDensity (fun y => g (q, y)) else Measure.dirac 0 := by
      funext q
      split_ifs with h
      · rw [gammaMeasure]
        congr 1
        funext y
        simp only [gammaPDF, gammaPDFReal, g, G, if_pos h.1]
      · rfl
    rw [e]
    refine Measurable.ite ?_ ?_ measurable_const
    · exact (measurableSet_lt measurable_const measurable_fst).inter
        (measurableSet_lt measurable_const measurable_snd)
    · refine Measure.measurable_of_measurable_coe _ fun s hs => ?_
      simp_rw [withDensity_apply _ hs]
      exact hg.lintegral_prod_right'

instance : IsMarkovKernel gammaK := ⟨fun q => by
  show IsProbabilityMeasure (if 0 < q.1 ∧ 0 < q.2 then gammaMeasure q.1 (1 / q.2) else _)
  split_ifs with h
  · exact isProbabilityMeasure_gammaMeasure h.1 (by have := h.2; positivity)
  · infer_instance⟩

noncomputable def poissonK : Kernel ℝ ℕ where
  toFun m := if 0 < m then poissonMeasure m.toNNReal else Measure.dirac 0
  measurable' := by
    refine Measurable.ite (measurableSet_lt measurable_const measurable_id) ?_ measurable_const
    refine measurable_natMeasure fun n => ?_
    simp_rw [poissonMeasure_singleton]
    fun_prop

instance : IsMarkovKernel poissonK := ⟨fun m => by
  show IsProbabilityMeasure (if 0 < m then poissonMeasure m.toNNReal else _)
  split_ifs <;> infer_instance⟩

theorem negBinomialMeasure_singleton (r : ℕ) (p : ℝ) (n : ℕ) :
    negBinomialMeasure r p {n} =
      ENNReal.ofReal ((r + n - 1).choose n * p ^ r * (1 - p) ^ n) := by
  rw [negBinomialMeasure, Measure.sum_apply _ (measurableSet_singleton _), tsum_eq_single n]
  · simp
  · intro j hj
    simp [hj]

theorem negBinomialMeasure_prob {r : ℕ} {p : ℝ} (hr : 0 < r) (h0 : 0 < p) (h1 : p < 1) :
    IsProbabilityMeasure (negBinomialMeasure r p) := by
  obtain ⟨k, rfl⟩ : ∃ k, r = k + 1 := ⟨r - 1, by omega⟩
  have hq : ‖1 - p‖ < 1 := by rw [Real.norm_eq_abs, abs_lt]; constructor <;> linarith
  have hs := hasSum_choose_mul_geometric_of_norm_lt_one k hq
  have e : ∀ n : ℕ, ((k + 1 + n - 1).choose n : ℝ) * p ^ (k + 1) * (1 - p) ^ n =
      p ^ (k + 1) * (((n + k).choose k : ℝ) * (1 - p) ^ n) := by
    intro n
    have : (k + 1 + n - 1).choose n = (n + k).choose k := by
      rw [show k + 1 + n - 1 = n + k by omega]
      exact (Nat.choose_symm_add).trans rfl
    rw [this]; ring
  constructor
  rw [negBinomialMeasure, Measure.sum_apply _ MeasurableSet.univ]
  simp only [Measure.smul_apply, measure_univ, smul_eq_mul, mul_one]
  simp_rw [e]
  have hs2 := hs.mul_left (p ^ (k + 1))
  rw [← ENNReal.ofReal_tsum_of_nonneg _ hs2.summable, hs2.tsum_eq]
  · have : 1 - (1 - p) = p := by ring
    rw [this, mul_one_div, div_self (by positivity), ENNReal.ofReal_one]
  · intro n
    have : 0 ≤ 1 - p := by linarith
    positivity

noncomputable def negBinomialK (r : ℕ) : Kernel ℝ ℕ where
  toFun p := if 0 < r ∧ 0 < p ∧ p < 1 then negBinomialMeasure r p else Measure.dirac 0
  measurable' := by
    refine Measurable.ite ?_ ?_ measurable_const
    · by_cases h : 0 < r
      · simp only [h, true_and]
        exact measurableSet_Ioo
      · simp [h]
    · refine measurable_natMeasure fun n => ?_
      simp_rw [negBinomialMeasure_singleton]
      fun_prop

instance (r : ℕ) : IsMarkovKernel (negBinomialK r) := ⟨fun p => by
  show IsProbabilityMeasure (if 0 < r ∧ 0 < p ∧ p < 1 then negBinomialMeasure r p else _)
  split_ifs with h
  · exact negBinomialMeasure_prob h.1 h.2.1 h.2.2
  · infer_instance⟩

theorem uniform_law : (volume : Measure I).map (Subtype.val : I → ℝ) =
    volume.restrict (Set.Ico 0 1) := by
  have h : (volume : Measure I) = Measure.comap Subtype.val volume := rfl
  rw [h, map_comap_subtype_coe measurableSet_Icc]
  exact Measure.restrict_congr_set Ico_ae_eq_Icc.symm

/-- There is an ideal source that uses up one number for every draw. -/
theorem idealRng_supply : ∃ R : IdealRng Supply, R.P = Supply.P := by
  obtain ⟨fg, hfg, lg⟩ := Kernel.exists_measurable_map_eq_unitInterval gammaK
  obtain ⟨fp, hfp, lp⟩ := Kernel.exists_measurable_map_eq_unitInterval poissonK
  choose fb hfb lb using fun r => Kernel.exists_measurable_map_eq_unitInterval (negBinomialK r)
  obtain ⟨fn, hfn, ln⟩ := Measure.exists_measurable_map_eq (gaussianReal 0 1)
  have h0 : Measurable fun s : Supply => s 0 := measurable_pi_apply 0
  have ht := Supply.tail_meas
  have hdraw : ∀ {X Y : Type} [MeasurableSpace X] [MeasurableSpace Y] {f : X → I → Y},
      Measurable (Function.uncurry f) →
      Measurable fun q : X × Supply => (f q.1 (q.2 0), q.2.tail) := by
    intro X Y _ _ f hf
    exact (hf.comp (measurable_fst.prodMk (h0.comp measurable_snd))).prodMk (ht.comp measurable_snd)
  have hone : ∀ {X Y : Type} [MeasurableSpace X] [MeasurableSpace Y] {f : X → I → Y},
      Measurable (Function.uncurry f) → ∀ x, Measurable (f x) :=
    fun hf x => hf.comp measurable_prodMk_left
  refine ⟨{
    P := Supply.P
    prob := inferInstance
    unif := fun s => ((s 0 : ℝ), s.tail)
    gamma := fun q => (fg q.1 (q.2 0), q.2.tail)
    normal := fun q => (q.1.1 + q.1.2 * fn (q.2 0), q.2.tail)
    chisq := fun q => (fg (q.1 / 2, 2) (q.2 0), q.2.tail)
    poisson := fun q => (fp q.1 (q.2 0), q.2.tail)
    negBinomial := fun r q => (fb r q.1 (q.2 0), q.2.tail)
    unif_meas := (measurable_subtype_coe.comp h0).prodMk ht
    gamma_meas := hdraw hfg
    normal_meas := ?_
    chisq_meas := ?_
    poisson_meas := hdraw hfp
    negBinomial_meas := fun r => hdraw (hfb r)
    unif_law := ?_
    gamma_law := ?_
    normal_law := ?_
    chisq_law := ?_
    poisson_law := ?_
    negBinomial_law := ?_ }, rfl⟩
  · have h1 : Measurable fun q : (ℝ × ℝ) × Supply => fn (q.2 0) := hfn.comp (h0.comp measurable_snd)
    exact ((measurable_fst.comp measurable_fst).add
      ((measurable_snd.comp measurable_fst).mul h1)).prodMk (ht.comp measurable_snd)
  · have h1 : Measurable fun q : ℝ × Supply => fg (q.1 / 2, 2) (q.2 0) :=
      hfg.comp (Measurable.prodMk (by fun_prop) (h0.comp measurable_snd))
    exact h1.prodMk (ht.comp measurable_snd)
  · rw [← uniform_law]
    exact Supply.law measurable_subtype_coe
  · intro a b ha hb
    have := Supply.law (hone hfg (a, b))
    rw [lg] at this
    have e : gammaK (a, b) = gammaMeasure a (1 / b) := if_pos ⟨ha, hb⟩
    rwa [e] at this
  · intro m b hb
    have := Supply.law (f := fun x => m + b * fn x) ((hfn.const_mul b).const_add m)
    have e : (volume : Measure I).map (fun x => m + b * fn x) =
        gaussianReal m (b ^ 2).toNNReal := by
      have e1 : (fun x => m + b * fn x) = (fun y => m + y) ∘ (fun y => b * y) ∘ fn := rfl
      rw [e1, ← Measure.map_map (by fun_prop) (by fun_prop), ← Measure.map_map (by fun_prop) hfn, ln,
        gaussianReal_map_const_mul, gaussianReal_map_const_add]
      congr 1
      · simp
      · ext; simp [Real.coe_toNNReal _ (sq_nonneg b)]
    rwa [e] at this
  · intro nu hn
    have := Supply.law (hone hfg (nu / 2, 2))
    rw [lg] at this
    have e : gammaK (nu / 2, 2) = gammaMeasure (nu / 2) (1 / 2) :=
      if_pos ⟨by show 0 < nu / 2; linarith, two_pos⟩
    rwa [e] at this
  · intro m hm
    have := Supply.law (hone hfp m)
    rw [lp] at this
    have e : poissonK m = poissonMeasure m.toNNReal := if_pos hm
    rwa [e] at this
  · intro r p hr h1 h2
    have := Supply.law (hone (hfb r) p)
    rw [lb] at this
    have e : negBinomialK r p = negBinomialMeasure r p := if_pos ⟨hr, h1, h2⟩
    rwa [e] at this

/-- **Existence.** There is a source of randomness whose draws have the laws of the C++ standard
and are independent. -/
theorem idealRng_exists : Nonempty (IdealRng Supply) := ⟨idealRng_supply.choose⟩

end Dist
