import Verif.Lemmas.IdealRngExists
import Verif.Lemmas.GaussianLinear
import Verif.Lemmas.Cholesky
import Verif.Lemmas.NIWSample
import Verif.Spec.IdealNumpy

/-! # An ideal numpy exists -/

namespace Dist

open MeasureTheory ProbabilityTheory Spec unitInterval Matrix

/-- Linear images of independent standard normal variables with the same covariance have the same
law. -/
theorem stdNormals_map_eq {d : ℕ} {A B : Matrix (Fin d) (Fin d) ℝ} (h : A * Aᵀ = B * Bᵀ) :
    (stdNormals d).map (fun z => A *ᵥ z) = (stdNormals d).map fun z => B *ᵥ z := by
  have hA : Measurable fun z : Fin d → ℝ => A *ᵥ z := (matClm A).continuous.measurable
  have h1 := stdNormals_add A (0 : Matrix (Fin d) (Fin d) ℝ) A (by simp)
  have h2 := stdNormals_add A (0 : Matrix (Fin d) (Fin d) ℝ) B (by simp [h])
  exact h1.symm.trans h2

instance (n : ℕ) : IsProbabilityMeasure (stdNormal n) := by unfold stdNormal; infer_instance

theorem coinMeasure_prob {p : ℝ} (h0 : 0 ≤ p) (h1 : p ≤ 1) : IsProbabilityMeasure (coinMeasure p) := by
  constructor
  simp only [coinMeasure, Measure.add_apply, Measure.smul_apply, measure_univ, smul_eq_mul, mul_one]
  rw [← ENNReal.ofReal_add h0 (by linarith)]
  simp

theorem share_measurable (n : ℕ) : Measurable fun (x : Fin n → ℝ) i => x i / ∑ k, x k :=
  measurable_pi_iff.2 fun i => by fun_prop

theorem dirichletMeasure_prob {n : ℕ} (a : Fin n → ℝ) (h : ∀ i, 0 < a i) :
    IsProbabilityMeasure (dirichletMeasure a) := by
  haveI : ∀ i, IsProbabilityMeasure (gammaMeasure (a i) 1) := fun i =>
    isProbabilityMeasure_gammaMeasure (h i) one_pos
  exact Measure.isProbabilityMeasure_map (share_measurable n).aemeasurable

/-- The uniform law on the permutations. -/
theorem permutation_exists (n : ℕ) : ∃ f : I → Equiv.Perm (Fin n),
    (∀ p, MeasurableSet (f ⁻¹' {p})) ∧
    ∀ p, (volume : Measure I) (f ⁻¹' {p}) = (n.factorial : ENNReal)⁻¹ := by
  letI : MeasurableSpace (Equiv.Perm (Fin n)) := ⊤
  haveI : DiscreteMeasurableSpace (Equiv.Perm (Fin n)) := ⟨fun _ => trivial⟩
  obtain ⟨f, hf, h⟩ := Measure.exists_measurable_map_eq
    (uniformOn (Set.univ : Set (Equiv.Perm (Fin n))))
  refine ⟨f, fun p => hf trivial, fun p => ?_⟩
  rw [← Measure.map_apply hf trivial, h, uniformOn_univ]
  simp [Fintype.card_perm]

/-- **Existence.** There is an ideal numpy. -/
theorem idealNumpy_exists : Nonempty (IdealNumpy Supply) := by
  obtain ⟨R, hR⟩ := idealRng_supply
  have hbeta : ∀ q : ℝ × ℝ, ∃ f : I → ℝ, Measurable f ∧
      (0 < q.1 → 0 < q.2 → (volume : Measure I).map f = betaMeasure q.1 q.2) := by
    intro q
    by_cases h : 0 < q.1 ∧ 0 < q.2
    · haveI := isProbabilityMeasureBeta h.1 h.2
      obtain ⟨f, hf, e⟩ := Measure.exists_measurable_map_eq (betaMeasure q.1 q.2)
      exact ⟨f, hf, fun _ _ => e⟩
    · exact ⟨fun _ => 0, measurable_const, fun h1 h2 => (h ⟨h1, h2⟩).elim⟩
  choose fb hfb lb using hbeta
  have hdir : ∀ (n : ℕ) (a : Fin n → ℝ), ∃ f : I → Fin n → ℝ, Measurable f ∧
      ((∀ i, 0 < a i) → (volume : Measure I).map f = dirichletMeasure a) := by
    intro n a
    by_cases h : ∀ i, 0 < a i
    · haveI := dirichletMeasure_prob a h
      obtain ⟨f, hf, e⟩ := Measure.exists_measurable_map_eq (dirichletMeasure a)
      exact ⟨f, hf, fun _ => e⟩
    · exact ⟨fun _ => 0, measurable_const, fun h' => (h h').elim⟩
  choose fd hfd ld using hdir
  choose fn hfn ln using fun d => Measure.exists_measurable_map_eq (stdNormal d)
  choose fp hfp lp using permutation_exists
  have h0 : Measurable fun s : Supply => s 0 := measurable_pi_apply 0
  have ht := Supply.tail_meas
  have hu : Measurable fun s : Supply => (s 0 : ℝ) := measurable_subtype_coe.comp h0
  refine ⟨{
    toIdealRng := R
    beta := fun q s => (fb q (s 0), s.tail)
    dirichlet := fun {n} a s => (fd n a (s 0), s.tail)
    coin := fun q => (decide ((q.2 0 : ℝ) < q.1), q.2.tail)
    mvNormal := fun {d} q => (q.1.1 + Matrix.of (cholR q.1.2) *ᵥ fn d (q.2 0), q.2.tail)
    permutation := fun n s => (fp n (s 0), s.tail)
    beta_meas := fun q => ((hfb q).comp h0).prodMk ht
    dirichlet_meas := fun {n} a => ((hfd n a).comp h0).prodMk ht
    coin_meas := ?_
    mvNormal_meas := ?_
    permutation_meas := fun n p => h0 (hfp n p)
    permutation_state_meas := fun n => ht
    beta_law := ?_
    dirichlet_law := ?_
    coin_law := ?_
    mvNormal_law := ?_
    permutation_law := ?_ }⟩
  · refine Measurable.prodMk ?_ (ht.comp measurable_snd)
    refine measurable_to_bool ?_
    have e : (fun q : ℝ × Supply => decide ((q.2 0 : ℝ) < q.1)) ⁻¹' {true} =
        {q | (q.2 0 : ℝ) < q.1} := by ext q; simp
    rw [e]
    exact measurableSet_lt (hu.comp measurable_snd) measurable_fst
  · intro d
    refine Measurable.prodMk ?_ (ht.comp measurable_snd)
    exact (measurable_fst.comp measurable_fst).add (measurable_mulVec
      (cholR_measurable.comp (measurable_snd.comp measurable_fst))
      ((hfn d).comp (h0.comp measurable_snd)))
  · intro a b ha hb
    have := Supply.law (hfb (a, b))
    rw [lb (a, b) ha hb] at this
    rw [hR]; exact this
  · intro n a ha
    have := Supply.law (hfd n a)
    rw [ld n a ha] at this
    rw [hR]; exact this
  · intro p hp0 hp1
    have hm : ∀ A : Set ℝ, MeasurableSet A →
        (volume : Measure I) {u : I | (u : ℝ) ∈ A} = volume (A ∩ Set.Ico 0 1) := by
      intro A hA
      rw [← Measure.restrict_apply hA, ← uniform_law, Measure.map_apply measurable_subtype_coe hA]
      rfl
    have hf : Measurable fun u : I => decide ((u : ℝ) < p) := by
      refine measurable_to_bool ?_
      have e : (fun u : I => decide ((u : ℝ) < p)) ⁻¹' {true} = {u : I | (u : ℝ) < p} := by
        ext u; simp
      rw [e]
      exact measurableSet_lt measurable_subtype_coe measurable_const
    have e : (volume : Measure I).map (fun u : I => decide ((u : ℝ) < p)) = coinMeasure p := by
      refine Measure.ext_of_singleton fun b => ?_
      rw [Measure.map_apply hf (measurableSet_singleton b)]
      cases b with
      | true =>
        have e1 : (fun u : I => decide ((u : ℝ) < p)) ⁻¹' {true} = {u : I | (u : ℝ) ∈ Set.Iio p} := by
          ext u; simp
        have e2 : Set.Iio p ∩ Set.Ico 0 1 = Set.Ico 0 p := by
          ext x; simp only [Set.mem_inter_iff, Set.mem_Iio, Set.mem_Ico]
          constructor
          · rintro ⟨h1, h2, h3⟩; exact ⟨h2, h1⟩
          · rintro ⟨h1, h2⟩; exact ⟨h2, h1, by linarith⟩
        rw [e1, hm _ measurableSet_Iio, e2, Real.volume_Ico]
        simp [coinMeasure]
      | false =>
        have e1 : (fun u : I => decide ((u : ℝ) < p)) ⁻¹' {false} = {u : I | (u : ℝ) ∈ Set.Ici p} := by
          ext u; simp
        have e2 : Set.Ici p ∩ Set.Ico 0 1 = Set.Ico p 1 := by
          ext x; simp only [Set.mem_inter_iff, Set.mem_Ici, Set.mem_Ico]
          constructor
          · rintro ⟨h1, h2, h3⟩; exact ⟨h1, h3⟩
          · rintro ⟨h1, h2⟩; exact ⟨h1, by linarith, h2⟩
        rw [e1, hm _ measurableSet_Ici, e2, Real.volume_Ico]
        simp [coinMeasure]
    have := Supply.law hf
    rw [e] at this
    rw [hR]; exact this
  · intro d mean T hT
    have hpd : (T * Tᵀ).PosDef := by
      have := Matrix.PosDef.mul_conjTranspose_self T
        (Matrix.vecMul_injective_of_isUnit
          ((Matrix.isUnit_iff_isUnit_det T).2 (isUnit_iff_ne_zero.2 hT)))
      rwa [conjTranspose_eq_transpose_of_trivial] at this
    have hc := cholM_isChol hpd
    have hmul : ∀ A : Matrix (Fin d) (Fin d) ℝ, Measurable fun z : Fin d → ℝ => A *ᵥ z := fun A =>
      (matClm A).continuous.measurable
    have hadd : Measurable fun z : Fin d → ℝ => mean + z := measurable_const.add measurable_id
    have hf : Measurable fun u : I => mean + cholM (T * Tᵀ) *ᵥ fn d u :=
      hadd.comp ((hmul _).comp (hfn d))
    have e : (volume : Measure I).map (fun u : I => mean + cholM (T * Tᵀ) *ᵥ fn d u) =
        (stdNormal d).map fun z => mean + T *ᵥ z := by
      have e1 : (fun u : I => mean + cholM (T * Tᵀ) *ᵥ fn d u) =
        (fun z => mean + z) ∘ (fun z => cholM (T * Tᵀ) *ᵥ z) ∘ fn d := rfl
      have e2 : (fun z : Fin d → ℝ => mean + T *ᵥ z) = (fun z => mean + z) ∘ fun z => T *ᵥ z := rfl
      have e3 := stdNormals_map_eq (A := cholM (T * Tᵀ)) (B := T) hc.mul
      rw [e1, ← Measure.map_map hadd ((hmul _).comp (hfn d)), ← Measure.map_map (hmul _) (hfn d),
        ln, e2, ← Measure.map_map hadd (hmul _)]
      exact congrArg _ e3
    have := Supply.law hf
    rw [e] at this
    rw [hR]; exact this
  · intro n p B hB
    have hd : Measurable fun s : Supply => (s 0, s.tail) := h0.prodMk ht
    have e : {s : Supply | fp n (s 0) = p ∧ s.tail ∈ B} =
        (fun s : Supply => (s 0, s.tail)) ⁻¹' ((fp n ⁻¹' {p}) ×ˢ B) := rfl
    show R.P {s : Supply | fp n (s 0) = p ∧ s.tail ∈ B} = R.P B / n.factorial
    rw [hR, e, ← Measure.map_apply hd ((hfp n p).prod hB), Supply.split, Measure.prod_prod, lp,
      mul_comm, div_eq_mul_inv]

end Dist
