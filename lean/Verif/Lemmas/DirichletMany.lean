import Verif.Lemmas.SampleLoop

/-! # Many draws from one Dirichlet vector -/

namespace Dist

open Spec FloatOps FloatNotation MeasureTheory ProbabilityTheory

variable {σ : Type} [MeasurableSpace σ]

/-- Normalised coordinates. -/
noncomputable def share {n : ℕ} (x : Fin n → ℝ) (j : Fin n) : ℝ := x j / ∑ k, x k

/-- Sum of the normalised coordinates before the `i`-th. -/
noncomputable def below {n : ℕ} (x : Fin n → ℝ) (i : Fin n) : ℝ :=
  ∑ j with j.val < i.val, share x j

/-- The next uniform draw falls into the `i`-th interval. -/
def discreteStep (I : IdealRng σ) (n : ℕ) (i : Fin n) (C : Set ((Fin n → ℝ) × σ)) :
    Set ((Fin n → ℝ) × σ) :=
  {q | below q.1 i ≤ (I.unif q.2).1 ∧ (I.unif q.2).1 < below q.1 i + share q.1 i ∧
    (q.1, (I.unif q.2).2) ∈ C}

theorem share_meas {n : ℕ} (j : Fin n) : Measurable fun x : Fin n → ℝ => share x j := by
  unfold share; fun_prop

theorem below_meas {n : ℕ} (i : Fin n) : Measurable fun x : Fin n → ℝ => below x i :=
  Finset.measurable_sum _ fun j _ => share_meas j

theorem discreteStep_meas (I : IdealRng σ) (n : ℕ) (i : Fin n) (C : Set ((Fin n → ℝ) × σ))
    (hC : MeasurableSet C) : MeasurableSet (discreteStep I n i C) := by
  have hu : Measurable fun q : (Fin n → ℝ) × σ => I.unif q.2 := I.unif_meas.comp measurable_snd
  have hl2 : Measurable fun q : (Fin n → ℝ) × σ => below q.1 i := (below_meas i).comp measurable_fst
  have hp2 : Measurable fun q : (Fin n → ℝ) × σ => share q.1 i := (share_meas i).comp measurable_fst
  exact (measurableSet_le hl2 (measurable_fst.comp hu)).inter
    ((measurableSet_lt (measurable_fst.comp hu) (hl2.add hp2)).inter
      ((measurable_fst.prodMk (measurable_snd.comp hu)) hC))

section positive

variable {n : ℕ} {x : Fin n → ℝ} (hx : ∀ j, 0 < x j)

include hx

theorem share_sum [Nonempty (Fin n)] : (List.ofFn (share x)).sum = 1 := by
  have : 0 < ∑ k, x k := Finset.sum_pos (fun k _ => hx k) Finset.univ_nonempty
  rw [List.sum_ofFn]
  unfold share
  rw [← Finset.sum_div, div_self this.ne']

theorem share_nonneg : ∀ y ∈ List.ofFn (share x), 0 ≤ y := by
  intro y hy
  obtain ⟨j, rfl⟩ := (List.mem_ofFn' _ _).mp hy
  exact div_nonneg (hx j).le (Finset.sum_nonneg fun k _ => (hx k).le)

omit hx in
theorem cum_share (i : Fin n) : cum (List.ofFn (share x)) i = below x i ∧
    cum (List.ofFn (share x)) (i + 1) = below x i + share x i := by
  have h1 : cum (List.ofFn (share x)) i = below x i := by rw [cum, List.sum_take_ofFn]; rfl
  refine ⟨h1, ?_⟩
  rw [cum_succ (by simp), h1]
  simp

theorem discreteStep_prob [Nonempty (Fin n)] (I : IdealRng σ) (i : Fin n)
    (C : Set ((Fin n → ℝ) × σ)) (hC : MeasurableSet C) :
    I.P (Prod.mk x ⁻¹' discreteStep I n i C) =
      ENNReal.ofReal (share x i) * I.P (Prod.mk x ⁻¹' C) := by
  have h0 : 0 ≤ below x i := by
    have := cum_mono (share_nonneg hx) (Nat.zero_le i)
    rwa [cum_zero, (cum_share i).1] at this
  have h1 : below x i + share x i ≤ 1 := by
    rw [← (cum_share i).2, ← share_sum hx, ← cum_length]
    apply cum_mono (share_nonneg hx)
    simp
  have e : Prod.mk x ⁻¹' discreteStep I n i C =
      I.unif ⁻¹' (Set.Ico (below x i) (below x i + share x i) ×ˢ (Prod.mk x ⁻¹' C)) := by
    ext s
    simp [discreteStep, and_assoc]
  rw [e, unif_interval I h0 h1 (measurable_prodMk_left hC), add_sub_cancel_left]

/-- Which states make `sample_discrete` return the indices of a list one after the other. -/
theorem discrete_loop_iff [Nonempty (Fin n)] (I : IdealRng σ) (is : List (Fin n)) (B : Set σ) (s : σ)
    (hs : Good (fun s => (I.unif s).1 ∈ Set.Ico (0 : ℝ) 1) (fun s => (I.unif s).2) is.length s) :
    (∃ s' ∈ B, sampleLoop (fun s => sampleDiscrete I.toRng s
        ((List.ofFn (share x)).map XR.fin)) is.length s = .ok (is.map Fin.val, s')) ↔
      (x, s) ∈ iterSet (discreteStep I n) (Set.univ ×ˢ B) is := by
  have hne : ((List.ofFn (share x)).map XR.fin) ≠ [] := by
    intro h
    have := congrArg List.length h
    simp only [List.length_map, List.length_ofFn, List.length_nil] at this
    subst this
    exact (Classical.arbitrary (Fin 0)).elim0
  rw [← sampleLoop_iff (R := fun i v => v = Fin.val i)
    (eval := fun s => sampleDiscrete I.toRng s ((List.ofFn (share x)).map XR.fin)) ?_ ?_ _ is s hs]
  · simp only [forall₂_eq_map, Set.mem_prod, Set.mem_univ, true_and]
    constructor
    · rintro ⟨s', h1, h2⟩; exact ⟨_, s', rfl, h1, h2⟩
    · rintro ⟨vs, s', rfl, h1, h2⟩; exact ⟨s', h1, h2⟩
  · intro s v s' h
    obtain ⟨j, ej, _⟩ := C42_index I.toRng s _ hne
    rw [ej] at h
    exact (Prod.mk.inj (Res.ok.inj h)).2.symm
  · intro i C s hu
    have := discrete_iff I (List.ofFn (share x)) (share_nonneg hx) (share_sum hx) i (by simp)
      (Prod.mk x ⁻¹' C) s hu
    rw [(cum_share i).1, (cum_share i).2] at this
    constructor
    · rintro ⟨v, s', rfl, h1, h2⟩
      have := this.mp ⟨s', h1, h2⟩
      exact ⟨this.1.1, this.1.2, this.2⟩
    · rintro ⟨h1, h2, h3⟩
      obtain ⟨s', h4, h5⟩ := this.mpr ⟨⟨h1, h2⟩, h3⟩
      exact ⟨_, s', rfl, h4, h5⟩

end positive

/-- Moments of the normalised coordinates of independent gamma variables. -/
theorem shares_moment {n : ℕ} [Nonempty (Fin n)] (a : Fin n → ℝ) (ha : ∀ i, 0 < a i)
    (is : List (Fin n)) :
    ∫⁻ x, (is.map fun i => ENNReal.ofReal (share x i)).prod
        ∂Measure.pi (fun i => gammaMeasure (a i) 1) =
      ENNReal.ofReal (Real.Gamma (∑ i, a i) / Real.Gamma (∑ i, a i + is.length) *
        ∏ i, Real.Gamma (a i + is.count i) / Real.Gamma (a i)) := by
  haveI : ∀ i, IsProbabilityMeasure (gammaMeasure (a i) 1) := fun i =>
    isProbabilityMeasure_gammaMeasure (ha i) one_pos
  have hA : 0 < ∑ j, a j := Finset.sum_pos (fun k _ => ha k) Finset.univ_nonempty
  have hcount : ∑ i, (is.count i : ℝ) = is.length := by
    have := Multiset.sum_count_eq_card (s := Finset.univ) (m := (is : Multiset (Fin n)))
      (fun i _ => Finset.mem_univ i)
    simp only [Multiset.coe_count, Multiset.coe_card] at this
    exact_mod_cast this
  have e : ∀ᵐ x ∂Measure.pi (fun i => gammaMeasure (a i) 1),
      (is.map fun i => ENNReal.ofReal (share x i)).prod =
        ENNReal.ofReal ((∏ i, x i ^ (is.count i : ℝ)) * (∑ i, x i) ^ (-∑ i, (is.count i : ℝ))) := by
    filter_upwards [gammas_pos_ae a ha] with x hx
    have hpos : 0 < ∑ k, x k := Finset.sum_pos (fun k _ => hx k) Finset.univ_nonempty
    have h1 : (is.map fun i => ENNReal.ofReal (share x i)).prod =
        ∏ i, ENNReal.ofReal (share x i) ^ is.count i := by
      rw [Finset.prod_list_map_count]
      apply Finset.prod_subset (Finset.subset_univ _)
      intro i _ hi
      rw [List.mem_toFinset] at hi
      rw [List.count_eq_zero_of_not_mem hi, pow_zero]
    have hs : ∀ i, 0 ≤ share x i := fun i => div_nonneg (hx i).le hpos.le
    have h2 : ∏ i, ENNReal.ofReal (share x i) ^ is.count i =
        ∏ i, ENNReal.ofReal (share x i ^ is.count i) :=
      Finset.prod_congr rfl fun i _ => (ENNReal.ofReal_pow (hs i) _).symm
    rw [h1, h2, ← ENNReal.ofReal_prod_of_nonneg (fun i _ => pow_nonneg (hs i) _)]
    congr 1
    unfold share
    simp only [div_pow, Finset.prod_div_distrib, Real.rpow_natCast]
    rw [Real.rpow_neg hpos.le, hcount, Real.rpow_natCast, Finset.prod_pow_eq_pow_sum, div_eq_mul_inv]
    congr 3
    exact_mod_cast hcount
  rw [lintegral_congr_ae e]
  rcases Nat.eq_zero_or_pos is.length with h0 | h0
  · have : is = [] := List.length_eq_zero_iff.mp h0
    subst this
    have hg := Real.Gamma_pos_of_pos hA
    have hp : ∏ i, Real.Gamma (a i) / Real.Gamma (a i) = 1 :=
      Finset.prod_eq_one fun i _ => div_self (Real.Gamma_pos_of_pos (ha i)).ne'
    simp [div_self hg.ne', hp]
  · rw [dirichlet_moment a _ ha (fun j => by positivity) (by rw [hcount]; exact_mod_cast h0), hcount]

/-- **Drawing probabilities from a Dirichlet law once and then indices from the probabilities**
gives every sequence the Dirichlet-multinomial probability. -/
theorem dirichlet_many (I : IdealRng σ) (n : ℕ) [Nonempty (Fin n)] (a : Fin n → ℝ)
    (ha : ∀ i, 0 < a i) (is : List (Fin n)) {B : Set σ} (hB : MeasurableSet B) :
    I.P {s | ∃ s' ∈ B, sampleLoop (fun s₁ => sampleDiscrete I.toRng s₁
        (sampleDirichlet I.toRng s (List.ofFn fun i => XR.fin (a i))).1) is.length
        (sampleDirichlet I.toRng s (List.ofFn fun i => XR.fin (a i))).2 =
          .ok (is.map Fin.val, s')} =
      ENNReal.ofReal (Real.Gamma (∑ i, a i) / Real.Gamma (∑ i, a i + is.length) *
        ∏ i, Real.Gamma (a i + is.count i) / Real.Gamma (a i)) * I.P B := by
  haveI : ∀ i, IsProbabilityMeasure (gammaMeasure (a i) 1) := fun i =>
    isProbabilityMeasure_gammaMeasure (ha i) one_pos
  have hG := gammaVec_meas I n a
  have hgood := good_ae I.P (unif_ae I) (next := fun s => (I.unif s).2)
    (fun q hq => I.unif_law.ae_state I.unif_meas hq) is.length
  have hset : I.P {s | ∃ s' ∈ B, sampleLoop (fun s₁ => sampleDiscrete I.toRng s₁
        (sampleDirichlet I.toRng s (List.ofFn fun i => XR.fin (a i))).1) is.length
        (sampleDirichlet I.toRng s (List.ofFn fun i => XR.fin (a i))).2 =
          .ok (is.map Fin.val, s')} =
      I.P (gammaVec I n a ⁻¹' iterSet (discreteStep I n) (Set.univ ×ˢ B) is) := by
    apply measure_congr
    filter_upwards [gammaVec_ae I n a ha, (gammaVec_law I n a ha).ae_state hG hgood] with s hx hu
    apply propext
    show (∃ s' ∈ B, _) ↔ gammaVec I n a s ∈ _
    have hpos : 0 < ∑ k, (gammaVec I n a s).1 k :=
      Finset.sum_pos (fun k _ => hx k) Finset.univ_nonempty
    rw [sampleDirichlet_ideal I n a ha s hpos.ne']
    have := discrete_loop_iff hx I is B (gammaVec I n a s).2 hu
    rw [List.map_ofFn] at this
    exact this
  rw [hset, iterSet_law I.P hG (gammaVec_law I n a ha) (p := fun _ => True)
    (fun i C _ hC => discreteStep_meas I n i C hC) (k := fun x i => ENNReal.ofReal (share x i))
    (by
      filter_upwards [gammas_pos_ae a ha] with x hx i C _ hC
      exact discreteStep_prob hx I i C hC) hB is (fun _ _ => trivial)]
  congr 1
  exact shares_moment a ha is

end Dist
