import Verif.Lemmas.IdealRng
import Verif.Props.Sampling

/-! # Drawing a Dirichlet vector and a component of it -/

namespace Dist

open Spec FloatOps FloatNotation MeasureTheory ProbabilityTheory

variable {σ : Type} [MeasurableSpace σ]

/-- Independent gamma draws, made one after the other. -/
noncomputable def gammaVec (I : IdealRng σ) : (n : ℕ) → (Fin n → ℝ) → σ → (Fin n → ℝ) × σ
  | 0, _, s => (Fin.elim0, s)
  | n + 1, a, s =>
    (Fin.cons (I.gamma ((a 0, 1), s)).1
      (gammaVec I n (fun i => a i.succ) (I.gamma ((a 0, 1), s)).2).1,
      (gammaVec I n (fun i => a i.succ) (I.gamma ((a 0, 1), s)).2).2)

theorem measurable_fin_cons {α : Type} [MeasurableSpace α] {n : ℕ} :
    Measurable fun q : α × (Fin n → α) => (Fin.cons q.1 q.2 : Fin (n + 1) → α) := by
  rw [measurable_pi_iff]
  intro i
  refine Fin.cases ?_ (fun j => ?_) i
  · simpa using measurable_fst
  · have : Measurable fun q : α × (Fin n → α) => q.2 j := (measurable_pi_apply j).comp measurable_snd
    simpa using this

theorem gammaVec_meas (I : IdealRng σ) (n : ℕ) (a : Fin n → ℝ) : Measurable (gammaVec I n a) := by
  induction n with
  | zero => exact measurable_const.prodMk measurable_id
  | succ n ih =>
    have h1 : Measurable fun s => I.gamma ((a 0, 1), s) :=
      I.gamma_meas.comp measurable_prodMk_left
    have h2 := (ih fun i => a i.succ).comp (measurable_snd.comp h1)
    exact (measurable_fin_cons.comp
      ((measurable_fst.comp h1).prodMk (measurable_fst.comp h2))).prodMk (measurable_snd.comp h2)

theorem gammaVec_lintegral (I : IdealRng σ) (n : ℕ) (a : Fin n → ℝ) (ha : ∀ i, 0 < a i)
    {f : (Fin n → ℝ) × σ → ENNReal} (hf : Measurable f) :
    ∫⁻ s, f (gammaVec I n a s) ∂I.P =
      ∫⁻ x, ∫⁻ s, f (x, s) ∂I.P ∂Measure.pi (fun i => gammaMeasure (a i) 1) := by
  induction n with
  | zero =>
    have hm : Measurable fun x : Fin 0 → ℝ => ∫⁻ s, f (x, s) ∂I.P := hf.lintegral_prod_right'
    rw [Measure.pi_of_empty _ Fin.elim0, lintegral_dirac' _ hm]
    rfl
  | succ n ih =>
    haveI : ∀ i, IsProbabilityMeasure (gammaMeasure (a i) 1) := fun i =>
      isProbabilityMeasure_gammaMeasure (ha i) one_pos
    have hm : Measurable fun x : Fin (n + 1) → ℝ => ∫⁻ s, f (x, s) ∂I.P :=
      hf.lintegral_prod_right'
    rw [lintegral_pi_cons _ hm]
    have hg := gammaVec_meas I n fun i => a i.succ
    have h1 : Measurable fun q : ℝ × σ =>
        f (Fin.cons q.1 (gammaVec I n (fun i => a i.succ) q.2).1,
          (gammaVec I n (fun i => a i.succ) q.2).2) := by
      have h2 : Measurable fun q : ℝ × σ => gammaVec I n (fun i => a i.succ) q.2 :=
        hg.comp measurable_snd
      exact hf.comp ((measurable_fin_cons.comp (measurable_fst.prodMk
        (measurable_fst.comp h2))).prodMk (measurable_snd.comp h2))
    have := I.gamma_lintegral (ha 0) one_pos h1
    rw [div_one] at this
    show ∫⁻ s, f (Fin.cons (I.gamma ((a 0, 1), s)).1
      (gammaVec I n (fun i => a i.succ) (I.gamma ((a 0, 1), s)).2).1,
      (gammaVec I n (fun i => a i.succ) (I.gamma ((a 0, 1), s)).2).2) ∂I.P = _
    rw [this]
    apply lintegral_congr
    intro y
    refine ih _ (fun i => ha i.succ) (f := fun q => f (Fin.cons y q.1, q.2)) ?_
    exact hf.comp ((measurable_fin_cons.comp (measurable_const.prodMk measurable_fst)).prodMk
      measurable_snd)

theorem gammaVec_law (I : IdealRng σ) (n : ℕ) (a : Fin n → ℝ) (ha : ∀ i, 0 < a i) :
    HasLaw I.P (gammaVec I n a) (Measure.pi fun i => gammaMeasure (a i) 1) := by
  haveI : ∀ i, IsProbabilityMeasure (gammaMeasure (a i) 1) := fun i =>
    isProbabilityMeasure_gammaMeasure (ha i) one_pos
  refine Measure.ext_of_lintegral _ fun f hf => ?_
  rw [lintegral_map hf (gammaVec_meas I n a), gammaVec_lintegral I n a ha hf,
    lintegral_prod _ hf.aemeasurable]

theorem gammaVec_ae (I : IdealRng σ) (n : ℕ) (a : Fin n → ℝ) (ha : ∀ i, 0 < a i) :
    ∀ᵐ s ∂I.P, ∀ i, 0 < (gammaVec I n a s).1 i := by
  haveI : ∀ i, IsProbabilityMeasure (gammaMeasure (a i) 1) := fun i =>
    isProbabilityMeasure_gammaMeasure (ha i) one_pos
  exact (gammaVec_law I n a ha).ae (gammaVec_meas I n a) (p := fun x => ∀ i, 0 < x i)
    (gammas_pos_ae a ha)

/-- The loop of `sample_dirichlet` makes these draws and adds them up. -/
theorem dirichletLoop_ideal (I : IdealRng σ) (n : ℕ) (a : Fin n → ℝ) (ha : ∀ i, 0 < a i) (s : σ)
    (t : ℝ) :
    dirichletLoop I.toRng (List.ofFn fun i => XR.fin (a i)) s (.fin t) =
      (List.ofFn fun i => XR.fin ((gammaVec I n a s).1 i),
        .fin (t + ∑ i, (gammaVec I n a s).1 i), (gammaVec I n a s).2) := by
  induction n generalizing s t with
  | zero => simp [dirichletLoop, gammaVec]
  | succ n ih =>
    have l1 : (lit 1 1 : XR) = .fin 1 := by rw [XR.lit_eq]; simp
    have h0 : lt (ofInt 0) (XR.fin (a 0)) = true := by
      rw [XR.ofInt_eq, XR.lt_fin]; simpa using ha 0
    rw [List.ofFn_succ, dirichletLoop, if_pos h0, l1]
    simp only [IdealRng.toRng, XR.fin_add]
    have := ih (fun i => a i.succ) (fun i => ha i.succ) (I.gamma ((a 0, 1), s)).2
      (t + (I.gamma ((a 0, 1), s)).1)
    simp only [IdealRng.toRng] at this
    rw [this]
    simp only [gammaVec]
    rw [List.ofFn_succ, Fin.sum_univ_succ]
    simp [add_assoc]

theorem sampleDirichlet_ideal (I : IdealRng σ) (n : ℕ) (a : Fin n → ℝ) (ha : ∀ i, 0 < a i) (s : σ)
    (hs : ∑ i, (gammaVec I n a s).1 i ≠ 0) :
    sampleDirichlet I.toRng s (List.ofFn fun i => XR.fin (a i)) =
      (List.ofFn fun i => XR.fin ((gammaVec I n a s).1 i / ∑ i, (gammaVec I n a s).1 i),
        (gammaVec I n a s).2) := by
  have l0 : (lit 0 1 : XR) = .fin 0 := by rw [XR.lit_eq]; simp
  have l1 : (lit 1 1 : XR) = .fin 1 := by rw [XR.lit_eq]; simp
  rw [sampleDirichlet, l0, dirichletLoop_ideal I n a ha s 0]
  simp only [l1, zero_add]
  rw [XR.fin_div _ _ hs, List.map_ofFn]
  congr 2
  funext i
  simp only [Function.comp, XR.fin_mul]
  rw [mul_one_div]

/-- Which states make `sample_discrete` return a given index. -/
theorem discrete_iff (I : IdealRng σ) (p : List ℝ) (hp : ∀ x ∈ p, 0 ≤ x) (hsum : p.sum = 1)
    (i : ℕ) (hi : i < p.length) (B : Set σ) (s : σ) (hs : (I.unif s).1 ∈ Set.Ico (0 : ℝ) 1) :
    (∃ s' ∈ B, sampleDiscrete I.toRng s (p.map XR.fin) = .ok (i, s')) ↔
      I.unif s ∈ Set.Ico (cum p i) (cum p (i + 1)) ×ˢ B := by
  have hd : Draws I.toRng s (XR.fin (I.unif s).1) (I.unif s).2 := rfl
  have key := C42 I.toRng s _ p _ hp hsum hd hs.1 hs.2 i
  constructor
  · rintro ⟨s', hs', h⟩
    obtain ⟨j, ej, _⟩ := C42_index I.toRng s (p.map XR.fin) (by
      intro h0; rw [List.map_eq_nil_iff] at h0; subst h0; simp at hi)
    have e2 : (i, s') = (j, (I.unif s).2) := by
      have := h.symm.trans ej
      simpa [IdealRng.toRng] using this
    obtain ⟨rfl, rfl⟩ := Prod.mk.inj e2
    exact ⟨(key.mp h).2, hs'⟩
  · rintro ⟨h1, h2⟩
    exact ⟨_, h2, key.mpr ⟨hi, h1⟩⟩

theorem unif_ae (I : IdealRng σ) : ∀ᵐ s ∂I.P, (I.unif s).1 ∈ Set.Ico (0 : ℝ) 1 :=
  I.unif_law.ae I.unif_meas (p := fun y => y ∈ Set.Ico (0 : ℝ) 1)
    (ae_restrict_mem measurableSet_Ico)

/-- The probability that the uniform draw falls into an interval. -/
theorem unif_interval (I : IdealRng σ) {u v : ℝ} (h0 : 0 ≤ u) (h1 : v ≤ 1) {B : Set σ}
    (hB : MeasurableSet B) :
    I.P (I.unif ⁻¹' (Set.Ico u v ×ˢ B)) = ENNReal.ofReal (v - u) * I.P B := by
  rw [← Measure.map_apply I.unif_meas (measurableSet_Ico.prod hB), I.unif_law,
    Measure.prod_prod, Measure.restrict_apply measurableSet_Ico,
    Set.inter_eq_left.mpr (Set.Ico_subset_Ico h0 h1), Real.volume_Ico]

/-- **Drawing probabilities from a Dirichlet law and an index from the probabilities** gives each
index a probability proportional to its parameter. -/
theorem dirichlet_discrete (I : IdealRng σ) (n : ℕ) (a : Fin n → ℝ) (ha : ∀ i, 0 < a i) (i : Fin n)
    {B : Set σ} (hB : MeasurableSet B) :
    I.P {s | ∃ s' ∈ B, sampleDiscrete I.toRng
        (sampleDirichlet I.toRng s (List.ofFn fun i => XR.fin (a i))).2
        (sampleDirichlet I.toRng s (List.ofFn fun i => XR.fin (a i))).1 = .ok (i.val, s')} =
      ENNReal.ofReal (a i / ∑ j, a j) * I.P B := by
  haveI : ∀ i, IsProbabilityMeasure (gammaMeasure (a i) 1) := fun i =>
    isProbabilityMeasure_gammaMeasure (ha i) one_pos
  haveI : Nonempty (Fin n) := ⟨i⟩
  -- normalised draws
  let pr : (Fin n → ℝ) → Fin n → ℝ := fun x j => x j / ∑ k, x k
  let lo : (Fin n → ℝ) → ℝ := fun x => ∑ j with j.val < i.val, pr x j
  have hpr : ∀ j, Measurable fun x => pr x j := fun j => by fun_prop
  have hlo : Measurable lo := Finset.measurable_sum _ fun j _ => hpr j
  have hsum1 : ∀ x : Fin n → ℝ, (∀ j, 0 < x j) → (List.ofFn (pr x)).sum = 1 := by
    intro x hx
    have : 0 < ∑ k, x k := Finset.sum_pos (fun k _ => hx k) Finset.univ_nonempty
    rw [List.sum_ofFn, ← Finset.sum_div, div_self this.ne']
  have hnn : ∀ x : Fin n → ℝ, (∀ j, 0 < x j) → ∀ y ∈ List.ofFn (pr x), 0 ≤ y := by
    intro x hx y hy
    obtain ⟨j, rfl⟩ := (List.mem_ofFn' _ _).mp hy
    exact div_nonneg (hx j).le (Finset.sum_nonneg fun k _ => (hx k).le)
  let C : Set ((Fin n → ℝ) × σ) :=
    {q | lo q.1 ≤ (I.unif q.2).1 ∧ (I.unif q.2).1 < lo q.1 + pr q.1 i ∧ (I.unif q.2).2 ∈ B}
  have hC : MeasurableSet C := by
    have hu : Measurable fun q : (Fin n → ℝ) × σ => I.unif q.2 := I.unif_meas.comp measurable_snd
    have hl2 : Measurable fun q : (Fin n → ℝ) × σ => lo q.1 := hlo.comp measurable_fst
    have hp2 : Measurable fun q : (Fin n → ℝ) × σ => pr q.1 i := (hpr i).comp measurable_fst
    exact (measurableSet_le hl2 (measurable_fst.comp hu)).inter
      ((measurableSet_lt (measurable_fst.comp hu) (hl2.add hp2)).inter
        ((measurable_snd.comp hu) hB))
  have hcum : ∀ x : Fin n → ℝ, (∀ j, 0 < x j) → cum (List.ofFn (pr x)) i = lo x ∧
      cum (List.ofFn (pr x)) (i + 1) = lo x + pr x i := by
    intro x hx
    have h1 : cum (List.ofFn (pr x)) i = lo x := by rw [cum, List.sum_take_ofFn]
    refine ⟨h1, ?_⟩
    rw [cum_succ (by simp), h1]
    simp
  have hfst : ∀ x : Fin n → ℝ, (∀ j, 0 < x j) → ∀ s, (x, s) ∈ C ↔ I.unif s ∈
      Set.Ico (cum (List.ofFn (pr x)) i) (cum (List.ofFn (pr x)) (i + 1)) ×ˢ B := by
    intro x hx s
    rw [(hcum x hx).1, (hcum x hx).2]
    simp [C, and_assoc]
  have hG := gammaVec_meas I n a
  have hset : I.P {s | ∃ s' ∈ B, sampleDiscrete I.toRng
        (sampleDirichlet I.toRng s (List.ofFn fun i => XR.fin (a i))).2
        (sampleDirichlet I.toRng s (List.ofFn fun i => XR.fin (a i))).1 = .ok (i.val, s')} =
      I.P (gammaVec I n a ⁻¹' C) := by
    apply measure_congr
    filter_upwards [gammaVec_ae I n a ha,
      (gammaVec_law I n a ha).ae_state hG (unif_ae I)] with s hx hu
    apply propext
    show (∃ s' ∈ B, _) ↔ gammaVec I n a s ∈ C
    have hpos : 0 < ∑ k, (gammaVec I n a s).1 k :=
      Finset.sum_pos (fun k _ => hx k) Finset.univ_nonempty
    rw [sampleDirichlet_ideal I n a ha s hpos.ne']
    have := discrete_iff I (List.ofFn (pr (gammaVec I n a s).1)) (hnn _ hx) (hsum1 _ hx) i
      (by simp) B (gammaVec I n a s).2 hu
    rw [List.map_ofFn] at this
    exact this.trans (hfst _ hx _).symm
  rw [hset, ← Measure.map_apply hG hC, gammaVec_law I n a ha, Measure.prod_apply hC]
  have e2 : ∀ᵐ x ∂Measure.pi (fun i => gammaMeasure (a i) 1), I.P (Prod.mk x ⁻¹' C) =
      ENNReal.ofReal ((∏ j, x j ^ (if j = i then (1 : ℝ) else 0)) *
        (∑ j, x j) ^ (-∑ j, (if j = i then (1 : ℝ) else 0))) * I.P B := by
    filter_upwards [gammas_pos_ae a ha] with x hx
    have e3 : Prod.mk x ⁻¹' C = I.unif ⁻¹'
        (Set.Ico (cum (List.ofFn (pr x)) i) (cum (List.ofFn (pr x)) (i + 1)) ×ˢ B) := by
      ext s; exact hfst x hx s
    have h0 : 0 ≤ cum (List.ofFn (pr x)) i := by
      have := cum_mono (hnn x hx) (Nat.zero_le i); rwa [cum_zero] at this
    have h1 : cum (List.ofFn (pr x)) (i + 1) ≤ 1 := by
      rw [← hsum1 x hx, ← cum_length]
      apply cum_mono (hnn x hx)
      simp
    rw [e3, unif_interval I h0 h1 hB, (hcum x hx).1, (hcum x hx).2, add_sub_cancel_left]
    congr 2
    simp only [Finset.sum_ite_eq', Finset.mem_univ, if_true, Real.rpow_neg_one]
    rw [Finset.prod_eq_single i]
    · simp [pr, div_eq_mul_inv]
    · intro j _ hj; simp [hj]
    · simp
  rw [lintegral_congr_ae e2, lintegral_mul_const' _ _ (measure_ne_top _ _),
    dirichlet_moment a _ ha (fun j => by split_ifs <;> norm_num) (by simp)]
  congr 2
  have hA : 0 < ∑ j, a j := Finset.sum_pos (fun k _ => ha k) Finset.univ_nonempty
  simp only [Finset.sum_ite_eq', Finset.mem_univ, if_true]
  rw [Finset.prod_eq_single i]
  · have hGi := Real.Gamma_pos_of_pos (ha i)
    have hGA := Real.Gamma_pos_of_pos hA
    rw [if_pos rfl, Real.Gamma_add_one hA.ne', Real.Gamma_add_one (ha i).ne']
    field_simp
  · intro j _ hj
    rw [if_neg hj, add_zero, div_self (Real.Gamma_pos_of_pos (ha j)).ne']
  · simp

end Dist
