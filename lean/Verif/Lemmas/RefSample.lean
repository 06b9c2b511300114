import Verif.Lemmas.DirichletMany
import Verif.Lemmas.IdealNumpyExists
import Verif.Props.SampleGroupBnb

/-! # Draws of the reference implementation -/

namespace Dist

open Spec FloatOps FloatNotation MeasureTheory ProbabilityTheory

variable {σ : Type} [MeasurableSpace σ]

/-! ## Beta -/

theorem beta_ae (a b : ℝ) : ∀ᵐ p ∂betaMeasure a b, 0 < p ∧ p < 1 := by
  have hm : Measurable (betaPDF a b) := (measurable_betaPDFReal a b).ennreal_ofReal
  rw [betaMeasure, ae_withDensity_iff hm]
  refine Filter.Eventually.of_forall fun x hx => ?_
  by_contra h
  apply hx
  rw [betaPDF_eq, if_neg h, ENNReal.ofReal_zero]

theorem beta_moment {a b : ℝ} (ha : 0 < a) (hb : 0 < b) (R S : ℕ) :
    ∫⁻ p, ENNReal.ofReal (p ^ R * (1 - p) ^ S) ∂betaMeasure a b =
      ENNReal.ofReal (Real.Gamma (a + b) / Real.Gamma ((a + R) + (b + S)) *
        (Real.Gamma (a + R) / Real.Gamma a) * (Real.Gamma (b + S) / Real.Gamma b)) := by
  have hm : Measurable (betaPDF a b) := (measurable_betaPDFReal a b).ennreal_ofReal
  have haR : 0 < a + (R : ℝ) := by positivity
  have hbS : 0 < b + (S : ℝ) := by positivity
  have h1 := beta_pos ha hb
  have h2 := beta_pos haR hbS
  rw [betaMeasure, lintegral_withDensity_eq_lintegral_mul _ hm (by fun_prop)]
  have e : ∀ p : ℝ, (betaPDF a b * fun p => ENNReal.ofReal (p ^ R * (1 - p) ^ S)) p =
      ENNReal.ofReal (beta (a + R) (b + S) / beta a b) * betaPDF (a + R) (b + S) p := by
    intro p
    rw [Pi.mul_apply, betaPDF_eq, betaPDF_eq]
    by_cases h : 0 < p ∧ p < 1
    · have hp := h.1
      have hq : 0 < 1 - p := by linarith [h.2]
      rw [if_pos h, if_pos h, ← ENNReal.ofReal_mul (by positivity), ← ENNReal.ofReal_mul (by positivity)]
      congr 1
      rw [show a + (R : ℝ) - 1 = (a - 1) + R by ring, show b + (S : ℝ) - 1 = (b - 1) + S by ring,
        Real.rpow_add hp, Real.rpow_add hq, Real.rpow_natCast, Real.rpow_natCast]
      field_simp
    · rw [if_neg h, if_neg h]; simp
  rw [lintegral_congr e, lintegral_const_mul' _ _ ENNReal.ofReal_ne_top,
    lintegral_betaPDF_eq_one haR hbS, mul_one]
  congr 1
  have g1 := Real.Gamma_pos_of_pos ha
  have g2 := Real.Gamma_pos_of_pos hb
  have g3 := Real.Gamma_pos_of_pos (add_pos ha hb)
  have g4 := Real.Gamma_pos_of_pos haR
  have g5 := Real.Gamma_pos_of_pos hbS
  have g6 := Real.Gamma_pos_of_pos (add_pos haR hbS)
  unfold beta
  field_simp

theorem coin_prod {p : ℝ} (h0 : 0 ≤ p) (h1 : p ≤ 1) (xs : List Bool) :
    ((xs.map fun v => ({v} : Set Bool)).map fun A => coinMeasure p A).prod =
      ENNReal.ofReal (p ^ xs.count true * (1 - p) ^ xs.count false) := by
  have hq : 0 ≤ 1 - p := by linarith
  induction xs with
  | nil => simp
  | cons v xs ih =>
    rw [List.map_cons, List.map_cons, List.prod_cons, ih]
    cases v
    · have : coinMeasure p {false} = ENNReal.ofReal (1 - p) := by simp [coinMeasure]
      rw [this, ← ENNReal.ofReal_mul hq]
      congr 1
      simp only [List.count_cons, beq_self_eq_true, if_true]
      simp; ring
    · have : coinMeasure p {true} = ENNReal.ofReal p := by simp [coinMeasure]
      rw [this, ← ENNReal.ofReal_mul h0]
      congr 1
      simp only [List.count_cons, beq_self_eq_true, if_true]
      simp; ring

/-- **A probability from a beta law once and then coins.** -/
theorem bb_many (I : IdealNumpy σ) {a b : ℝ} (ha : 0 < a) (hb : 0 < b) (xs : List Bool) {B : Set σ}
    (hB : MeasurableSet B) :
    I.P {s | ∃ s' ∈ B, sampleLoop
        (fun s₁ => .ok (I.toNumpy.bernoulli s₁ (.fin (I.beta (a, b) s).1))) xs.length
        (I.beta (a, b) s).2 = .ok (xs, s')} =
      ENNReal.ofReal (Real.Gamma (a + b) / Real.Gamma ((a + xs.count true) + (b + xs.count false)) *
        (Real.Gamma (a + xs.count true) / Real.Gamma a) *
        (Real.Gamma (b + xs.count false) / Real.Gamma b)) * I.P B := by
  haveI := I.prob
  haveI := isProbabilityMeasureBeta ha hb
  have hset : {s | ∃ s' ∈ B, sampleLoop
        (fun s₁ => .ok (I.toNumpy.bernoulli s₁ (.fin (I.beta (a, b) s).1))) xs.length
        (I.beta (a, b) s).2 = .ok (xs, s')} =
      I.beta (a, b) ⁻¹' iterSet (drawStep I.coin) (Set.univ ×ˢ B) (xs.map fun v => {v}) := by
    ext s
    show _ ↔ ((I.beta (a, b) s).1, (I.beta (a, b) s).2) ∈
      iterSet (drawStep I.coin) (Set.univ ×ˢ B) (xs.map fun v => {v})
    rw [← drawStep_values (emb := id) Function.injective_id
      (eval := fun s₁ => .ok (I.toNumpy.bernoulli s₁ (.fin (I.beta (a, b) s).1))) (fun s => rfl),
      List.map_id]
    rfl
  rw [hset, iterSet_law I.P (I.beta_meas _) (I.beta_law a b ha hb) (p := fun A => MeasurableSet A)
    (fun A C hA hC => drawStep_meas I.coin_meas A C hA hC)
    (k := fun p A => coinMeasure p A) (by
      filter_upwards [beta_ae a b] with p hp A C hA hC
      haveI := coinMeasure_prob hp.1.le hp.2.le
      exact drawStep_prob I.P I.coin_meas (I.coin_law p hp.1.le hp.2.le) A C hA hC) hB _ (by
      intro A hA
      obtain ⟨v, _, rfl⟩ := List.mem_map.mp hA
      exact measurableSet_singleton v), ← beta_moment ha hb]
  congr 1
  apply lintegral_congr_ae
  filter_upwards [beta_ae a b] with p hp
  exact coin_prod hp.1.le hp.2.le xs

/-- **A probability from a beta law once and then negative binomial values.** -/
theorem bnb_many (I : IdealNumpy σ) {a b : ℝ} (ha : 0 < a) (hb : 0 < b) {r : ℕ} (hr : 0 < r)
    (ns : List ℕ) {B : Set σ} (hB : MeasurableSet B) :
    I.P {s | ∃ s' ∈ B, sampleLoop
        (fun s₁ => .ok (I.toNumpy.negBinomial s₁ (.fin (I.beta (a, b) s).1) r)) ns.length
        (I.beta (a, b) s).2 = .ok (ns.map fun v : ℕ => (v : Int), s')} =
      ENNReal.ofReal ((ns.map fun v => (((r + v - 1).choose v : ℕ) : ℝ)).prod *
        (Real.Gamma (a + b) / Real.Gamma ((a + (r * ns.length : ℕ)) + (b + ns.sum)) *
        (Real.Gamma (a + (r * ns.length : ℕ)) / Real.Gamma a) *
        (Real.Gamma (b + ns.sum) / Real.Gamma b))) * I.P B := by
  haveI := I.prob
  haveI := isProbabilityMeasureBeta ha hb
  have hset : {s | ∃ s' ∈ B, sampleLoop
        (fun s₁ => .ok (I.toNumpy.negBinomial s₁ (.fin (I.beta (a, b) s).1) r)) ns.length
        (I.beta (a, b) s).2 = .ok (ns.map fun v : ℕ => (v : Int), s')} =
      I.beta (a, b) ⁻¹' iterSet (drawStep (I.negBinomial r)) (Set.univ ×ˢ B)
        (ns.map fun v => {v}) := by
    ext s
    show _ ↔ ((I.beta (a, b) s).1, (I.beta (a, b) s).2) ∈
      iterSet (drawStep (I.negBinomial r)) (Set.univ ×ˢ B) (ns.map fun v => {v})
    rw [← drawStep_values (emb := fun v : ℕ => (v : Int)) Nat.cast_injective
      (eval := fun s₁ => .ok (I.toNumpy.negBinomial s₁ (.fin (I.beta (a, b) s).1) r))
      (fun s => by simp [IdealNumpy.toNumpy, IdealRng.toRng])]
    rfl
  rw [hset, iterSet_law I.P (I.beta_meas _) (I.beta_law a b ha hb) (p := fun A => MeasurableSet A)
    (fun A C hA hC => drawStep_meas (I.negBinomial_meas r) A C hA hC)
    (k := fun p A => negBinomialMeasure r p A) (by
      filter_upwards [beta_ae a b] with p hp A C hA hC
      haveI : SFinite (negBinomialMeasure r p) := by
        unfold negBinomialMeasure; infer_instance
      exact drawStep_prob I.P (I.negBinomial_meas r) (I.negBinomial_law _ _ hr hp.1 hp.2)
        A C hA hC) hB _ (by
      intro A hA
      obtain ⟨v, _, rfl⟩ := List.mem_map.mp hA
      exact measurableSet_singleton v)]
  congr 1
  have hcn : 0 ≤ (ns.map fun v => (((r + v - 1).choose v : ℕ) : ℝ)).prod := by
    apply List.prod_nonneg
    intro x hx
    obtain ⟨v, _, rfl⟩ := List.mem_map.mp hx
    positivity
  have e : ∀ᵐ p ∂betaMeasure a b,
      ((ns.map fun v => ({v} : Set ℕ)).map fun A => negBinomialMeasure r p A).prod =
      ENNReal.ofReal ((ns.map fun v => (((r + v - 1).choose v : ℕ) : ℝ)).prod) *
        ENNReal.ofReal (p ^ (r * ns.length) * (1 - p) ^ ns.sum) := by
    filter_upwards [beta_ae a b] with p hp
    rw [← negBinomial_prod hp.1.le hp.2.le, List.map_map]
    congr 1
    apply List.map_congr_left
    intro v _
    simp only [Function.comp]
    rw [negBinomialMeasure, Measure.sum_apply _ (measurableSet_singleton _), tsum_eq_single v]
    · simp
    · intro j hj
      simp [hj]
  rw [lintegral_congr_ae e, lintegral_const_mul' _ _ ENNReal.ofReal_ne_top,
    beta_moment ha hb, ← ENNReal.ofReal_mul hcn]

/-! ## `sample_discrete` -/

namespace Dbg

theorem dart_iff (p : List ℝ) (hp : ∀ x ∈ p, 0 ≤ x) {t : ℝ} (ht : 0 < t) (k j : ℕ) :
    dartLoop (p.map XR.fin) k (.fin t) = some j ↔
      ∃ i < p.length, j = k + i ∧ cum p i < t ∧ t ≤ cum p (i + 1) := by
  induction p generalizing t k with
  | nil => simp [dartLoop]
  | cons x p ih =>
    simp only [List.map_cons, dartLoop, XR.fin_sub, XR.ofInt_eq, Int.cast_zero, XR.le_fin]
    have hx := hp x (by simp)
    have hp' : ∀ y ∈ p, 0 ≤ y := fun y hy => hp y (by simp [hy])
    split_ifs with h
    · constructor
      · intro e
        refine ⟨0, by simp, by simpa using (Option.some.inj e).symm, by rw [cum_zero]; exact ht, ?_⟩
        rw [cum_cons, cum_zero]; linarith
      · rintro ⟨i, _, rfl, h1, _⟩
        cases i with
        | zero => simp
        | succ i =>
          rw [cum_cons] at h1
          have := cum_mono hp' (Nat.zero_le i)
          rw [cum_zero] at this
          linarith
    · rw [ih hp' (by linarith)]
      constructor
      · rintro ⟨i, h1, rfl, h2, h3⟩
        refine ⟨i + 1, by simpa using h1, by omega, ?_, ?_⟩
        · rw [cum_cons]; linarith
        · rw [cum_cons]; linarith
      · rintro ⟨i, h1, rfl, h2, h3⟩
        cases i with
        | zero => rw [cum_cons, cum_zero] at h3; linarith
        | succ i =>
          rw [cum_cons] at h2 h3
          exact ⟨i, by simpa using h1, by omega, by linarith, by linarith⟩

theorem npSum_fin (l : List ℝ) : npSum (l.map XR.fin) = XR.fin l.sum := by
  have h : ∀ (l : List ℝ) (a : ℝ), (l.map XR.fin).foldl (· + ·) (XR.fin a) = .fin (a + l.sum) := by
    intro l
    induction l with
    | nil => intro a; simp
    | cons x l ih => intro a; rw [List.map_cons, List.foldl_cons, XR.fin_add, ih, List.sum_cons, add_assoc]
  rw [npSum, XR.ofInt_eq, h]; simp

/-- `sample_discrete` returns the index of the interval the dart falls into. -/
theorem sampleDiscrete_iff (I : IdealRng σ) (p : List ℝ) (hp : ∀ x ∈ p, 0 ≤ x) (hs : 0 < p.sum)
    (i : ℕ) (B : Set σ) (s : σ) (hu : (I.unif s).1 ∈ Set.Ioo (0 : ℝ) 1) :
    (∃ s' ∈ B, sampleDiscrete I.toRng s (p.map XR.fin) (.fin p.sum) = .ok (i, s')) ↔
      i < p.length ∧ I.unif s ∈ Set.Ioc (cum p i / p.sum) (cum p (i + 1) / p.sum) ×ˢ B := by
  set u := (I.unif s).1 with hu'
  have ht : 0 < u * p.sum := mul_pos hu.1 hs
  obtain ⟨j, hj⟩ : ∃ j, dartLoop (p.map XR.fin) 0 (.fin (u * p.sum)) = some j := by
    have h1 : u * p.sum ≤ cum p p.length := by
      rw [cum_length]; nlinarith [hu.2]
    have hex : ∃ k, u * p.sum ≤ cum p k := ⟨_, h1⟩
    have hk := Nat.find_spec hex
    have hk0 : Nat.find hex ≠ 0 := by
      intro h0
      rw [h0, cum_zero] at hk
      linarith
    obtain ⟨m, hm⟩ := Nat.exists_eq_succ_of_ne_zero hk0
    refine ⟨m, (dart_iff p hp ht 0 m).2 ⟨m, ?_, by simp, ?_, ?_⟩⟩
    · have := Nat.find_le (h := hex) h1 
      omega
    · exact not_le.1 (Nat.find_min hex (by omega))
    · rw [hm] at hk; exact hk
  have e : sampleDiscrete I.toRng s (p.map XR.fin) (.fin p.sum) = .ok (j, (I.unif s).2) := by
    rw [sampleDiscrete, attempts]
    simp only [IdealRng.toRng, XR.fin_mul]
    rw [← hu', hj]
  have hd := dart_iff p hp ht 0
  rw [e]
  simp only [Res.ok.injEq, Prod.mk.injEq, Set.mem_prod, Set.mem_Ioc, div_lt_iff₀ hs, le_div_iff₀ hs]
  constructor
  · rintro ⟨s', h1, rfl, rfl⟩
    obtain ⟨k, h2, h3, h4, h5⟩ := (hd j).1 hj
    obtain rfl : j = k := by omega
    exact ⟨h2, ⟨h4, h5⟩, h1⟩
  · rintro ⟨h1, ⟨h2, h3⟩, h4⟩
    have := (hd i).2 ⟨i, h1, by omega, h2, h3⟩
    rw [hj] at this
    exact ⟨_, h4, Option.some.inj this, rfl⟩

end Dbg

theorem unif_pos_ae (I : IdealRng σ) : ∀ᵐ s ∂I.P, (I.unif s).1 ∈ Set.Ioo (0 : ℝ) 1 := by
  refine I.unif_law.ae I.unif_meas (p := fun y => y ∈ Set.Ioo (0 : ℝ) 1) ?_
  have h0 : ∀ᵐ x : ℝ ∂(volume.restrict (Set.Ico 0 1)), x ≠ 0 :=
    ae_restrict_of_ae (Measure.ae_ne volume 0)
  filter_upwards [ae_restrict_mem measurableSet_Ico, h0] with x h1 h2
  exact ⟨lt_of_le_of_ne h1.1 (Ne.symm h2), h1.2⟩

theorem unif_interval' (I : IdealRng σ) {u v : ℝ} (h0 : 0 ≤ u) (h1 : v ≤ 1) {B : Set σ}
    (hB : MeasurableSet B) :
    I.P (I.unif ⁻¹' (Set.Ioc u v ×ˢ B)) = ENNReal.ofReal (v - u) * I.P B := by
  rw [← Measure.map_apply I.unif_meas (measurableSet_Ioc.prod hB), I.unif_law,
    Measure.prod_prod, Measure.restrict_congr_set Ico_ae_eq_Ioc,
    Measure.restrict_apply measurableSet_Ioc,
    Set.inter_eq_left.mpr (Set.Ioc_subset_Ioc h0 h1), Real.volume_Ioc]

/-! ## Dirichlet -/

theorem toNumpy_dirichlet (I : IdealNumpy σ) {n : ℕ} (a : Fin n → ℝ) (s : σ) :
    I.toNumpy.dirichlet s (List.ofFn fun i => XR.fin (a i)) =
      (List.ofFn fun i => XR.fin ((I.dirichlet a s).1 i), (I.dirichlet a s).2) := by
  have h : ∃ q : (n : ℕ) × (Fin n → ℝ),
      (List.ofFn fun i => XR.fin (a i)) = List.ofFn fun i => XR.fin (q.2 i) := ⟨⟨n, a⟩, rfl⟩
  have key : ∀ q : (n : ℕ) × (Fin n → ℝ),
      (List.ofFn fun i => XR.fin (a i)) = List.ofFn (fun i => XR.fin (q.2 i)) → q = ⟨n, a⟩ := by
    rintro ⟨m, b⟩ e
    have hl := congrArg List.length e
    simp only [List.length_ofFn] at hl
    subst hl
    have := List.ofFn_injective e
    congr 1
    funext i
    exact (XR.fin_inj.mp (congrFun this i)).symm
  simp only [IdealNumpy.toNumpy, dif_pos h]
  rw [key _ h.choose_spec]

/-- The next dart falls into the `i`-th interval. -/
def dartStep (I : IdealRng σ) (n : ℕ) (i : Fin n) (C : Set ((Fin n → ℝ) × σ)) :
    Set ((Fin n → ℝ) × σ) :=
  {q | below q.1 i < (I.unif q.2).1 ∧ (I.unif q.2).1 ≤ below q.1 i + share q.1 i ∧
    (q.1, (I.unif q.2).2) ∈ C}

theorem dartStep_meas (I : IdealRng σ) (n : ℕ) (i : Fin n) (C : Set ((Fin n → ℝ) × σ))
    (hC : MeasurableSet C) : MeasurableSet (dartStep I n i C) := by
  have hu : Measurable fun q : (Fin n → ℝ) × σ => I.unif q.2 := I.unif_meas.comp measurable_snd
  have hl2 : Measurable fun q : (Fin n → ℝ) × σ => below q.1 i := (below_meas i).comp measurable_fst
  have hp2 : Measurable fun q : (Fin n → ℝ) × σ => share q.1 i := (share_meas i).comp measurable_fst
  exact (measurableSet_lt hl2 (measurable_fst.comp hu)).inter
    ((measurableSet_le (measurable_fst.comp hu) (hl2.add hp2)).inter
      ((measurable_fst.prodMk (measurable_snd.comp hu)) hC))

section positive

variable {n : ℕ} {x : Fin n → ℝ} (hx : ∀ j, 0 < x j)

include hx

theorem dartStep_prob [Nonempty (Fin n)] (I : IdealRng σ) (i : Fin n)
    (C : Set ((Fin n → ℝ) × σ)) (hC : MeasurableSet C) :
    I.P (Prod.mk x ⁻¹' dartStep I n i C) =
      ENNReal.ofReal (share x i) * I.P (Prod.mk x ⁻¹' C) := by
  have h0 : 0 ≤ below x i := by
    have := cum_mono (share_nonneg hx) (Nat.zero_le i)
    rwa [cum_zero, (cum_share i).1] at this
  have h1 : below x i + share x i ≤ 1 := by
    rw [← (cum_share i).2, ← share_sum hx, ← cum_length]
    apply cum_mono (share_nonneg hx)
    simp
  have e : Prod.mk x ⁻¹' dartStep I n i C =
      I.unif ⁻¹' (Set.Ioc (below x i) (below x i + share x i) ×ˢ (Prod.mk x ⁻¹' C)) := by
    ext s
    simp [dartStep, and_assoc]
  rw [e, unif_interval' I h0 h1 (measurable_prodMk_left hC), add_sub_cancel_left]

omit hx in
theorem cum_ofFn (i : Fin n) : cum (List.ofFn x) i / (List.ofFn x).sum = below x i ∧
    cum (List.ofFn x) (i + 1) / (List.ofFn x).sum = below x i + share x i := by
  have h1 : cum (List.ofFn x) i / (List.ofFn x).sum = below x i := by
    rw [cum, List.sum_take_ofFn, List.sum_ofFn, Finset.sum_div]; rfl
  refine ⟨h1, ?_⟩
  rw [cum_succ (by simp), add_div, h1, List.sum_ofFn]
  simp [share]

/-- Which states make the reference `sample_discrete` return the indices of a list one after the
other. -/
theorem dart_loop_iff [Nonempty (Fin n)] (I : IdealRng σ) (is : List (Fin n)) (B : Set σ) (s : σ)
    (hs : Good (fun s => (I.unif s).1 ∈ Set.Ioo (0 : ℝ) 1) (fun s => (I.unif s).2) is.length s) :
    (∃ s' ∈ B, sampleLoop (fun s => Dbg.sampleDiscrete I.toRng s (List.ofFn fun i => XR.fin (x i))
        (Dbg.npSum (List.ofFn fun i => XR.fin (x i)))) is.length s = .ok (is.map Fin.val, s')) ↔
      (x, s) ∈ iterSet (dartStep I n) (Set.univ ×ˢ B) is := by
  have hmap : (List.ofFn fun i => XR.fin (x i)) = (List.ofFn x).map XR.fin := by
    rw [List.map_ofFn]; rfl
  have hpos : ∀ y ∈ List.ofFn x, 0 ≤ y := by
    intro y hy
    obtain ⟨j, rfl⟩ := (List.mem_ofFn' _ _).mp hy
    exact (hx j).le
  have hsum : 0 < (List.ofFn x).sum := by
    rw [List.sum_ofFn]
    exact Finset.sum_pos (fun k _ => hx k) Finset.univ_nonempty
  rw [hmap, Dbg.npSum_fin]
  have key := fun i C s hu => Dbg.sampleDiscrete_iff I (List.ofFn x) hpos hsum i C s hu
  have hlt : ∀ s v s', (I.unif s).1 ∈ Set.Ioo (0 : ℝ) 1 → Dbg.sampleDiscrete I.toRng s
      ((List.ofFn x).map XR.fin) (.fin (List.ofFn x).sum) = .ok (v, s') → s' = (I.unif s).2 := by
    intro s v s' hu h
    have := (key v {s'} s hu).1 ⟨s', rfl, h⟩
    exact this.2.2.symm
  induction is generalizing s with
  | nil =>
    simp [sampleLoop, iterSet]
  | cons i is ih =>
    obtain ⟨hu, hg⟩ := hs
    simp only [List.length_cons, sampleLoop, List.map_cons, iterSet, Res.bind_eq_ok, Res.pure_eq,
      Res.ok.injEq, Prod.mk.injEq, Prod.exists]
    have k := (cum_ofFn (x := x) i)
    constructor
    · rintro ⟨s', hs', v, s₁, he, vs', s₂, hl, hc, rfl⟩
      obtain ⟨rfl, rfl⟩ := List.cons.inj hc
      have h1 := (key i.val {s₁} s hu).1 ⟨s₁, rfl, he⟩
      have h2 := hlt _ _ _ hu he
      rw [k.1, k.2] at h1
      refine ⟨h1.2.1.1, h1.2.1.2, ?_⟩
      rw [← h2]
      rw [h2]
      exact (ih (I.unif s).2 hg).1 ⟨_, hs', by rw [← h2]; exact hl⟩
    · rintro ⟨h1, h2, h3⟩
      obtain ⟨s', h4, h5⟩ := (ih (I.unif s).2 hg).2 h3
      obtain ⟨s₁, rfl, he⟩ := (key i.val {(I.unif s).2} s hu).2
        ⟨by simp, by rw [k.1, k.2]; exact ⟨⟨h1, h2⟩, rfl⟩⟩
      exact ⟨s', h4, _, _, he, _, _, h5, rfl, rfl⟩

theorem share_share [Nonempty (Fin n)] (i : Fin n) : share (share x) i = share x i := by
  have h := share_sum hx
  rw [List.sum_ofFn] at h
  rw [share, h, div_one]

end positive

theorem dirichletMeasure_pos_ae {n : ℕ} [Nonempty (Fin n)] (a : Fin n → ℝ) (ha : ∀ i, 0 < a i) :
    ∀ᵐ x ∂dirichletMeasure a, ∀ i, 0 < x i := by
  haveI : ∀ i, IsProbabilityMeasure (gammaMeasure (a i) 1) := fun i =>
    isProbabilityMeasure_gammaMeasure (ha i) one_pos
  rw [dirichletMeasure, ae_map_iff (share_measurable n).aemeasurable (by
    rw [show {x : Fin n → ℝ | ∀ i, 0 < x i} = ⋂ i, {x | 0 < x i} by ext; simp]
    exact MeasurableSet.iInter fun i => measurableSet_lt measurable_const (measurable_pi_apply i))]
  filter_upwards [gammas_pos_ae a ha] with x hx i
  exact div_pos (hx i) (Finset.sum_pos (fun k _ => hx k) Finset.univ_nonempty)

/-- **Probabilities from numpy's Dirichlet law once and then indices from the reference
`sample_discrete`.** -/
theorem dirichlet_many_py (I : IdealNumpy σ) {n : ℕ} [Nonempty (Fin n)] (a : Fin n → ℝ)
    (ha : ∀ i, 0 < a i) (is : List (Fin n)) {B : Set σ} (hB : MeasurableSet B) :
    I.P {s | ∃ s' ∈ B, sampleLoop (fun s₁ => Dbg.sampleDiscrete I.toNumpy.toRng s₁
        (List.ofFn fun i => XR.fin ((I.dirichlet a s).1 i))
        (Dbg.npSum (List.ofFn fun i => XR.fin ((I.dirichlet a s).1 i)))) is.length
        (I.dirichlet a s).2 = .ok (is.map Fin.val, s')} =
      ENNReal.ofReal (Real.Gamma (∑ i, a i) / Real.Gamma (∑ i, a i + is.length) *
        ∏ i, Real.Gamma (a i + is.count i) / Real.Gamma (a i)) * I.P B := by
  haveI := I.prob
  haveI := dirichletMeasure_prob a ha
  have hD := I.dirichlet_meas a
  have hlaw := I.dirichlet_law a ha
  have hgood := good_ae I.P (unif_pos_ae I.toIdealRng) (next := fun s => (I.unif s).2)
    (fun q hq => I.unif_law.ae_state I.unif_meas hq) is.length
  have hset : I.P {s | ∃ s' ∈ B, sampleLoop (fun s₁ => Dbg.sampleDiscrete I.toNumpy.toRng s₁
        (List.ofFn fun i => XR.fin ((I.dirichlet a s).1 i))
        (Dbg.npSum (List.ofFn fun i => XR.fin ((I.dirichlet a s).1 i)))) is.length
        (I.dirichlet a s).2 = .ok (is.map Fin.val, s')} =
      I.P (I.dirichlet a ⁻¹' iterSet (dartStep I.toIdealRng n) (Set.univ ×ˢ B) is) := by
    apply measure_congr
    filter_upwards [hlaw.ae hD (dirichletMeasure_pos_ae a ha), hlaw.ae_state hD hgood] with s hx hu
    apply propext
    exact dart_loop_iff hx I.toIdealRng is B (I.dirichlet a s).2 hu
  rw [hset, iterSet_law I.P hD hlaw (p := fun _ => True)
    (fun i C _ hC => dartStep_meas I.toIdealRng n i C hC)
    (k := fun x i => ENNReal.ofReal (share x i))
    (by
      filter_upwards [dirichletMeasure_pos_ae a ha] with x hx i C _ hC
      exact dartStep_prob hx I.toIdealRng i C hC) hB is (fun _ _ => trivial)]
  congr 1
  have hm : Measurable fun x : Fin n → ℝ => (is.map fun i => ENNReal.ofReal (share x i)).prod := by
    have : ∀ is : List (Fin n),
        Measurable fun x : Fin n → ℝ => (is.map fun i => ENNReal.ofReal (share x i)).prod := by
      intro is
      induction is with
      | nil => simp
      | cons i is ih =>
        simp only [List.map_cons, List.prod_cons]
        exact (share_meas i).ennreal_ofReal.mul ih
    exact this is
  rw [dirichletMeasure, lintegral_map hm (share_measurable n), ← shares_moment a ha]
  apply lintegral_congr_ae
  filter_upwards [gammas_pos_ae a ha] with x hx
  congr 1
  apply List.map_congr_left
  intro i _
  exact congrArg _ (share_share hx i)

end Dist
