import Verif.Props.SampleGroup
import Verif.Props.SamplerLawsDiscrete

/-!
# C62: `sample_group` of the beta-negative-binomial model

The code's score leaves out the binomial coefficients of the values (C31), which the sampler cannot
leave out.
-/

namespace Dist

open Spec FloatOps FloatNotation MeasureTheory ProbabilityTheory

variable {σ : Type} [MeasurableSpace σ]

/-- Moments of a beta variable made of two gamma variables. -/
theorem beta_power {a b : ℝ} (ha : 0 < a) (hb : 0 < b) (R S : ℕ) :
    ∫⁻ x, ENNReal.ofReal ((x 0 / (x 0 + x 1)) ^ R * (1 - x 0 / (x 0 + x 1)) ^ S)
      ∂Measure.pi (fun i => gammaMeasure ((![a, b] : Fin 2 → ℝ) i) 1) =
      ENNReal.ofReal (Real.Gamma (a + b) / Real.Gamma ((a + R) + (b + S)) *
        (Real.Gamma (a + R) / Real.Gamma a) * (Real.Gamma (b + S) / Real.Gamma b)) := by
  have hp : ∀ i, 0 < (![a, b] : Fin 2 → ℝ) i := by
    intro i; fin_cases i
    · exact ha
    · exact hb
  have g1 := Real.Gamma_pos_of_pos ha
  have g2 := Real.Gamma_pos_of_pos hb
  have g3 := Real.Gamma_pos_of_pos (add_pos ha hb)
  haveI : ∀ i, IsProbabilityMeasure (gammaMeasure ((![a, b] : Fin 2 → ℝ) i) 1) := fun i =>
    isProbabilityMeasure_gammaMeasure (hp i) one_pos
  rcases Nat.eq_zero_or_pos (R + S) with h0 | h0
  · obtain ⟨rfl, rfl⟩ : R = 0 ∧ S = 0 := by omega
    simp [div_self g1.ne', div_self g2.ne', div_self g3.ne']
  have e : ∀ᵐ x ∂Measure.pi (fun i => gammaMeasure ((![a, b] : Fin 2 → ℝ) i) 1),
      ENNReal.ofReal ((x 0 / (x 0 + x 1)) ^ R * (1 - x 0 / (x 0 + x 1)) ^ S) =
      ENNReal.ofReal
        ((∏ i, x i ^ (![(R : ℝ), S] : Fin 2 → ℝ) i) *
          (∑ i, x i) ^ (-∑ i, (![(R : ℝ), S] : Fin 2 → ℝ) i)) := by
    filter_upwards [gammas_pos_ae _ hp] with x hx
    have h0 := hx 0
    have h1 := hx 1
    have hs : 0 < x 0 + x 1 := by linarith
    congr 1
    rw [Fin.prod_univ_two, Fin.sum_univ_two, Fin.sum_univ_two]
    simp only [Matrix.cons_val_zero, Matrix.cons_val_one, Real.rpow_natCast]
    rw [← Nat.cast_add, Real.rpow_neg hs.le, Real.rpow_natCast]
    have : 1 - x 0 / (x 0 + x 1) = x 1 / (x 0 + x 1) := by field_simp; ring
    rw [this, div_pow, div_pow, pow_add]
    field_simp
  have hk : ∀ i, 0 ≤ (![(R : ℝ), S] : Fin 2 → ℝ) i := by
    intro i; fin_cases i <;> simp
  rw [lintegral_congr_ae e,
    dirichlet_moment _ _ hp hk (by
      rw [Fin.sum_univ_two]; simp only [Matrix.cons_val_zero, Matrix.cons_val_one]
      exact_mod_cast h0)]
  congr 1
  rw [Fin.sum_univ_two, Fin.sum_univ_two, Fin.prod_univ_two]
  simp only [Matrix.cons_val_zero, Matrix.cons_val_one]
  rw [show a + b + ((R : ℝ) + S) = a + R + (b + S) by ring, mul_assoc]

theorem negBinomial_prod {p : ℝ} (h0 : 0 ≤ p) (h1 : p ≤ 1) (r : ℕ) (ns : List ℕ) :
    (ns.map fun v => ENNReal.ofReal ((r + v - 1).choose v * p ^ r * (1 - p) ^ v)).prod =
      ENNReal.ofReal ((ns.map fun v => (((r + v - 1).choose v : ℕ) : ℝ)).prod) *
        ENNReal.ofReal (p ^ (r * ns.length) * (1 - p) ^ ns.sum) := by
  have hq : 0 ≤ 1 - p := by linarith
  have hc : ∀ ns : List ℕ, 0 ≤ (ns.map fun v => (((r + v - 1).choose v : ℕ) : ℝ)).prod := by
    intro ns
    apply List.prod_nonneg
    intro x hx
    obtain ⟨v, _, rfl⟩ := List.mem_map.mp hx
    positivity
  induction ns with
  | nil => simp
  | cons v ns ih =>
    rw [List.map_cons, List.prod_cons, ih, ← ENNReal.ofReal_mul (hc _),
      ← ENNReal.ofReal_mul (by positivity), ← ENNReal.ofReal_mul (hc _)]
    congr 1
    rw [List.map_cons, List.prod_cons, List.sum_cons, List.length_cons, mul_add, mul_one, pow_add,
      pow_add]
    ring

/-- **C62 (beta-negative-binomial), partial.**  A data set is drawn with the probability
`score_data` describes times a binomial coefficient for every value; the two agree exactly if
`r = 1`.  Full statement: without the coefficients (false, `C62_bnb_fails`). -/
theorem C62_bnb_partial (I : IdealRng σ) (a b : ℝ) (ha : 0 < a) (hb : 0 < b) (r : UInt32)
    (hr : 0 < r.toNat) (xs : List UInt32) (hl : xs.length ≤ 2147483647)
    (hsum : totalValue xs < 2 ^ 32) {B : Set σ} (hB : MeasurableSet B) :
    ∃ g x, addAll BNB.ops BNB.Group.init xs = .ok g ∧ g.scoreData (BNB.real a b r) = .fin x ∧
      I.P {s | ∃ s' ∈ B, BNB.sampleGroup I.toRng s (BNB.real a b r) xs.length =
        .ok (xs.map fun v => (v.toNat : Int), s')} =
      ENNReal.ofReal ((xs.map fun v => (((r.toNat + v.toNat - 1).choose v.toNat : ℕ) : ℝ)).prod *
        Real.exp x) * I.P B := by
  obtain ⟨g, hg, rfl, -⟩ := addAll_summarises BNB.summarises xs hl
  refine ⟨_, _, hg, BNB.scoreData_eq ha hb _ _ _, ?_⟩
  set ns := xs.map UInt32.toNat with hns
  have hlen : ns.length = xs.length := by simp [hns]
  have hS : totalValue xs = ns.sum := by simp [totalValue, hns]
  let p : Fin 2 → ℝ := ![a, b]
  have hp : ∀ i, 0 < p i := by
    intro i; fin_cases i
    · exact ha
    · exact hb
  haveI : ∀ i, IsProbabilityMeasure (gammaMeasure (p i) 1) := fun i =>
    isProbabilityMeasure_gammaMeasure (hp i) one_pos
  let D : (Fin 2 → ℝ) × σ → ℕ × σ := fun w => I.negBinomial r.toNat (w.1 0 / (w.1 0 + w.1 1), w.2)
  have hD : Measurable D := by
    refine (I.negBinomial_meas r.toNat).comp (Measurable.prodMk ?_ measurable_snd)
    have m0 : Measurable fun w : (Fin 2 → ℝ) × σ => w.1 0 :=
      (measurable_pi_apply 0).comp measurable_fst
    have m1 : Measurable fun w : (Fin 2 → ℝ) × σ => w.1 1 :=
      (measurable_pi_apply 1).comp measurable_fst
    exact m0.div (m0.add m1)
  have hset : I.P {s | ∃ s' ∈ B, BNB.sampleGroup I.toRng s (BNB.real a b r) xs.length =
      .ok (xs.map fun v => (v.toNat : Int), s')} =
      I.P (gammaVec I 2 p ⁻¹' iterSet (drawStep D) (Set.univ ×ˢ B) (ns.map fun v => {v})) := by
    apply measure_congr
    filter_upwards [gammaVec_ae I 2 p hp] with s hs
    apply propext
    have g0 : (gammaVec I 2 p s).1 0 = (I.gamma ((a, 1), s)).1 := rfl
    have g1 : (gammaVec I 2 p s).1 1 = (I.gamma ((b, 1), (I.gamma ((a, 1), s)).2)).1 := rfl
    have g2 : (gammaVec I 2 p s).2 = (I.gamma ((b, 1), (I.gamma ((a, 1), s)).2)).2 := rfl
    have p0 := hs 0
    have p1 := hs 1
    rw [g0] at p0
    rw [g1] at p1
    have l1 : (lit 1 1 : XR) = .fin 1 := by rw [XR.lit_eq]; simp
    have ea : (BNB.real a b r).alpha + BNB.u32 r * BNB.u32 0 = XR.fin a := by
      simp [BNB.real, BNB.u32, XR.ofInt_eq]
    have eb : (BNB.real a b r).beta + BNB.u32 0 = XR.fin b := by
      simp [BNB.real, BNB.u32, XR.ofInt_eq]
    have er : (BNB.real a b r).r = r := rfl
    have ez : eqf (XR.fin (I.gamma ((a, 1), s)).1) (ofInt 0) = false := by
      rw [XR.ofInt_eq]
      simp [eqf, XR.le_fin, p0]
    have hsb : sampleBeta I.toRng s (XR.fin a) (XR.fin b) =
        (.fin ((gammaVec I 2 p s).1 0 / ((gammaVec I 2 p s).1 0 + (gammaVec I 2 p s).1 1)),
          (gammaVec I 2 p s).2) := by
      rw [sampleBeta, l1]
      simp only [IdealRng.toRng, ez, Bool.false_and, Bool.false_eq_true, if_false, XR.fin_add]
      rw [XR.fin_div _ _ (by positivity), g0, g1, g2]
    show _ ↔ ((gammaVec I 2 p s).1, (gammaVec I 2 p s).2) ∈
      iterSet (drawStep D) (Set.univ ×ˢ B) (ns.map fun v => {v})
    rw [← drawStep_values (emb := fun v : ℕ => (v : Int)) Nat.cast_injective
      (eval := fun s₁ => .ok (I.toRng.negBinomial s₁ (.fin ((gammaVec I 2 p s).1 0 /
        ((gammaVec I 2 p s).1 0 + (gammaVec I 2 p s).1 1))) r.toNat))
      (fun s => by simp [IdealRng.toRng, D]), hlen, hns, List.map_map]
    show (∃ s' ∈ B, BNB.sampleGroup I.toRng s (BNB.real a b r) xs.length = _) ↔ _
    rw [BNB.sampleGroup, sampleGroup_size hl, Res.ok_bind]
    simp only [BNB.Shared.plusGroup, er, ea, eb, hsb]
    rfl
  rw [hset, iterSet_law I.P (gammaVec_meas I 2 p) (gammaVec_law I 2 p hp)
    (p := fun A => MeasurableSet A)
    (fun A C hA hC => drawStep_meas hD A C hA hC)
    (k := fun y A => negBinomialMeasure r.toNat (y 0 / (y 0 + y 1)) A) (by
      filter_upwards [gammas_pos_ae p hp] with y hy A C hA hC
      have y0 := hy 0
      have y1 := hy 1
      have hp0 : 0 < y 0 / (y 0 + y 1) := by positivity
      have hp1 : y 0 / (y 0 + y 1) < 1 := by rw [div_lt_one (by positivity)]; linarith
      haveI : SFinite (negBinomialMeasure r.toNat (y 0 / (y 0 + y 1))) := by
        unfold negBinomialMeasure; infer_instance
      exact drawStep_prob I.P hD (I.negBinomial_law _ _ hr hp0 hp1) A C hA hC) hB _ (by
      intro A hA
      obtain ⟨v, _, rfl⟩ := List.mem_map.mp hA
      exact measurableSet_singleton v)]
  congr 1
  have e : ∀ᵐ y ∂Measure.pi (fun i => gammaMeasure (p i) 1),
      ((ns.map fun v => ({v} : Set ℕ)).map fun A =>
        negBinomialMeasure r.toNat (y 0 / (y 0 + y 1)) A).prod =
      ENNReal.ofReal ((ns.map fun v => (((r.toNat + v - 1).choose v : ℕ) : ℝ)).prod) *
        ENNReal.ofReal ((y 0 / (y 0 + y 1)) ^ (r.toNat * ns.length) *
          (1 - y 0 / (y 0 + y 1)) ^ ns.sum) := by
    filter_upwards [gammas_pos_ae p hp] with y hy
    have y0 := hy 0
    have y1 := hy 1
    have hp0 : 0 < y 0 / (y 0 + y 1) := by positivity
    have hp1 : y 0 / (y 0 + y 1) < 1 := by rw [div_lt_one (by positivity)]; linarith
    rw [← negBinomial_prod hp0.le hp1.le, List.map_map]
    congr 1
    apply List.map_congr_left
    intro v _
    simp only [Function.comp]
    rw [negBinomialMeasure, Measure.sum_apply _ (measurableSet_singleton _), tsum_eq_single v]
    · simp
    · intro j hj
      simp [hj]
  have hcn : 0 ≤ (ns.map fun v => (((r.toNat + v - 1).choose v : ℕ) : ℝ)).prod := by
    apply List.prod_nonneg
    intro x hx
    obtain ⟨v, _, rfl⟩ := List.mem_map.mp hx
    positivity
  rw [lintegral_congr_ae e, lintegral_const_mul' _ _ ENNReal.ofReal_ne_top,
    beta_power ha hb, ← ENNReal.ofReal_mul hcn]
  have hc1 : (UInt32.ofNat (Multiset.card (xs : Multiset UInt32))).toNat = xs.length := by
    rw [Multiset.coe_card, UInt32.toNat_ofNat', Nat.mod_eq_of_lt (by omega)]
  have hc2 : (UInt32.ofNat (totalValue xs)).toNat = ns.sum := by
    rw [UInt32.toNat_ofNat', Nat.mod_eq_of_lt hsum, hS]
  have e2 : ns.map (fun v => (((r.toNat + v - 1).choose v : ℕ) : ℝ)) =
      xs.map fun v => (((r.toNat + v.toNat - 1).choose v.toNat : ℕ) : ℝ) := by
    rw [hns, List.map_map]; rfl
  rw [hc1, hc2, hlen, e2]
  congr 2
  have g1 := Real.Gamma_pos_of_pos ha
  have g2 := Real.Gamma_pos_of_pos hb
  have g3 := Real.Gamma_pos_of_pos (add_pos ha hb)
  have h1 : 0 < a + (r.toNat : ℝ) * xs.length := by positivity
  have h2 : 0 < b + (ns.sum : ℝ) := by positivity
  have g4 := Real.Gamma_pos_of_pos h1
  have g5 := Real.Gamma_pos_of_pos h2
  have g6 := Real.Gamma_pos_of_pos (add_pos h1 h2)
  rw [Nat.cast_mul]
  simp only [Real.exp_add, Real.exp_sub, Real.exp_log g1, Real.exp_log g2, Real.exp_log g3,
    Real.exp_log g4, Real.exp_log g5, Real.exp_log g6]

/-- **C62 (beta-negative-binomial), one success.**  With `r = 1` the probability is the one
`score_data` describes. -/
theorem C62_bnb_one (I : IdealRng σ) (a b : ℝ) (ha : 0 < a) (hb : 0 < b) (xs : List UInt32)
    (hl : xs.length ≤ 2147483647) (hsum : totalValue xs < 2 ^ 32) {B : Set σ}
    (hB : MeasurableSet B) :
    ∃ g x, addAll BNB.ops BNB.Group.init xs = .ok g ∧ g.scoreData (BNB.real a b 1) = .fin x ∧
      I.P {s | ∃ s' ∈ B, BNB.sampleGroup I.toRng s (BNB.real a b 1) xs.length =
        .ok (xs.map fun v => (v.toNat : Int), s')} = ENNReal.ofReal (Real.exp x) * I.P B := by
  obtain ⟨g, x, h1, h2, h3⟩ := C62_bnb_partial I a b ha hb 1 (by decide) xs hl hsum hB
  refine ⟨g, x, h1, h2, ?_⟩
  rw [h3]
  have : xs.map (fun v => ((((1 : UInt32).toNat + v.toNat - 1).choose v.toNat : ℕ) : ℝ)) =
      xs.map fun _ => 1 := by
    apply List.map_congr_left
    intro v _
    simp [show (1 : UInt32).toNat = 1 from rfl]
  rw [this]
  simp

/-- Non-triviality: a uniform prior: two zeros have probability `1 / 3`. -/
example : ∃ I : IdealRng Supply, I.P {s | ∃ s', BNB.sampleGroup I.toRng s (BNB.real 1 1 1) 2 =
    .ok ([0, 0], s')} = ENNReal.ofReal (1 / 3) := by
  obtain ⟨I⟩ := idealRng_exists
  refine ⟨I, ?_⟩
  obtain ⟨g, x, h1, h2, h3⟩ := C62_bnb_one I 1 1 one_pos one_pos [0, 0] (by simp)
    (by simp [totalValue]) MeasurableSet.univ
  have e : addAll BNB.ops BNB.Group.init [0, 0] = .ok ⟨2, 0⟩ := rfl
  have hg := Res.ok.inj (h1.symm.trans e)
  subst hg
  rw [BNB.scoreData_eq one_pos one_pos] at h2
  have h6 : x = Real.log (1 / 3) := by
    rw [← XR.fin_inj.mp h2]
    norm_num [show (1 : UInt32).toNat = 1 from rfl, show (2 : UInt32).toNat = 2 from rfl,
      gamma_three, gamma_four, Real.Gamma_two]
    rw [show (6 : ℝ) = 2 * 3 by norm_num, Real.log_mul (by norm_num) (by norm_num), one_div,
      Real.log_inv]
    ring
  rw [h6, Real.exp_log (by norm_num)] at h3
  simpa using h3

/-- **C62 (beta-negative-binomial), finding.** With two successes the data set `[1]` is drawn with
twice the probability `score_data` describes. -/
theorem C62_bnb_fails (I : IdealRng σ) (a b : ℝ) (ha : 0 < a) (hb : 0 < b) :
    ∃ g x, addAll BNB.ops BNB.Group.init [1] = .ok g ∧ g.scoreData (BNB.real a b 2) = .fin x ∧
      I.P {s | ∃ s', BNB.sampleGroup I.toRng s (BNB.real a b 2) 1 = .ok ([1], s')} ≠
        ENNReal.ofReal (Real.exp x) := by
  obtain ⟨g, x, h1, h2, h3⟩ := C62_bnb_partial I a b ha hb 2 (by decide) [1] (by simp)
    (by simp [totalValue]) MeasurableSet.univ
  refine ⟨g, x, h1, h2, ?_⟩
  have e : I.P {s | ∃ s', BNB.sampleGroup I.toRng s (BNB.real a b 2) 1 = .ok ([1], s')} =
      ENNReal.ofReal (2 * Real.exp x) := by
    have h4 : ((((2 : UInt32).toNat + (1 : UInt32).toNat - 1).choose (1 : UInt32).toNat : ℕ) : ℝ) =
        2 := by norm_num [show (1 : UInt32).toNat = 1 from rfl, show (2 : UInt32).toNat = 2 from rfl]
    simp only [List.map_cons, List.map_nil, List.prod_cons, List.prod_nil, mul_one] at h3
    rw [h4] at h3
    simpa using h3
  rw [e, Ne, ENNReal.ofReal_eq_ofReal_iff (by positivity) (by positivity)]
  have := Real.exp_pos x
  intro h
  linarith

end Dist
