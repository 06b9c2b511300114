import Verif.Lemmas.RefSample
import Verif.Lemmas.PoissonMany
import Verif.Props.Reference

/-!
# C68: the samplers of the reference implementation have the laws of its scores

Under the laws of `Spec.IdealNumpy`: after any data `xs` were added, `sample_value` returns `v` with
probability `exp(score_value(v))`, and `sample_group(shared, n)` returns a list of `n` values with
probability `exp(score_data)` of the group that holds them.  The remaining stream of random numbers
is independent of the result.
-/

namespace Dist

open Spec FloatOps FloatNotation MeasureTheory ProbabilityTheory

variable {σ : Type} [MeasurableSpace σ]

theorem sampleLoop_one {σ V : Type} {eval : σ → Res (V × σ)} {s s' : σ} {v : V} :
    sampleLoop eval 1 s = .ok ([v], s') ↔ eval s = .ok (v, s') := by
  simp only [sampleLoop, Res.bind_eq_ok, Res.pure_eq, Res.ok.injEq, Prod.mk.injEq, Prod.exists]
  constructor
  · rintro ⟨v', s₁, h, vs, s₂, ⟨rfl, rfl⟩, h2, rfl⟩
    simp only [List.cons.injEq, and_true] at h2
    rw [h, h2]
  · intro h; exact ⟨v, s', h, [], s', ⟨rfl, rfl⟩, rfl, rfl⟩

/-! ## Beta-Bernoulli -/

theorem Dbg.BB.fold_eq (xs : List Bool) :
    xs.foldl Dbg.BB.Group.addValue Dbg.BB.Group.init = ⟨xs.count true, xs.count false⟩ := by
  have h : ∀ (xs : List Bool) (g : Dbg.BB.Group), xs.foldl Dbg.BB.Group.addValue g =
      ⟨g.heads + xs.count true, g.tails + xs.count false⟩ := by
    intro xs
    induction xs with
    | nil => intro g; simp
    | cons v xs ih =>
      intro g
      rw [List.foldl_cons, ih]
      cases v
      · simp [Dbg.BB.Group.addValue]; omega
      · simp [Dbg.BB.Group.addValue]; omega
  rw [h]; simp [Dbg.BB.Group.init]

/-- **C68 (Beta-Bernoulli), one value.** -/
theorem C68_bb_value (I : IdealNumpy σ) (a b : ℝ) (ha : 0 < a) (hb : 0 < b) (xs : List Bool)
    (v : Bool) {B : Set σ} (hB : MeasurableSet B) :
    ∃ x : ℝ, (xs.foldl Dbg.BB.Group.addValue Dbg.BB.Group.init).scoreValue ⟨XR.fin a, XR.fin b⟩ v =
        .ok (.fin x) ∧
      I.P {s | ∃ s' ∈ B, (xs.foldl Dbg.BB.Group.addValue Dbg.BB.Group.init).sampleValue I.toNumpy s
        ⟨XR.fin a, XR.fin b⟩ = .ok (v, s')} = ENNReal.ofReal (Real.exp x) * I.P B := by
  rw [Dbg.BB.fold_eq]
  have ha' : 0 < a + (xs.count true : ℝ) := by positivity
  have hb' : 0 < b + (xs.count false : ℝ) := by positivity
  have h := bb_many I ha' hb' [v] hB
  refine ⟨Real.log ((if v then a + (xs.count true : ℝ) else b + (xs.count false : ℝ)) /
    (a + (xs.count true : ℝ) + (b + (xs.count false : ℝ)))), ?_, ?_⟩
  · simp only [Dbg.BB.Group.scoreValue, XR.ofInt_eq, XR.fin_add, Int.cast_natCast]
    cases v
    · simp only [Bool.false_eq_true, if_false]
      rw [Dbg.pyDiv_fin (by positivity), Res.ok_bind, Dbg.pyLog_fin (by positivity)]
    · simp only [if_true]
      rw [Dbg.pyDiv_fin (by positivity), Res.ok_bind, Dbg.pyLog_fin (by positivity)]
  · rw [Real.exp_log (by split_ifs <;> positivity)]
    have e : ∀ s s', (Dbg.BB.Group.sampleValue I.toNumpy s ⟨XR.fin a, XR.fin b⟩
        ⟨xs.count true, xs.count false⟩ = .ok (v, s')) ↔ sampleLoop (fun s₁ => .ok
          (I.toNumpy.bernoulli s₁ (.fin (I.beta (a + (xs.count true : ℝ), b + (xs.count false : ℝ))
            s).1))) [v].length (I.beta (a + (xs.count true : ℝ), b + (xs.count false : ℝ)) s).2 =
          .ok ([v], s') := by
      intro s s'
      rw [List.length_singleton, sampleLoop_one]
      simp only [Dbg.BB.Group.sampleValue, XR.ofInt_eq, XR.fin_add, Int.cast_natCast]
      rfl
    simp_rw [e]
    rw [h]
    congr 2
    have g1 := (Real.Gamma_pos_of_pos ha').ne'
    have g2 := (Real.Gamma_pos_of_pos hb').ne'
    have g3 := (Real.Gamma_pos_of_pos (add_pos ha' hb')).ne'
    have g4 := (add_pos ha' hb').ne'
    cases v
    · simp only [List.count_singleton, beq_true, Bool.false_eq_true, if_false, Nat.cast_zero,
        add_zero, beq_self_eq_true, if_true, Nat.cast_one, Bool.not_false]
      rw [show a + (xs.count true : ℝ) + (b + (xs.count false : ℝ) + 1) =
        a + (xs.count true : ℝ) + (b + (xs.count false : ℝ)) + 1 by ring,
        Real.Gamma_add_one hb'.ne', Real.Gamma_add_one g4, div_self g1]
      field_simp
    · simp only [List.count_singleton, beq_true, beq_false, Bool.false_eq_true, if_false,
        Nat.cast_zero, add_zero, if_true, Nat.cast_one, Bool.not_true]
      rw [show a + (xs.count true : ℝ) + 1 + (b + (xs.count false : ℝ)) =
        a + (xs.count true : ℝ) + (b + (xs.count false : ℝ)) + 1 by ring,
        Real.Gamma_add_one ha'.ne', Real.Gamma_add_one g4, div_self g2]
      field_simp

/-- **C68 (Beta-Bernoulli), a group.** -/
theorem C68_bb_group (I : IdealNumpy σ) (a b : ℝ) (ha : 0 < a) (hb : 0 < b) (xs : List Bool)
    {B : Set σ} (hB : MeasurableSet B) :
    ∃ x : ℝ, (xs.foldl Dbg.BB.Group.addValue Dbg.BB.Group.init).scoreData ⟨XR.fin a, XR.fin b⟩ =
        .fin x ∧
      I.P {s | ∃ s' ∈ B, Dbg.BB.sampleGroup I.toNumpy s ⟨XR.fin a, XR.fin b⟩ xs.length =
        .ok (xs, s')} = ENNReal.ofReal (Real.exp x) * I.P B := by
  rw [Dbg.BB.fold_eq]
  have ha' : 0 < a + (xs.count true : ℝ) := by positivity
  have hb' : 0 < b + (xs.count false : ℝ) := by positivity
  have h := bb_many I ha hb xs hB
  simp only [Dbg.BB.Group.scoreData, XR.ofInt_eq, XR.fin_add, Int.cast_natCast]
  rw [XR.lgamma_fin (by positivity), XR.lgamma_fin (by positivity), XR.lgamma_fin ha',
    XR.lgamma_fin ha, XR.lgamma_fin hb', XR.lgamma_fin hb]
  simp only [XR.fin_sub, XR.fin_add]
  refine ⟨_, rfl, ?_⟩
  have e : ∀ s, Dbg.BB.sampleGroup I.toNumpy s ⟨XR.fin a, XR.fin b⟩ xs.length =
      sampleLoop (fun s₁ => .ok (I.toNumpy.bernoulli s₁ (.fin (I.beta (a, b) s).1))) xs.length
        (I.beta (a, b) s).2 := by
    intro s
    simp only [Dbg.BB.sampleGroup, Dbg.BB.Group.init, XR.ofInt_eq, XR.fin_add, Int.cast_zero,
      add_zero]
    rfl
  simp_rw [e]
  rw [h]
  congr 2
  simp only [Real.exp_add, Real.exp_sub, Real.exp_log (Real.Gamma_pos_of_pos ha),
    Real.exp_log (Real.Gamma_pos_of_pos hb), Real.exp_log (Real.Gamma_pos_of_pos ha'),
    Real.exp_log (Real.Gamma_pos_of_pos hb'), Real.exp_log (Real.Gamma_pos_of_pos (add_pos ha hb)),
    Real.exp_log (Real.Gamma_pos_of_pos (add_pos ha' hb'))]

/-- Non-triviality: a uniform prior: `true` after `true` has probability `2 / 3`. -/
example : ∃ I : IdealNumpy Supply, I.P {s | ∃ s', Dbg.BB.Group.sampleValue I.toNumpy s
    ⟨XR.fin 1, XR.fin 1⟩ ⟨1, 0⟩ = .ok (true, s')} = ENNReal.ofReal (2 / 3) := by
  obtain ⟨I⟩ := idealNumpy_exists
  refine ⟨I, ?_⟩
  haveI := I.prob
  obtain ⟨x, h1, h2⟩ := C68_bb_value I 1 1 one_pos one_pos [true] true MeasurableSet.univ
  have hg : [true].foldl Dbg.BB.Group.addValue Dbg.BB.Group.init = ⟨1, 0⟩ := rfl
  rw [hg] at h1 h2
  simp only [Dbg.BB.Group.scoreValue, XR.ofInt_eq, XR.fin_add, if_true] at h1
  rw [Dbg.pyDiv_fin (by norm_num), Res.ok_bind, Dbg.pyLog_fin (by norm_num)] at h1
  have h3 := XR.fin_inj.mp (Res.ok.inj h1)
  rw [← h3, Real.exp_log (by norm_num)] at h2
  norm_num at h2
  simpa using h2

/-! ## Beta-negative-binomial -/

theorem Dbg.BNB.fold_eq (ns : List ℕ) :
    (ns.map fun v : ℕ => (v : Int)).foldl Dbg.BNB.Group.addValue Dbg.BNB.Group.init =
      ⟨ns.length, (ns.sum : ℕ)⟩ := by
  have h : ∀ (ns : List ℕ) (g : Dbg.BNB.Group),
      (ns.map fun v : ℕ => (v : Int)).foldl Dbg.BNB.Group.addValue g =
      ⟨g.count + ns.length, g.sum + (ns.sum : ℕ)⟩ := by
    intro ns
    induction ns with
    | nil => intro g; simp
    | cons v ns ih =>
      intro g
      rw [List.map_cons, List.foldl_cons, ih]
      simp [Dbg.BNB.Group.addValue]; omega
  rw [h]; simp [Dbg.BNB.Group.init]

/-- **C68 (beta-negative-binomial), one value, partial.**  The probability of a value is the one
`score_value` describes times a binomial coefficient.  Full statement: without the coefficient
(false unless the coefficient is 1, `C68_bnb_fails`). -/
theorem C68_bnb_value_partial (I : IdealNumpy σ) (a b : ℝ) (ha : 0 < a) (hb : 0 < b) (r : ℕ)
    (hr : 0 < r) (ns : List ℕ) (v : ℕ) {B : Set σ} (hB : MeasurableSet B) :
    ∃ x : ℝ, ((ns.map fun v : ℕ => (v : Int)).foldl Dbg.BNB.Group.addValue
          Dbg.BNB.Group.init).scoreValue ⟨XR.fin a, XR.fin b, r⟩ v = .fin x ∧
      I.P {s | ∃ s' ∈ B, ((ns.map fun v : ℕ => (v : Int)).foldl Dbg.BNB.Group.addValue
          Dbg.BNB.Group.init).sampleValue I.toNumpy s ⟨XR.fin a, XR.fin b, r⟩ = .ok ((v : Int), s')} =
        ENNReal.ofReal ((r + v - 1).choose v * Real.exp x) * I.P B := by
  rw [Dbg.BNB.fold_eq]
  have ha' : 0 < a + ((r * ns.length : ℕ) : ℝ) := by positivity
  have hb' : 0 < b + ((ns.sum : ℕ) : ℝ) := by positivity
  have ha2 : 0 < a + ((r * ns.length : ℕ) : ℝ) + (r : ℝ) := by positivity
  have hb2 : 0 < b + ((ns.sum : ℕ) : ℝ) + (v : ℝ) := by positivity
  have h := bnb_many I ha' hb' hr [v] hB
  have hp : Dbg.BNB.Shared.plusGroup (⟨XR.fin a, XR.fin b, r⟩ : Dbg.BNB.Shared XR)
      ⟨ns.length, (ns.sum : ℕ)⟩ =
      ⟨XR.fin (a + ((r * ns.length : ℕ) : ℝ)), XR.fin (b + ((ns.sum : ℕ) : ℝ)), r⟩ := by
    simp only [Dbg.BNB.Shared.plusGroup, XR.ofInt_eq, XR.fin_add, Int.cast_mul, Int.cast_natCast,
      Nat.cast_mul]
  simp only [Dbg.BNB.Group.scoreValue, hp, XR.ofInt_eq, XR.fin_add, Int.cast_natCast]
  rw [XR.lgamma_fin (by positivity), XR.lgamma_fin (by positivity), XR.lgamma_fin ha2,
    XR.lgamma_fin ha', XR.lgamma_fin hb2, XR.lgamma_fin hb']
  simp only [XR.fin_sub, XR.fin_add]
  refine ⟨_, rfl, ?_⟩
  have e : ∀ s s', (Dbg.BNB.Group.sampleValue I.toNumpy s ⟨XR.fin a, XR.fin b, r⟩
      ⟨ns.length, (ns.sum : ℕ)⟩ = .ok ((v : Int), s')) ↔ sampleLoop (fun s₁ => .ok
        (I.toNumpy.negBinomial s₁ (.fin (I.beta (a + ((r * ns.length : ℕ) : ℝ),
          b + ((ns.sum : ℕ) : ℝ)) s).1) r)) [v].length
          (I.beta (a + ((r * ns.length : ℕ) : ℝ), b + ((ns.sum : ℕ) : ℝ)) s).2 =
        .ok ([v].map fun v : ℕ => (v : Int), s') := by
    intro s s'
    rw [List.length_singleton, List.map_singleton, sampleLoop_one]
    simp only [Dbg.BNB.Group.sampleValue, hp]
    rfl
  simp_rw [e]
  rw [h]
  congr 2
  simp only [List.map_singleton, List.prod_singleton, List.length_singleton, List.sum_singleton,
    mul_one]
  simp only [Real.exp_add, Real.exp_sub, Real.exp_log (Real.Gamma_pos_of_pos ha'),
    Real.exp_log (Real.Gamma_pos_of_pos hb'), Real.exp_log (Real.Gamma_pos_of_pos ha2),
    Real.exp_log (Real.Gamma_pos_of_pos hb2), Real.exp_log (Real.Gamma_pos_of_pos (add_pos ha' hb')),
    Real.exp_log (Real.Gamma_pos_of_pos (add_pos ha2 hb2))]

/-- **C68 (beta-negative-binomial), a group, partial.**  The probability of a data set is the one
`score_data` describes times a binomial coefficient for every value.  Full statement: without the
coefficients (false, `C68_bnb_fails`). -/
theorem C68_bnb_group_partial (I : IdealNumpy σ) (a b : ℝ) (ha : 0 < a) (hb : 0 < b) (r : ℕ)
    (hr : 0 < r) (ns : List ℕ) {B : Set σ} (hB : MeasurableSet B) :
    ∃ x : ℝ, ((ns.map fun v : ℕ => (v : Int)).foldl Dbg.BNB.Group.addValue
          Dbg.BNB.Group.init).scoreData ⟨XR.fin a, XR.fin b, r⟩ = .fin x ∧
      I.P {s | ∃ s' ∈ B, Dbg.BNB.sampleGroup I.toNumpy s ⟨XR.fin a, XR.fin b, r⟩ ns.length =
          .ok (ns.map fun v : ℕ => (v : Int), s')} =
        ENNReal.ofReal ((ns.map fun v => (((r + v - 1).choose v : ℕ) : ℝ)).prod * Real.exp x) *
          I.P B := by
  rw [Dbg.BNB.fold_eq]
  have ha' : 0 < a + ((r * ns.length : ℕ) : ℝ) := by positivity
  have hb' : 0 < b + ((ns.sum : ℕ) : ℝ) := by positivity
  have h := bnb_many I ha hb hr ns hB
  have hp : Dbg.BNB.Shared.plusGroup (⟨XR.fin a, XR.fin b, r⟩ : Dbg.BNB.Shared XR)
      ⟨ns.length, (ns.sum : ℕ)⟩ =
      ⟨XR.fin (a + ((r * ns.length : ℕ) : ℝ)), XR.fin (b + ((ns.sum : ℕ) : ℝ)), r⟩ := by
    simp only [Dbg.BNB.Shared.plusGroup, XR.ofInt_eq, XR.fin_add, Int.cast_mul, Int.cast_natCast,
      Nat.cast_mul]
  have h0 : Dbg.BNB.Shared.plusGroup (⟨XR.fin a, XR.fin b, r⟩ : Dbg.BNB.Shared XR)
      Dbg.BNB.Group.init = ⟨XR.fin a, XR.fin b, r⟩ := by
    simp [Dbg.BNB.Shared.plusGroup, Dbg.BNB.Group.init]
  simp only [Dbg.BNB.Group.scoreData, hp, XR.fin_add]
  rw [XR.lgamma_fin (by positivity), XR.lgamma_fin (by positivity), XR.lgamma_fin ha',
    XR.lgamma_fin ha, XR.lgamma_fin hb', XR.lgamma_fin hb]
  simp only [XR.fin_sub, XR.fin_add]
  refine ⟨_, rfl, ?_⟩
  have e : ∀ s, Dbg.BNB.sampleGroup I.toNumpy s ⟨XR.fin a, XR.fin b, r⟩ ns.length =
      sampleLoop (fun s₁ => .ok (I.toNumpy.negBinomial s₁ (.fin (I.beta (a, b) s).1) r)) ns.length
        (I.beta (a, b) s).2 := by
    intro s
    simp only [Dbg.BNB.sampleGroup, h0]
    rfl
  simp_rw [e]
  rw [h]
  congr 2
  simp only [Real.exp_add, Real.exp_sub, Real.exp_log (Real.Gamma_pos_of_pos ha),
    Real.exp_log (Real.Gamma_pos_of_pos hb), Real.exp_log (Real.Gamma_pos_of_pos ha'),
    Real.exp_log (Real.Gamma_pos_of_pos hb'), Real.exp_log (Real.Gamma_pos_of_pos (add_pos ha hb)),
    Real.exp_log (Real.Gamma_pos_of_pos (add_pos ha' hb'))]

/-- **C68 (beta-negative-binomial), one success.**  With `r = 1` the probability is the one
`score_data` describes. -/
theorem C68_bnb_one (I : IdealNumpy σ) (a b : ℝ) (ha : 0 < a) (hb : 0 < b) (ns : List ℕ) {B : Set σ}
    (hB : MeasurableSet B) :
    ∃ x : ℝ, ((ns.map fun v : ℕ => (v : Int)).foldl Dbg.BNB.Group.addValue
          Dbg.BNB.Group.init).scoreData ⟨XR.fin a, XR.fin b, 1⟩ = .fin x ∧
      I.P {s | ∃ s' ∈ B, Dbg.BNB.sampleGroup I.toNumpy s ⟨XR.fin a, XR.fin b, 1⟩ ns.length =
          .ok (ns.map fun v : ℕ => (v : Int), s')} = ENNReal.ofReal (Real.exp x) * I.P B := by
  obtain ⟨x, h1, h2⟩ := C68_bnb_group_partial I a b ha hb 1 one_pos ns hB
  refine ⟨x, h1, ?_⟩
  have : (ns.map fun v => (((1 + v - 1).choose v : ℕ) : ℝ)) = ns.map fun _ => 1 := by
    apply List.map_congr_left
    intro v _
    simp
  rw [this] at h2
  simpa using h2

/-- **C68 (beta-negative-binomial), finding.** With two successes the value 1 is drawn with twice
the probability `score_value` describes. -/
theorem C68_bnb_fails (I : IdealNumpy σ) (a b : ℝ) (ha : 0 < a) (hb : 0 < b) :
    ∃ x : ℝ, Dbg.BNB.Group.init.scoreValue ⟨XR.fin a, XR.fin b, 2⟩ 1 = .fin x ∧
      I.P {s | ∃ s', Dbg.BNB.Group.init.sampleValue I.toNumpy s ⟨XR.fin a, XR.fin b, 2⟩ =
        .ok (1, s')} ≠ ENNReal.ofReal (Real.exp x) := by
  haveI := I.prob
  obtain ⟨x, h1, h2⟩ := C68_bnb_value_partial I a b ha hb 2 two_pos [] 1 MeasurableSet.univ
  refine ⟨x, h1, ?_⟩
  have e : I.P {s | ∃ s', Dbg.BNB.Group.init.sampleValue I.toNumpy s ⟨XR.fin a, XR.fin b, 2⟩ =
      .ok (1, s')} = ENNReal.ofReal (2 * Real.exp x) := by
    have h3 : (((2 + 1 - 1).choose 1 : ℕ) : ℝ) = 2 := by norm_num
    rw [h3] at h2
    simpa using h2
  rw [e, Ne, ENNReal.ofReal_eq_ofReal_iff (by positivity) (by positivity)]
  have := Real.exp_pos x
  intro h
  linarith

/-- Non-triviality: two zeros from a uniform prior. -/
example (I : IdealNumpy Supply) : ∃ x : ℝ,
    Dbg.BNB.Group.scoreData ⟨XR.fin 1, XR.fin 1, 1⟩ ⟨2, 0⟩ = .fin x ∧
    I.P {s | ∃ s', Dbg.BNB.sampleGroup I.toNumpy s ⟨XR.fin 1, XR.fin 1, 1⟩ 2 = .ok ([0, 0], s')} =
      ENNReal.ofReal (Real.exp x) := by
  haveI := I.prob
  obtain ⟨x, h1, h2⟩ := C68_bnb_one I 1 1 one_pos one_pos [0, 0] MeasurableSet.univ
  exact ⟨x, h1, by simpa using h2⟩

/-! ## Gamma-Poisson -/

theorem Dbg.GP.fold_eq (ns : List ℕ) :
    (ns.map fun v : ℕ => (v : Int)).foldlM Dbg.GP.Group.addValue
        (Dbg.GP.Group.init : Dbg.GP.Group XR) =
      .ok ⟨ns.length, (ns.sum : ℕ), .fin (ns.map fun v : ℕ => Real.log v.factorial).sum⟩ := by
  have h : ∀ (ns : List ℕ) (n m : Int) (l : ℝ),
      (ns.map fun v : ℕ => (v : Int)).foldlM Dbg.GP.Group.addValue
        (⟨n, m, .fin l⟩ : Dbg.GP.Group XR) =
      .ok ⟨n + ns.length, m + (ns.sum : ℕ),
        .fin (l + (ns.map fun v : ℕ => Real.log v.factorial).sum)⟩ := by
    intro ns
    induction ns with
    | nil => intro n m l; simp [Res.pure_eq]
    | cons v ns ih =>
      intro n m l
      have h1 : Dbg.GP.Group.addValue (⟨n, m, .fin l⟩ : Dbg.GP.Group XR) (v : Int) =
          .ok ⟨n + 1, m + v, .fin (l + Real.log v.factorial)⟩ := by
        rw [Dbg.GP.Group.addValue, Dbg.logFact, if_neg (by omega), Res.ok_bind]
        simp [Res.pure_eq]
      rw [List.map_cons, List.foldlM_cons, h1]
      show (List.map _ ns).foldlM _ _ = _
      rw [ih]
      simp only [List.length_cons, List.sum_cons, List.map_cons, Nat.cast_add, Nat.cast_one]
      congr 2
      · omega
      · omega
      · rw [add_assoc]
  have := h ns 0 0 0
  simpa [Dbg.GP.Group.init] using this

/-- **C68 (Gamma-Poisson), one value.** -/
theorem C68_gp_value (I : IdealNumpy σ) (a b : ℝ) (ha : 0 < a) (hb : 0 < b) (ns : List ℕ) (v : ℕ)
    {B : Set σ} (hB : MeasurableSet B) :
    ∃ g x, (ns.map fun v : ℕ => (v : Int)).foldlM Dbg.GP.Group.addValue
        (Dbg.GP.Group.init : Dbg.GP.Group XR) = .ok g ∧
      g.scoreValue ⟨XR.fin a, XR.fin b⟩ v = .ok (.fin x) ∧
      I.P {s | ∃ s' ∈ B, g.sampleValue I.toNumpy s ⟨XR.fin a, XR.fin b⟩ = .ok ((v : Int), s')} =
        ENNReal.ofReal (Real.exp x) * I.P B := by
  have ha' : 0 < a + ((ns.sum : ℕ) : ℝ) := by positivity
  have hb' : 0 < b + (ns.length : ℝ) := by positivity
  have h := gp_many I.toIdealRng ha' hb' [v] hB
  have hp : ∀ l, Dbg.GP.plusGroup (⟨XR.fin a, XR.fin b⟩ : GP.Shared XR)
      ⟨ns.length, (ns.sum : ℕ), l⟩ =
      ⟨XR.fin (a + ((ns.sum : ℕ) : ℝ)), XR.fin (b + (ns.length : ℝ))⟩ := by
    intro l; simp only [Dbg.GP.plusGroup, XR.ofInt_eq, XR.fin_add, Int.cast_natCast]
  refine ⟨_, Real.log (Real.Gamma (a + ((ns.sum : ℕ) : ℝ) + ([v].sum : ℕ))) -
      Real.log (Real.Gamma (a + ((ns.sum : ℕ) : ℝ))) +
        ((a + ((ns.sum : ℕ) : ℝ)) * Real.log (b + (ns.length : ℝ)) -
        (a + ((ns.sum : ℕ) : ℝ) + ([v].sum : ℕ)) *
          Real.log (b + (ns.length : ℝ) + ([v].length : ℕ))) -
        ([v].map fun v : ℕ => Real.log v.factorial).sum, Dbg.GP.fold_eq ns, ?_, ?_⟩
  · simp only [Dbg.GP.Group.scoreValue, hp, XR.ofInt_eq, XR.fin_add, XR.lit_eq, Int.cast_natCast,
      Int.cast_one, Nat.cast_one, div_one]
    rw [Dbg.pyLog_fin hb', Res.ok_bind, Dbg.pyLog_fin (by positivity), Res.ok_bind, Dbg.logFact,
      if_neg (by omega), Res.ok_bind, XR.lgamma_fin (by positivity), XR.lgamma_fin ha']
    simp only [Res.pure_eq, XR.logFactorial_eq, XR.fin_sub, XR.fin_mul, XR.fin_add, Int.toNat_natCast]
    congr 2
    simp only [List.sum_singleton, List.length_singleton, Nat.cast_one, List.map_singleton]
    rw [add_comm (1 : ℝ)]
    ring
  · rw [← h]
    congr 1
    ext s
    have e : ∀ s', (Dbg.GP.Group.sampleValue I.toNumpy s ⟨XR.fin a, XR.fin b⟩
        ⟨ns.length, (ns.sum : ℕ), .fin (ns.map fun v : ℕ => Real.log v.factorial).sum⟩ =
          .ok ((v : Int), s')) ↔ sampleLoop (fun s₁ => .ok (I.toRng.poisson s₁
          (.fin (I.gamma ((a + ((ns.sum : ℕ) : ℝ), 1 / (b + (ns.length : ℝ))), s)).1))) [v].length
          (I.gamma ((a + ((ns.sum : ℕ) : ℝ), 1 / (b + (ns.length : ℝ))), s)).2 =
          .ok ([v].map fun v : ℕ => (v : Int), s') := by
      intro s'
      rw [List.length_singleton, List.map_singleton, sampleLoop_one]
      simp only [Dbg.GP.Group.sampleValue, Dbg.GP.samplerInit, hp, XR.lit_eq, Int.cast_one,
        Nat.cast_one, div_one]
      rw [Dbg.pyDiv_fin hb'.ne', Res.ok_bind]
      rfl
    simp only [Set.mem_setOf_eq, e]

/-- **C68 (Gamma-Poisson), a group.** -/
theorem C68_gp_group (I : IdealNumpy σ) (a b : ℝ) (ha : 0 < a) (hb : 0 < b) (ns : List ℕ)
    {B : Set σ} (hB : MeasurableSet B) :
    ∃ g x, (ns.map fun v : ℕ => (v : Int)).foldlM Dbg.GP.Group.addValue
        (Dbg.GP.Group.init : Dbg.GP.Group XR) = .ok g ∧
      g.scoreData ⟨XR.fin a, XR.fin b⟩ = .ok (.fin x) ∧
      I.P {s | ∃ s' ∈ B, Dbg.GP.sampleGroup I.toNumpy s ⟨XR.fin a, XR.fin b⟩ ns.length =
        .ok (ns.map fun v : ℕ => (v : Int), s')} = ENNReal.ofReal (Real.exp x) * I.P B := by
  have ha' : 0 < a + ((ns.sum : ℕ) : ℝ) := by positivity
  have hb' : 0 < b + (ns.length : ℝ) := by positivity
  have h := gp_many I.toIdealRng ha hb ns hB
  have hp : ∀ l, Dbg.GP.plusGroup (⟨XR.fin a, XR.fin b⟩ : GP.Shared XR)
      ⟨ns.length, (ns.sum : ℕ), l⟩ =
      ⟨XR.fin (a + ((ns.sum : ℕ) : ℝ)), XR.fin (b + (ns.length : ℝ))⟩ := by
    intro l; simp only [Dbg.GP.plusGroup, XR.ofInt_eq, XR.fin_add, Int.cast_natCast]
  have h0 : Dbg.GP.plusGroup (⟨XR.fin a, XR.fin b⟩ : GP.Shared XR) Dbg.GP.Group.init =
      ⟨XR.fin a, XR.fin b⟩ := by
    simp [Dbg.GP.plusGroup, Dbg.GP.Group.init]
  refine ⟨_, Real.log (Real.Gamma (a + (ns.sum : ℕ))) - Real.log (Real.Gamma a) +
        (a * Real.log b - (a + (ns.sum : ℕ)) * Real.log (b + (ns.length : ℕ))) -
        (ns.map fun v : ℕ => Real.log v.factorial).sum, Dbg.GP.fold_eq ns, ?_, ?_⟩
  · simp only [Dbg.GP.Group.scoreData, hp]
    rw [Dbg.pyLog_fin hb', Res.ok_bind, Dbg.pyLog_fin hb, Res.ok_bind, XR.lgamma_fin ha',
      XR.lgamma_fin ha]
    simp only [Res.pure_eq, XR.fin_sub, XR.fin_mul, XR.fin_add]
    congr 2
    ring
  · rw [← h]
    congr 1
    ext s
    have e : Dbg.GP.sampleGroup I.toNumpy s ⟨XR.fin a, XR.fin b⟩ ns.length =
        sampleLoop (fun s₁ => .ok (I.toRng.poisson s₁ (.fin (I.gamma ((a, 1 / b), s)).1))) ns.length
          (I.gamma ((a, 1 / b), s)).2 := by
      simp only [Dbg.GP.sampleGroup, Dbg.GP.samplerInit, h0, XR.lit_eq, Int.cast_one,
        Nat.cast_one, div_one]
      rw [Dbg.pyDiv_fin hb.ne', Res.ok_bind]
      rfl
    simp only [Set.mem_setOf_eq, e]

/-- Non-triviality: an exponential prior: two zeros have probability `1 / 3`. -/
example : ∃ I : IdealNumpy Supply, I.P {s | ∃ s', Dbg.GP.sampleGroup I.toNumpy s
    ⟨XR.fin 1, XR.fin 1⟩ 2 = .ok ([0, 0], s')} = ENNReal.ofReal (1 / 3) := by
  obtain ⟨I⟩ := idealNumpy_exists
  refine ⟨I, ?_⟩
  haveI := I.prob
  obtain ⟨g, x, h1, h2, h3⟩ := C68_gp_group I 1 1 one_pos one_pos [0, 0] MeasurableSet.univ
  rw [Dbg.GP.fold_eq] at h1
  obtain rfl := Res.ok.inj h1
  simp only [Dbg.GP.Group.scoreData, Dbg.GP.plusGroup, XR.ofInt_eq, XR.fin_add] at h2
  norm_num at h2
  rw [Dbg.pyLog_fin (by norm_num), Res.ok_bind, Dbg.pyLog_fin (by norm_num), Res.ok_bind,
    XR.lgamma_fin one_pos] at h2
  simp only [Res.pure_eq, XR.fin_sub, XR.fin_mul, XR.fin_add, Res.ok.injEq, XR.fin_inj] at h2
  have h6 : x = Real.log (1 / 3) := by
    rw [← h2, one_div, Real.log_inv]; norm_num
  rw [h6, Real.exp_log (by norm_num)] at h3
  simpa using h3

/-! ## Dirichlet-discrete -/

/-- One category drawn from probabilities that are drawn from the Dirichlet law. -/
theorem dirichlet_one_py (I : IdealNumpy σ) {n : ℕ} (a : Fin n → ℝ) (ha : ∀ i, 0 < a i) (i : Fin n)
    {B : Set σ} (hB : MeasurableSet B) :
    I.P {s | ∃ s' ∈ B, Dbg.sampleDiscrete I.toNumpy.toRng (I.dirichlet a s).2
        (List.ofFn fun i => XR.fin ((I.dirichlet a s).1 i))
        (Dbg.npSum (List.ofFn fun i => XR.fin ((I.dirichlet a s).1 i))) = .ok (i.val, s')} =
      ENNReal.ofReal (a i / ∑ i, a i) * I.P B := by
  haveI : Nonempty (Fin n) := ⟨i⟩
  have h := dirichlet_many_py I a ha [i] hB
  simp only [List.length_singleton, List.map_singleton, sampleLoop_one] at h
  rw [h]
  congr 2
  have hA : 0 < ∑ j, a j := Finset.sum_pos (fun k _ => ha k) Finset.univ_nonempty
  rw [Nat.cast_one, Real.Gamma_add_one hA.ne']
  have h1 : ∏ j, Real.Gamma (a j + ([i].count j : ℕ)) / Real.Gamma (a j) = a i := by
    rw [Finset.prod_eq_single i]
    · rw [List.count_singleton_self, Nat.cast_one, Real.Gamma_add_one (ha i).ne']
      have := (Real.Gamma_pos_of_pos (ha i)).ne'
      field_simp
    · intro j _ hj
      rw [List.count_singleton, if_neg (by simpa using fun h => hj h.symm), Nat.cast_zero, add_zero,
        div_self (Real.Gamma_pos_of_pos (ha j)).ne']
    · simp
  rw [h1]
  have := (Real.Gamma_pos_of_pos hA).ne'
  field_simp

theorem Dbg.DD.fold_eq {dim : ℕ} (xs : List (Fin dim)) :
    (xs.map fun i => (i.val : Int)).foldlM Dbg.DD.addValue (Dbg.DD.init dim) =
      .ok (List.ofFn fun i => (xs.count i : Int)) := by
  have h : ∀ (xs : List (Fin dim)) (c : Fin dim → Int),
      (xs.map fun i => (i.val : Int)).foldlM Dbg.DD.addValue (List.ofFn c) =
      .ok (List.ofFn fun i => c i + (xs.count i : Int)) := by
    intro xs
    induction xs with
    | nil => intro c; simp [Res.pure_eq]
    | cons i xs ih =>
      intro c
      have h1 : Dbg.DD.addValue (List.ofFn c) (i.val : Int) =
          .ok (List.ofFn (Function.update c i (c i + 1))) := by
        rw [Dbg.DD.addValue, Dbg.npIndex_of _ (by omega) (by simp), Int.toNat_natCast,
          getAt_of (by simp), Res.ok_bind, Dbg.npSet_of _ (by omega) (by simp), Int.toNat_natCast,
          setAt_of (by simp)]
        congr 1
        apply List.ext_getElem (by simp)
        intro k hk hk'
        simp only [List.length_set, List.length_ofFn] at hk
        simp only [List.getElem_set, List.getElem_ofFn]
        by_cases hik : i.val = k
        · subst hik; simp
        · rw [if_neg hik, Function.update_of_ne]
          intro h; apply hik; rw [← h]
      rw [List.map_cons, List.foldlM_cons, h1]
      show (List.map _ xs).foldlM _ _ = _
      rw [ih]
      congr 2
      funext j
      rw [List.count_cons]
      by_cases hij : i = j
      · subst hij; simp; omega
      · rw [Function.update_of_ne (Ne.symm hij), if_neg (by simpa using hij), add_zero]
  have := h xs fun _ => 0
  rw [List.ofFn_const] at this
  simpa [Dbg.DD.init] using this

theorem Dbg.DD.sum_eq {dim : ℕ} (xs : List (Fin dim)) :
    (List.ofFn fun i => (xs.count i : Int)).sum = xs.length := by
  rw [List.sum_ofFn]
  have := Multiset.sum_count_eq_card (s := Finset.univ) (m := (xs : Multiset (Fin dim))) (by simp)
  simp only [Multiset.coe_count, Multiset.coe_card] at this
  exact_mod_cast this

theorem Dbg.npSum_ofFn {n : ℕ} (a : Fin n → ℝ) :
    Dbg.npSum (List.ofFn fun i => XR.fin (a i)) = XR.fin (∑ i, a i) := by
  have : (List.ofFn fun i => XR.fin (a i)) = (List.ofFn a).map XR.fin := by
    rw [List.map_ofFn]; rfl
  rw [this, Dbg.npSum_fin, List.sum_ofFn]

theorem Dbg.DD.posterior_ofFn {n : ℕ} (a : Fin n → ℝ) (c : Fin n → Int) :
    Dbg.DD.posterior (List.ofFn fun i => XR.fin (a i)) (List.ofFn c) =
      .ok (List.ofFn fun i => XR.fin (a i + c i)) := by
  rw [Dbg.DD.posterior, if_pos (by simp)]
  congr 1
  apply List.ext_getElem (by simp)
  intro k hk hk'
  simp only [List.getElem_zipWith, List.getElem_ofFn, XR.ofInt_eq, XR.fin_add]
  rw [add_comm]

/-- **C68 (Dirichlet-discrete), one value.** -/
theorem C68_dd_value (I : IdealNumpy σ) {dim : ℕ} (a : Fin dim → ℝ) (ha : ∀ i, 0 < a i)
    (xs : List (Fin dim)) (v : Fin dim) {B : Set σ} (hB : MeasurableSet B) :
    ∃ g x, (xs.map fun i => (i.val : Int)).foldlM Dbg.DD.addValue (Dbg.DD.init dim) = .ok g ∧
      Dbg.DD.scoreValue (List.ofFn fun i => XR.fin (a i)) g v = .ok (.fin x) ∧
      I.P {s | ∃ s' ∈ B, Dbg.DD.sampleValue I.toNumpy s (List.ofFn fun i => XR.fin (a i)) g =
        .ok (v.val, s')} = ENNReal.ofReal (Real.exp x) * I.P B := by
  haveI : Nonempty (Fin dim) := ⟨v⟩
  have hA : 0 < ∑ j, a j := Finset.sum_pos (fun k _ => ha k) Finset.univ_nonempty
  have ha' : ∀ i, 0 < a i + (((xs.count i : ℕ) : Int) : ℝ) := by
    intro i; have := ha i; positivity
  have hsum : ∑ i, (a i + (((xs.count i : ℕ) : Int) : ℝ)) = (xs.length : ℝ) + ∑ i, a i := by
    have h1 := Dbg.DD.sum_eq xs
    rw [List.sum_ofFn] at h1
    rw [Finset.sum_add_distrib, add_comm]
    congr 1
    exact_mod_cast h1
  refine ⟨_, Real.log ((a v + (((xs.count v : ℕ) : Int) : ℝ)) /
    ∑ i, (a i + (((xs.count i : ℕ) : Int) : ℝ))), Dbg.DD.fold_eq xs, ?_, ?_⟩
  · rw [Dbg.DD.scoreValue, Dbg.npIndex_of _ (by omega) (by simp), Int.toNat_natCast,
      getAt_of (by simp), Res.ok_bind, Dbg.npIndex_of _ (by omega) (by simp), Int.toNat_natCast,
      getAt_of (by simp), Res.ok_bind, Dbg.npSum_ofFn, Dbg.DD.sum_eq]
    simp only [List.getElem_ofFn, XR.ofInt_eq, XR.fin_add, Int.cast_natCast]
    simp only [Int.cast_natCast] at hsum
    rw [XR.fin_div _ _ (by positivity), Dbg.pyLog_fin (by have := ha v; positivity), hsum,
      add_comm (a v)]
  · rw [Real.exp_log (div_pos (ha' v) (Finset.sum_pos (fun k _ => ha' k) Finset.univ_nonempty)),
      ← dirichlet_one_py I _ ha' v hB]
    congr 1
    ext s
    simp only [Dbg.DD.sampleValue, Dbg.DD.posterior_ofFn, Res.ok_bind, toNumpy_dirichlet]

/-- **C68 (Dirichlet-discrete), a group.** -/
theorem C68_dd_group (I : IdealNumpy σ) {dim : ℕ} (hd : 0 < dim) (a : Fin dim → ℝ)
    (ha : ∀ i, 0 < a i) (xs : List (Fin dim)) {B : Set σ} (hB : MeasurableSet B) :
    ∃ g x, (xs.map fun i => (i.val : Int)).foldlM Dbg.DD.addValue (Dbg.DD.init dim) = .ok g ∧
      Dbg.DD.scoreData (List.ofFn fun i => XR.fin (a i)) g = .ok (.fin x) ∧
      I.P {s | ∃ s' ∈ B, Dbg.DD.sampleGroup I.toNumpy s (List.ofFn fun i => XR.fin (a i))
        xs.length = .ok (xs.map Fin.val, s')} = ENNReal.ofReal (Real.exp x) * I.P B := by
  haveI : Nonempty (Fin dim) := ⟨⟨0, hd⟩⟩
  have hA : 0 < ∑ j, a j := Finset.sum_pos (fun k _ => ha k) Finset.univ_nonempty
  have ht : ∀ {n : ℕ} (a : Fin n → ℝ) (c : Fin n → ℕ), (∀ i, 0 < a i) →
      Dbg.DD.terms (List.ofFn fun i => XR.fin (a i)) (List.ofFn fun i => (c i : Int)) =
      .ok (List.ofFn fun i => XR.fin (Real.log (Real.Gamma (a i + c i)) -
        Real.log (Real.Gamma (a i)))) := by
    intro n
    induction n with
    | zero => intro a c _; simp [Dbg.DD.terms]
    | succ n ih =>
      intro a c ha
      have h0 := ha 0
      rw [List.ofFn_succ, List.ofFn_succ, Dbg.DD.terms, ih _ _ fun i => ha i.succ, Res.ok_bind,
        XR.ofInt_eq, XR.fin_add, Int.cast_natCast, XR.lgamma_fin (by positivity), XR.lgamma_fin h0,
        XR.fin_sub, List.ofFn_succ]
      rfl
  refine ⟨_, ∑ i, (Real.log (Real.Gamma (a i + (xs.count i : ℕ))) - Real.log (Real.Gamma (a i))) +
      (Real.log (Real.Gamma (∑ i, a i)) - Real.log (Real.Gamma (∑ i, a i + (xs.length : ℝ)))),
    Dbg.DD.fold_eq xs, ?_, ?_⟩
  · rw [Dbg.DD.scoreData, ht a _ ha, Res.ok_bind, Dbg.npSum_ofFn, Dbg.npSum_ofFn, Dbg.DD.sum_eq,
      XR.ofInt_eq, XR.fin_add, XR.lgamma_fin hA, Int.cast_natCast, XR.lgamma_fin (by positivity)]
    simp only [XR.fin_add, XR.fin_sub, Res.pure_eq]
    rw [add_sub_assoc]
  · rw [exp_log_gammas a (fun i => (xs.count i : ℝ)) ha (fun i => by positivity) hA
      (N := xs.length) (by positivity), ← dirichlet_many_py I a ha xs hB]
    have hp := Dbg.DD.posterior_ofFn a fun _ => 0
    simp only [List.ofFn_const, Int.cast_zero, add_zero] at hp
    simp only [Dbg.DD.sampleGroup, Dbg.DD.init, List.length_ofFn, hp, Res.ok_bind,
      toNumpy_dirichlet]

/-- Non-triviality: three categories, a uniform prior: a category seen twice comes with
probability `3 / 5`. -/
example : ∃ I : IdealNumpy Supply, I.P {s | ∃ s', Dbg.DD.sampleValue I.toNumpy s
    [XR.fin 1, XR.fin 1, XR.fin 1] [0, 2, 0] = .ok (1, s')} = ENNReal.ofReal (3 / 5) := by
  obtain ⟨I⟩ := idealNumpy_exists
  refine ⟨I, ?_⟩
  haveI := I.prob
  obtain ⟨g, x, h1, h2, h3⟩ := C68_dd_value I (fun _ : Fin 3 => 1) (by simp) [1, 1] 1
    MeasurableSet.univ
  obtain rfl := Res.ok.inj ((Dbg.DD.fold_eq [(1 : Fin 3), 1]).symm.trans h1)
  have e : (List.ofFn fun i => ((([(1 : Fin 3), 1].count i) : ℕ) : Int)) = [0, 2, 0] := rfl
  have e2 : (List.ofFn fun _ : Fin 3 => XR.fin 1) = [XR.fin 1, XR.fin 1, XR.fin 1] := rfl
  rw [e, e2] at h2 h3
  have h4 : x = Real.log (3 / 5) := by
    have h5 : Dbg.DD.scoreValue [XR.fin 1, XR.fin 1, XR.fin 1] [0, 2, 0] ((1 : Fin 3).val : Int) =
        .ok (.fin (Real.log (3 / 5))) := by
      have hs : Dbg.npSum [XR.fin 1, XR.fin 1, XR.fin 1] = XR.fin 3 := by
        have := Dbg.npSum_fin [1, 1, 1]; norm_num at this; exact this
      have i1 : Dbg.npIndex [XR.fin 1, XR.fin 1, XR.fin 1] ((1 : Fin 3).val : Int) =
        .ok (XR.fin 1) := rfl
      have i2 : Dbg.npIndex [(0 : Int), 2, 0] ((1 : Fin 3).val : Int) = .ok 2 := rfl
      rw [Dbg.DD.scoreValue, i1, i2, Res.ok_bind, Res.ok_bind, hs]
      simp only [XR.ofInt_eq, XR.fin_add]
      norm_num
      rw [XR.fin_div _ _ (by norm_num), Dbg.pyLog_fin (by norm_num)]
    exact (XR.fin_inj.mp (Res.ok.inj (h5.symm.trans h2))).symm
  rw [h4, Real.exp_log (by norm_num)] at h3
  simpa using h3

end Dist
