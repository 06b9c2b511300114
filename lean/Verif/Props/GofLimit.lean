import Verif.Lemmas.TruncatedLimit
import Verif.Props.GoodnessOfFit
import Mathlib.Analysis.SpecialFunctions.Pow.Integral

/-!
# C87: how often `multinomial_goodness_of_fit` rejects a true hypothesis

Vocabulary (`Verif.Spec.ChiSquared`): `chiSquared m` is the law of the sum of the squares of `m`
independent standard normal variables; `IidDraws P p x` says that `x 0`, `x 1`, … are independent
draws from the distribution `p` on `Fin k`; `rejectionRate P test α` is the probability that `test`
returns a p-value of at most `α`.  `sp.sf` is scipy's survival function, taken to be exact.
-/

namespace Dist.Props

open Util MeasureTheory ProbabilityTheory Filter
open scoped Topology FloatNotation

variable {Ω : Type*} [MeasurableSpace Ω] {P : Measure Ω} [IsProbabilityMeasure P] {k : ℕ}
  {p : Fin k → ℝ} {x : ℕ → Ω → Fin k}

/-- The survival function of scipy is that of the chi-squared distribution. -/
def ExactSf (sp : Scipy XR) : Prop :=
  ∀ (y : ℝ) (m : ℕ), 0 < m → sp.sf (XR.fin y) m = XR.fin ((Spec.chiSquared m).real (Set.Ioi y))

/-- `multinomial_goodness_of_fit` on the first `n` draws. -/
noncomputable def testDraws (sp : Scipy XR) (p : Fin k → ℝ) (x : ℕ → Ω → Fin k) (n : ℕ) (ω : Ω) :
    Res (Option XR) :=
  multinomialGof sp (List.ofFn fun j => XR.fin (p j))
    (List.ofFn fun j => (Spec.occurrences (fun i : Fin n => x i ω) j : ℤ)) n false

/-- The chi-squared distribution is the gamma distribution that C73 speaks of. -/
theorem C87_chi_squared {m : ℕ} (hm : 0 < m) :
    Spec.chiSquared m = gammaMeasure (m / 2) (1 / 2) := Spec.chiSquared_eq_gamma hm

/-- **Pearson's theorem**, the claim of the documentation: Pearson's statistic referred to the
chi-squared distribution with `k - 1` degrees of freedom rejects at the level `α`, in the limit of
many draws, with probability `α`. -/
theorem C87_pearson (hx : Spec.IidDraws P p x) (hk : 2 ≤ k) (h0 : ∀ j, 0 < p j)
    (hp : ∑ j, p j = 1) {α : ℝ} (ha : 0 < α) (ha1 : α < 1) :
    Tendsto (fun n : ℕ => P.real {ω | (Spec.chiSquared (k - 1)).real (Set.Ioi
      (∑ j, Spec.pearsonTerm n (p j) (Spec.occurrences (fun i : Fin n => x i ω) j))) ≤ α}) atTop
      (𝓝 α) := by
  have hm : 0 < k - 1 := by omega
  obtain ⟨c, hc, rfl⟩ := Spec.exists_critical hm ha ha1
  simp only [Spec.tail_le_iff hm hc]
  exact Spec.pearson_tail hx hk h0 hp c

theorem lt_one_of_two (hk : 2 ≤ k) (h0 : ∀ j, 0 < p j) (hp : ∑ j, p j = 1) (j : Fin k) :
    p j < 1 := by
  obtain ⟨i, hi⟩ : ∃ i : Fin k, i ≠ j := by
    by_cases h : j = ⟨0, by omega⟩
    · exact ⟨⟨1, by omega⟩, by rw [h]; simp⟩
    · exact ⟨_, fun h' => h h'.symm⟩
  have h1 : p i + p j ≤ ∑ j, p j := by
    rw [← Finset.sum_pair hi]
    exact Finset.sum_le_sum_of_subset_of_nonneg (Finset.subset_univ _) fun _ _ _ => (h0 _).le
  linarith [h0 i]

theorem eventually_variance (h0 : ∀ j, 0 < p j) (h1 : ∀ j, p j < 1) :
    ∀ᶠ n : ℕ in atTop, ∀ j, 1 < n * p j * (1 - p j) := by
  rw [eventually_all]
  intro j
  have hv : 0 < p j * (1 - p j) := mul_pos (h0 j) (by linarith [h1 j])
  have ht : Tendsto (fun n : ℕ => (n : ℝ) * (p j * (1 - p j))) atTop atTop :=
    tendsto_natCast_atTop_atTop.atTop_mul_const hv
  filter_upwards [ht.eventually_gt_atTop 1] with n hn
  rw [mul_assoc]; exact hn

/-- With sufficiently many draws the test rejects when the statistic reaches the critical value. -/
theorem rejectionRate_eq {sp : Scipy XR} (hsf : ExactSf sp) (hk : 2 ≤ k) (h0 : ∀ j, 0 < p j)
    (hp : ∑ j, p j = 1) {c : ℝ} (hc : 0 < c) :
    ∀ᶠ n : ℕ in atTop,
      Spec.rejectionRate P (testDraws sp p x n) ((Spec.chiSquared (k - 1)).real (Set.Ioi c)) =
        P.real {ω | c ≤ ∑ j, Spec.scaledDeviation n (p j)
          (Spec.occurrences (fun i : Fin n => x i ω) j)} := by
  have hm : 0 < k - 1 := by omega
  filter_upwards [eventually_variance h0 (lt_one_of_two hk h0 hp)] with n hn
  have h := (C73_untruncated_fails sp hk p hp h0 hn).1
  rw [Spec.rejectionRate]
  congr 1
  ext ω
  simp only [Set.mem_setOf_eq]
  rw [testDraws, h fun i : Fin n => x i ω, show ((k : ℤ) - 1) = ((k - 1 : ℕ) : ℤ) by omega,
    hsf _ _ hm]
  rw [← Spec.tail_le_iff hm hc]
  constructor
  · rintro ⟨q, hq, e⟩
    injection e with e
    injection e with e
    injection e with e
    rw [e]; exact hq
  · intro h
    exact ⟨_, h, rfl⟩

theorem scaled_eq_pearson {n q c : ℝ} (h1 : q < 1) :
    Spec.scaledDeviation n q c = Spec.pearsonTerm n q c / (1 - q) := by
  rw [Spec.scaledDeviation, Spec.pearsonTerm, div_div]

/-- **C87, its negation.**  Whatever the distribution and the level, the test goes on rejecting true
hypotheses more often than the level allows, however many draws it is given. -/
theorem C87_over_rejects {sp : Scipy XR} (hsf : ExactSf sp) (hx : Spec.IidDraws P p x)
    (hk : 2 ≤ k) (h0 : ∀ j, 0 < p j) (hp : ∑ j, p j = 1) {α : ℝ} (ha : 0 < α) (ha1 : α < 1) :
    ∃ β > α, ∀ᶠ n : ℕ in atTop, β < Spec.rejectionRate P (testDraws sp p x n) α := by
  have hm : 0 < k - 1 := by omega
  have h1 := lt_one_of_two hk h0 hp
  obtain ⟨c, hc, rfl⟩ := Spec.exists_critical hm ha ha1
  have : Nonempty (Fin k) := ⟨⟨0, by omega⟩⟩
  obtain ⟨j0, hj0⟩ := Finite.exists_min p
  have hq : 0 < 1 - p j0 := by linarith [h1 j0]
  have hlt : (Spec.chiSquared (k - 1)).real (Set.Ioi c) <
      (Spec.chiSquared (k - 1)).real (Set.Ioi (c * (1 - p j0))) :=
    Spec.tail_lt hm (by positivity) (mul_lt_of_lt_one_right hc (by linarith [h0 j0]))
  obtain ⟨β, hβ, hβ'⟩ := exists_between hlt
  refine ⟨β, hβ, ?_⟩
  filter_upwards [rejectionRate_eq (P := P) (x := x) hsf hk h0 hp hc,
    (Spec.pearson_tail hx hk h0 hp (c * (1 - p j0))).eventually_const_lt hβ'] with n e hn
  rw [e]
  refine hn.trans_le (measureReal_mono fun ω hω => ?_)
  simp only [Set.mem_setOf_eq] at hω ⊢
  rw [← le_div_iff₀ hq, Finset.sum_div] at hω
  refine hω.trans (Finset.sum_le_sum fun j _ => ?_)
  rw [scaled_eq_pearson (h1 j)]
  refine div_le_div_of_nonneg_left ?_ (by linarith [h1 j]) (by linarith [hj0 j])
  rw [Spec.pearsonTerm]
  have := h0 j
  positivity

/-- Equally likely categories: the test at the critical value `c` acts as Pearson's at
`c (k - 1) / k`. -/
theorem C87_uniform_limit {sp : Scipy XR} (hsf : ExactSf sp)
    (hx : Spec.IidDraws P (fun _ : Fin k => (1 : ℝ) / k) x) (hk : 2 ≤ k) {c : ℝ} (hc : 0 < c) :
    Tendsto (fun n : ℕ => Spec.rejectionRate P (testDraws sp (fun _ : Fin k => (1 : ℝ) / k) x n)
      ((Spec.chiSquared (k - 1)).real (Set.Ioi c))) atTop
      (𝓝 ((Spec.chiSquared (k - 1)).real (Set.Ioi (c * ((k - 1) / k))))) := by
  have hk' : (2 : ℝ) ≤ k := by exact_mod_cast hk
  have h0 : ∀ _ : Fin k, (0 : ℝ) < 1 / k := fun _ => by positivity
  have hp : ∑ _j : Fin k, (1 : ℝ) / k = 1 := by
    simp
    field_simp
  have h1 : (1 : ℝ) / k < 1 := by rw [div_lt_one (by linarith)]; linarith
  refine (Spec.pearson_tail hx hk h0 hp (c * ((k - 1) / k))).congr' ?_
  filter_upwards [rejectionRate_eq (P := P) (x := x) hsf hk h0 hp hc] with n e
  rw [e]
  congr 1
  ext ω
  simp only [Set.mem_setOf_eq, scaled_eq_pearson h1, ← Finset.sum_div]
  rw [le_div_iff₀ (by linarith), show (1 : ℝ) - 1 / k = (k - 1) / k by field_simp]

/-- Three equally likely categories: at the level `α` the test rejects with probability
`α ^ (2 / 3)`. -/
theorem C87_three_categories {sp : Scipy XR} (hsf : ExactSf sp) {x : ℕ → Ω → Fin 3}
    (hx : Spec.IidDraws P (fun _ : Fin 3 => (1 : ℝ) / 3) x) {α : ℝ} (ha : 0 < α) (ha1 : α < 1) :
    Tendsto (fun n : ℕ => Spec.rejectionRate P (testDraws sp (fun _ : Fin 3 => (1 : ℝ) / 3) x n) α)
      atTop (𝓝 (α ^ ((2 : ℝ) / 3))) := by
  have hc : 0 < -2 * Real.log α := by
    have := Real.log_neg ha ha1
    linarith
  have h := C87_uniform_limit (k := 3) hsf (by simpa using hx) (by norm_num) hc
  have h2 : (Spec.chiSquared 2).real (Set.Ioi (-2 * Real.log α)) = α := by
    rw [Spec.tail_two hc.le, show -(-2 * Real.log α / 2) = Real.log α by ring, Real.exp_log ha]
  have h3 : (Spec.chiSquared 2).real (Set.Ioi (-2 * Real.log α * (((3 : ℕ) - 1) / (3 : ℕ)))) =
      α ^ ((2 : ℝ) / 3) := by
    rw [Spec.tail_two (mul_nonneg hc.le (by norm_num)), Real.rpow_def_of_pos ha]
    congr 1
    push_cast
    ring
  rw [show 3 - 1 = 2 from rfl, h2, h3] at h
  simpa using h

/-- Two categories: the test at the critical value `c` acts as Pearson's at `c / 2`. -/
theorem C87_two_categories {sp : Scipy XR} (hsf : ExactSf sp) {p : Fin 2 → ℝ}
    {x : ℕ → Ω → Fin 2} (hx : Spec.IidDraws P p x) (h0 : ∀ j, 0 < p j) (hp : ∑ j, p j = 1) {c : ℝ}
    (hc : 0 < c) :
    Tendsto (fun n : ℕ => Spec.rejectionRate P (testDraws sp p x n)
      ((Spec.chiSquared 1).real (Set.Ioi c))) atTop
      (𝓝 ((Spec.chiSquared 1).real (Set.Ioi (c / 2)))) := by
  have h1 := lt_one_of_two le_rfl h0 hp
  have ht : Tendsto _ _ (𝓝 ((Spec.chiSquared 1).real (Set.Ioi (c / 2)))) :=
    Spec.pearson_tail hx le_rfl h0 hp (c / 2)
  refine ht.congr' ?_
  filter_upwards [rejectionRate_eq (P := P) (x := x) hsf le_rfl h0 hp hc] with n e
  rw [e]
  congr 1
  ext ω
  simp only [Set.mem_setOf_eq]
  have hs := Spec.sum_occurrences fun i : Fin n => x i ω
  rw [Fin.sum_univ_two] at hs hp ⊢
  rw [Fin.sum_univ_two]
  have hs' : (Spec.occurrences (fun i : Fin n => x i ω) 1 : ℝ) =
      n - Spec.occurrences (fun i : Fin n => x i ω) 0 := by
    have e := congrArg (Nat.cast : ℕ → ℝ) hs
    push_cast at e
    linarith
  have hp1 : p 1 = 1 - p 0 := by linarith
  rw [div_le_iff₀ two_pos, scaled_eq_pearson (h1 0), scaled_eq_pearson (h1 1), hs', hp1]
  have a := h0 0
  have b : 0 < 1 - p 0 := by linarith [h1 0]
  suffices h : Spec.pearsonTerm n (p 0) (Spec.occurrences (fun i : Fin n => x i ω) 0) / (1 - p 0) +
      Spec.pearsonTerm n (1 - p 0) (n - Spec.occurrences (fun i : Fin n => x i ω) 0) /
        (1 - (1 - p 0)) = (Spec.pearsonTerm n (p 0) (Spec.occurrences (fun i : Fin n => x i ω) 0) +
      Spec.pearsonTerm n (1 - p 0) (n - Spec.occurrences (fun i : Fin n => x i ω) 0)) * 2 by
    rw [h]
  generalize (Spec.occurrences (fun i : Fin n => x i ω) 0 : ℝ) = w
  rw [Spec.pearsonTerm, Spec.pearsonTerm]
  rcases Nat.eq_zero_or_pos n with rfl | hn
  · simp
  have hn' : (0 : ℝ) < n := by exact_mod_cast hn
  rw [show (1 : ℝ) - (1 - p 0) = p 0 by ring]
  field_simp
  ring

/-- **C87 where it holds.**  Truncated to a single category, the test rejects with the probability
it names. -/
theorem C87_single_category_partial {sp : Scipy XR} (hsf : ExactSf sp)
    (hx : Spec.IidDraws P p x) (hk : 2 ≤ k) (h0 : ∀ j, 0 < p j) (hp : ∑ j, p j = 1) (j : Fin k)
    {α : ℝ} (ha : 0 < α) (ha1 : α < 1) :
    Tendsto (fun n : ℕ => Spec.rejectionRate P (fun ω => multinomialGof sp [XR.fin (p j)]
      [(Spec.occurrences (fun i : Fin n => x i ω) j : ℤ)] n true) α) atTop (𝓝 α) := by
  have h1 := lt_one_of_two hk h0 hp
  have hq : 0 < 1 - p j := by linarith [h1 j]
  obtain ⟨c, hc, rfl⟩ := Spec.exists_critical one_pos ha ha1
  set y : ℕ → Ω → Fin 2 := fun i ω => if x i ω = j then 0 else 1 with hy
  have hmf : Measurable fun a : Fin k => if a = j then (0 : Fin 2) else 1 := measurable_of_finite _
  have hyd : Spec.IidDraws P ![p j, 1 - p j] y := by
    have h2 : ∀ i, P (y i ⁻¹' {0}) = ENNReal.ofReal (p j) := by
      intro i
      rw [← hx.law i j]
      congr 1
      ext ω
      simp [hy]
    refine ⟨fun i => hmf.comp (hx.measurable i), hx.indep.comp _ fun _ => hmf, fun i a => ?_⟩
    fin_cases a
    · simpa using h2 i
    · have hcmp : y i ⁻¹' {1} = (y i ⁻¹' {0})ᶜ := by
        ext ω
        simp only [hy, Set.mem_preimage, Set.mem_singleton_iff, Set.mem_compl_iff]
        split_ifs <;> simp
      have hms : MeasurableSet (y i ⁻¹' {0}) :=
        (hmf.comp (hx.measurable i)) (measurableSet_singleton _)
      simp only [Fin.mk_one, Matrix.cons_val_one, Matrix.cons_val_fin_one]
      rw [hcmp, prob_compl_eq_one_sub hms, h2, ← ENNReal.ofReal_one,
        ENNReal.ofReal_sub _ (h0 j).le]
  have hpos : ∀ a, 0 < ![p j, 1 - p j] a := by
    intro a; fin_cases a
    · exact h0 j
    · exact hq
  have ht := Spec.pearson_tail hyd le_rfl hpos (by simp [Fin.sum_univ_two]) c
  refine ht.congr' ?_
  filter_upwards [eventually_variance h0 h1, eventually_gt_atTop 0] with n hv hn
  have hn' : (0 : ℝ) < n := by exact_mod_cast hn
  rw [Spec.rejectionRate]
  congr 1
  ext ω
  have hval := (C73_truncated_partial sp p hp [j] (by simp) (by simpa using h0 j)
    (by simpa using hv j)).1 fun i : Fin n => x i ω
  simp only [List.map_cons, List.map_nil, List.sum_cons, List.sum_nil, add_zero,
    List.length_singleton] at hval
  have hocc : Spec.occurrences (fun i : Fin n => y i ω) 0 =
      Spec.occurrences (fun i : Fin n => x i ω) j := by
    rw [Spec.occurrences, Spec.occurrences]
    congr 1
    ext i
    simp [hy]
  have hs := Spec.sum_occurrences fun i : Fin n => y i ω
  rw [Fin.sum_univ_two, hocc] at hs
  have hs' : (Spec.occurrences (fun i : Fin n => y i ω) 1 : ℝ) =
      n - Spec.occurrences (fun i : Fin n => x i ω) j := by
    have e := congrArg (Nat.cast : ℕ → ℝ) hs
    push_cast at e
    linarith
  have hstat : ∑ a, Spec.pearsonTerm n (![p j, 1 - p j] a)
      (Spec.occurrences (fun i : Fin n => y i ω) a) =
      Spec.scaledDeviation n (p j) (Spec.occurrences (fun i : Fin n => x i ω) j) := by
    rw [Fin.sum_univ_two, hocc, hs']
    simp only [Matrix.cons_val_zero, Matrix.cons_val_one, Matrix.cons_val_fin_one]
    generalize (Spec.occurrences (fun i : Fin n => x i ω) j : ℝ) = w
    rw [Spec.pearsonTerm, Spec.pearsonTerm, Spec.scaledDeviation]
    have := h0 j
    field_simp
    ring
  simp only [Set.mem_setOf_eq, hstat, hval]
  have h1' : sp.sf (XR.fin (Spec.scaledDeviation n (p j)
      (Spec.occurrences (fun i : Fin n => x i ω) j))) ((1 : ℕ) : ℤ) = _ := hsf _ 1 one_pos
  rw [h1', ← Spec.tail_le_iff one_pos hc]
  constructor
  · intro h
    exact ⟨_, h, rfl⟩
  · rintro ⟨q, hq, e⟩
    injection e with e
    injection e with e
    injection e with e
    rw [e]; exact hq

/-- The limit of the statistic of the categories `js`: a sum of squares of correlated normal
variables. -/
theorem C87_truncated_limit (hx : Spec.IidDraws P p x) (hk : 2 ≤ k) (h0 : ∀ j, 0 < p j)
    (hp : ∑ j, p j = 1) {js : List (Fin k)} (hj : js.Nodup) (f : BoundedContinuousFunction ℝ ℝ) :
    Tendsto (fun n : ℕ => ∫ ω, f (js.map fun j =>
      Spec.scaledDeviation n (p j) (Spec.occurrences (fun i : Fin n => x i ω) j)).sum ∂P) atTop
      (𝓝 (∫ z : Fin k → ℝ, f (js.map fun j =>
        (z j - √(p j) * ∑ i, √(p i) * z i) ^ 2 / (1 - p j)).sum
        ∂Measure.pi fun _ => gaussianReal 0 1)) := by
  have h1 := lt_one_of_two hk h0 hp
  have hl := Spec.countVec_limit hx h0 hp (Spec.continuous_partForm p js.toFinset)
  have ht := (ProbabilityMeasure.tendsto_iff_forall_integral_tendsto.1 hl.tendsto) f
  simp only [ProbabilityMeasure.coe_mk] at ht
  have hc := (Spec.continuous_partForm p js.toFinset).comp
    (Spec.continuous_remainder (Spec.rootVec p))
  rw [integral_map hl.aemeasurable_limit (by fun_prop), ← map_pi_eq_stdGaussian,
    integral_map (by fun_prop) (show AEStronglyMeasurable (fun z => f (Spec.partForm p js.toFinset
      (Spec.remainder (Spec.rootVec p) z))) _ from
        (f.continuous.comp hc).measurable.aestronglyMeasurable)] at ht
  have e : ∀ z : Fin k → ℝ, Spec.partForm p js.toFinset
      (Spec.remainder (Spec.rootVec p) (WithLp.toLp 2 z)) =
      (js.map fun j => (z j - √(p j) * ∑ i, √(p i) * z i) ^ 2 / (1 - p j)).sum := by
    intro z
    rw [Spec.partForm, List.sum_toFinset _ hj]
    simp only [Spec.remainder_apply]
  simp only [e] at ht
  refine ht.congr' ?_
  filter_upwards [eventually_gt_atTop 0] with n hn
  rw [integral_map (hl.forall_aemeasurable n) (by fun_prop)]
  simp only [Spec.partForm_countVec h0 _ hn, List.sum_toFinset _ hj]

/-- **C87, its negation for truncated data.**  Truncated to two or more categories, there is a level
which the rejection rate does not tend to. -/
theorem C87_truncated_fails {sp : Scipy XR} (hsf : ExactSf sp) (hx : Spec.IidDraws P p x)
    (hk : 2 ≤ k) (h0 : ∀ j, 0 < p j) (hp : ∑ j, p j = 1) {js : List (Fin k)} (hj : js.Nodup)
    (hl : 2 ≤ js.length) :
    ∃ α, 0 < α ∧ α < 1 ∧ ¬ Tendsto (fun n : ℕ => Spec.rejectionRate P (fun ω =>
      multinomialGof sp (js.map fun j => XR.fin (p j))
        (js.map fun j => (Spec.occurrences (fun i : Fin n => x i ω) j : ℤ)) n true) α) atTop
        (𝓝 α) := by
  by_contra hcon
  push Not at hcon
  have h1 := lt_one_of_two hk h0 hp
  have hm : 0 < js.length := by omega
  have hcard : js.toFinset.card = js.length := List.toFinset_card_of_nodup hj
  set g : EuclideanSpace ℝ (Fin k) → ℝ := fun z =>
    Spec.partForm p js.toFinset (Spec.remainder (Spec.rootVec p) z) with hg
  have hgc : Continuous g := (Spec.continuous_partForm p js.toFinset).comp
    (Spec.continuous_remainder (Spec.rootVec p))
  have hg0 : ∀ z, 0 ≤ g z := fun z => by
    rw [hg]
    simp only [Spec.partForm_remainder h1]
    exact Finset.sum_nonneg fun _ _ => sq_nonneg _
  have hlim := Spec.countVec_limit hx h0 hp (Spec.continuous_partForm p js.toFinset)
  set Q := stdGaussian (EuclideanSpace ℝ (Fin k)) with hQ
  -- the tails agree wherever the limit has no atom
  have htail : ∀ c, 0 < c → Q {z | g z = c} = 0 →
      Q {z | c ≤ g z} = Spec.chiSquared js.length {y | c ≤ y} := by
    intro c hc hz
    have ha0 : 0 < (Spec.chiSquared js.length).real (Set.Ioi c) :=
      measureReal_nonneg.trans_lt (Spec.tail_lt hm hc.le (lt_add_one c))
    have ha1 : (Spec.chiSquared js.length).real (Set.Ioi c) < 1 := by
      refine (Spec.tail_lt hm le_rfl hc).trans_le measureReal_le_one
    have hr := hcon _ ha0 ha1
    have hnull : (Q.map g) (frontier (Set.Ici c)) = 0 := by
      rw [frontier_Ici, Measure.map_apply hgc.measurable (measurableSet_singleton _)]
      exact hz
    have hp3 := ProbabilityMeasure.tendsto_measure_of_null_frontier_of_tendsto' hlim.tendsto
      (E := Set.Ici c) hnull
    have hfin : (Q.map g) (Set.Ici c) ≠ ⊤ := by
      have : IsProbabilityMeasure (Q.map g) :=
        Measure.isProbabilityMeasure_map hgc.measurable.aemeasurable
      exact measure_ne_top _ _
    have hp4 := (ENNReal.tendsto_toReal hfin).comp hp3
    have hp5 : Tendsto (fun n : ℕ => P.real {ω | c ≤ (js.map fun j => Spec.scaledDeviation n (p j)
        (Spec.occurrences (fun i : Fin n => x i ω) j)).sum}) atTop
        (𝓝 ((Q.map g) (Set.Ici c)).toReal) := by
      refine hp4.congr' ?_
      filter_upwards [eventually_gt_atTop 0] with n hn
      simp only [Function.comp_apply, ProbabilityMeasure.coe_mk, Measure.real]
      rw [Measure.map_apply_of_aemeasurable (hlim.forall_aemeasurable n) measurableSet_Ici]
      congr 2
      ext ω
      simp only [Set.mem_preimage, Set.mem_Ici, Set.mem_setOf_eq, Spec.partForm_countVec h0 _ hn,
        List.sum_toFinset _ hj]
    have hp6 : Tendsto (fun n : ℕ => P.real {ω | c ≤ (js.map fun j => Spec.scaledDeviation n (p j)
        (Spec.occurrences (fun i : Fin n => x i ω) j)).sum}) atTop
        (𝓝 ((Spec.chiSquared js.length).real (Set.Ioi c))) := by
      refine hr.congr' ?_
      filter_upwards [eventually_variance h0 h1] with n hv
      rw [Spec.rejectionRate]
      congr 1
      ext ω
      have hval := (C73_truncated_partial sp p hp js (List.ne_nil_of_length_pos hm)
        (fun j _ => h0 j) (fun j _ => hv j)).1 fun i : Fin n => x i ω
      simp only [Set.mem_setOf_eq, hval, hsf _ _ hm]
      rw [← Spec.tail_le_iff hm hc]
      constructor
      · rintro ⟨q, hq, e⟩
        injection e with e
        injection e with e
        injection e with e
        rw [e]; exact hq
      · intro h
        exact ⟨_, h, rfl⟩
    have heq := tendsto_nhds_unique hp5 hp6
    rw [Measure.real, ENNReal.toReal_eq_toReal_iff' hfin (measure_ne_top _ _),
      Measure.map_apply hgc.measurable measurableSet_Ici, ← Spec.chiSquared_Ici hm] at heq
    exact heq
  have hae : ∀ᵐ c ∂(volume.restrict (Set.Ioi (0 : ℝ))),
      Q {z | c ≤ g z} = Spec.chiSquared js.length {y | c ≤ y} := by
    have hcount : Set.Countable {t : ℝ | 0 < Q {z | g z = t}} :=
      Measure.countable_meas_level_set_pos hgc.measurable
    filter_upwards [ae_restrict_mem measurableSet_Ioi,
      ae_restrict_of_ae (hcount.ae_notMem volume)] with c hc hn
    refine htail c hc ?_
    simpa using hn
  have hchi0 : ∀ᵐ y ∂Spec.chiSquared js.length, 0 ≤ y := by
    rw [ae_iff]
    refine measure_mono_null (fun y hy => ?_) (Spec.chiSquared_Iic_zero hm)
    simp only [Set.mem_setOf_eq, not_le] at hy
    exact hy.le
  have hl1 := lintegral_rpow_eq_lintegral_meas_le_mul Q (.of_forall hg0) hgc.measurable.aemeasurable
    (p := 2) two_pos
  have hl2 := lintegral_rpow_eq_lintegral_meas_le_mul (Spec.chiSquared js.length) (f := id) hchi0
    aemeasurable_id (p := 2) two_pos
  have hl3 : ∫⁻ z, ENNReal.ofReal (g z ^ 2) ∂Q =
      ∫⁻ y, ENNReal.ofReal (y ^ 2) ∂Spec.chiSquared js.length := by
    have e1 : ∀ r : ℝ, r ^ (2 : ℝ) = r ^ 2 := fun r => by norm_num
    simp only [e1, id] at hl1 hl2
    rw [hl1, hl2]
    congr 1
    refine lintegral_congr_ae ?_
    filter_upwards [hae] with c hc
    rw [hc]
  have hlt := Spec.limit_second_moment h0 h1 hp (J := js.toFinset) (by omega)
  rw [hcard, integral_eq_lintegral_of_nonneg_ae (.of_forall fun y => sq_nonneg y) (by fun_prop),
    integral_eq_lintegral_of_nonneg_ae (.of_forall fun y => sq_nonneg _)
      (hgc.pow 2).measurable.aestronglyMeasurable, ← hl3] at hlt
  exact lt_irrefl _ hlt

/-! ## Cases -/

/-- A scipy with an exact survival function. -/
noncomputable def exactSurvival : Scipy XR where
  sf y m := match y with
    | .fin r => XR.fin ((Spec.chiSquared m.toNat).real (Set.Ioi r))
    | .nan => .nan
  trunc x := match x with
    | .fin r => ⌊r⌋
    | .nan => 0
  cubeRoot _ := 7

theorem exactSurvival_exact : ExactSf exactSurvival := fun _ _ _ => rfl

/-- There are independent draws from any distribution, here from three fair categories; at the level
one eighth the test comes to reject every fourth time. -/
example : ∃ (Ω : Type) (_ : MeasurableSpace Ω) (P : Measure Ω) (x : ℕ → Ω → Fin 3),
    Spec.IidDraws P (fun _ : Fin 3 => (1 : ℝ) / 3) x ∧
    Tendsto (fun n : ℕ => Spec.rejectionRate P
      (testDraws exactSurvival (fun _ : Fin 3 => (1 : ℝ) / 3) x n) (1 / 8)) atTop
      (𝓝 (1 / 4)) := by
  obtain ⟨Ω, _, P, x, hP, hx⟩ := Spec.iidDraws_exists (k := 3) (p := fun _ => (1 : ℝ) / 3)
    (fun _ => by norm_num) (by norm_num)
  refine ⟨Ω, _, P, x, hx, ?_⟩
  have h := C87_three_categories exactSurvival_exact hx (α := 1 / 8) (by norm_num) (by norm_num)
  have e : ((1 : ℝ) / 8) ^ ((2 : ℝ) / 3) = 1 / 4 := by
    rw [show (1 : ℝ) / 8 = (1 / 2) ^ (3 : ℝ) by norm_num, ← Real.rpow_mul (by norm_num)]
    norm_num
  rwa [e] at h

/-- A loaded coin at the five per cent level. -/
example : ∃ (Ω : Type) (_ : MeasurableSpace Ω) (P : Measure Ω) (x : ℕ → Ω → Fin 2),
    Spec.IidDraws P ![(1 : ℝ) / 4, 3 / 4] x ∧
    (∃ β > (1 / 20 : ℝ), ∀ᶠ n : ℕ in atTop,
      β < Spec.rejectionRate P (testDraws exactSurvival ![(1 : ℝ) / 4, 3 / 4] x n) (1 / 20)) ∧
    Tendsto (fun n : ℕ => Spec.rejectionRate P (fun ω => multinomialGof exactSurvival
      [XR.fin (![(1 : ℝ) / 4, 3 / 4] 0)] [(Spec.occurrences (fun i : Fin n => x i ω) 0 : ℤ)] n true)
      (1 / 20)) atTop (𝓝 (1 / 20)) := by
  have h0 : ∀ j, (0 : ℝ) < ![(1 : ℝ) / 4, 3 / 4] j := by intro j; fin_cases j <;> simp
  have h1 : ∑ j, ![(1 : ℝ) / 4, 3 / 4] j = 1 := by simp [Fin.sum_univ_two]; norm_num
  obtain ⟨Ω, _, P, x, hP, hx⟩ := Spec.iidDraws_exists (fun j => (h0 j).le) h1
  exact ⟨Ω, _, P, x, hx,
    C87_over_rejects exactSurvival_exact hx le_rfl h0 h1 (by norm_num) (by norm_num),
    C87_single_category_partial exactSurvival_exact hx le_rfl h0 h1 0 (by norm_num) (by norm_num)⟩

/-- Two of three fair categories. -/
example : ∃ (Ω : Type) (_ : MeasurableSpace Ω) (P : Measure Ω) (x : ℕ → Ω → Fin 3),
    Spec.IidDraws P (fun _ : Fin 3 => (1 : ℝ) / 3) x ∧
    ∃ α, 0 < α ∧ α < 1 ∧ ¬ Tendsto (fun n : ℕ => Spec.rejectionRate P (fun ω =>
      multinomialGof exactSurvival (([0, 2] : List (Fin 3)).map fun _ => XR.fin (1 / 3))
        (([0, 2] : List (Fin 3)).map fun j =>
          (Spec.occurrences (fun i : Fin n => x i ω) j : ℤ)) n true) α) atTop (𝓝 α) := by
  have hp : ∑ _j : Fin 3, (1 : ℝ) / 3 = 1 := by norm_num
  obtain ⟨Ω, _, P, x, hP, hx⟩ := Spec.iidDraws_exists (k := 3) (p := fun _ => (1 : ℝ) / 3)
    (fun _ => by norm_num) hp
  exact ⟨Ω, _, P, x, hx, C87_truncated_fails exactSurvival_exact hx (by norm_num)
    (fun _ => by norm_num) hp (by decide) le_rfl⟩

end Dist.Props
