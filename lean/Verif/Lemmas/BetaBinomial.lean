import Verif.Spec.BetaBinomial
import Verif.Lemmas.RefSample

/-! # The beta-binomial law -/

namespace Dist

open Spec MeasureTheory ProbabilityTheory BetaBinom

variable {σ : Type} [MeasurableSpace σ]

theorem binomialProb_nonneg {n k : ℕ} {p : ℝ} (h0 : 0 ≤ p) (h1 : p ≤ 1) : 0 ≤ binomialProb n k p := by
  have : 0 ≤ 1 - p := by linarith
  unfold binomialProb
  positivity

theorem binomialMeasure_singleton (n : ℕ) (p : ℝ) (k : ℕ) :
    binomialMeasure n p {k} = ENNReal.ofReal (if k ≤ n then binomialProb n k p else 0) := by
  rw [binomialMeasure, Measure.sum_apply _ (measurableSet_singleton _), tsum_eq_single k]
  · simp
  · intro j hj
    simp [hj]

theorem binomialProb_sum (n : ℕ) (p : ℝ) : ∑ k ∈ Finset.range (n + 1), binomialProb n k p = 1 := by
  have := add_pow p (1 - p) n
  rw [add_sub_cancel, one_pow] at this
  rw [this]
  refine Finset.sum_congr rfl fun k _ => ?_
  unfold binomialProb
  ring

theorem binomialMeasure_prob {n : ℕ} {p : ℝ} (h0 : 0 ≤ p) (h1 : p ≤ 1) :
    IsProbabilityMeasure (binomialMeasure n p) := by
  constructor
  rw [binomialMeasure, Measure.sum_apply _ MeasurableSet.univ]
  simp only [Measure.smul_apply, measure_univ, smul_eq_mul, mul_one]
  rw [tsum_eq_sum (s := Finset.range (n + 1)), ← ENNReal.ofReal_sum_of_nonneg]
  · rw [← ENNReal.ofReal_one, ← binomialProb_sum n p]
    congr 1
    refine Finset.sum_congr rfl fun k hk => ?_
    rw [if_pos (by simpa [Nat.lt_succ_iff] using hk)]
  · intro k _
    split_ifs
    · exact binomialProb_nonneg h0 h1
    · exact le_rfl
  · intro k hk
    rw [if_neg (by simpa [Nat.lt_succ_iff] using hk), ENNReal.ofReal_zero]

theorem prod_heads (N : ℕ) (ks : List ℕ) (h : ∀ k ∈ ks, k ≤ N) (p : ℝ) :
    (ks.map fun k => binomialProb N k p).prod =
      (ks.map fun k => ((N.choose k : ℕ) : ℝ)).prod * (p ^ ks.sum * (1 - p) ^ (ks.map (N - ·)).sum) := by
  induction ks with
  | nil => simp
  | cons k ks ih =>
    rw [List.map_cons, List.prod_cons, ih fun k hk => h k (List.mem_cons_of_mem _ hk)]
    simp only [List.map_cons, List.prod_cons, List.sum_cons, pow_add]
    unfold binomialProb
    ring

/-- The beta-binomial probability of a list. -/
theorem betaBinomialProb_eq {a b : ℝ} (ha : 0 < a) (hb : 0 < b) (N : ℕ) (ks : List ℕ) (h : ∀ k ∈ ks, k ≤ N) :
    betaBinomialProb a b N ks = ENNReal.ofReal ((ks.map fun k => ((N.choose k : ℕ) : ℝ)).prod *
      (Real.Gamma (a + b) / Real.Gamma ((a + ks.sum) + (b + (ks.map (N - ·)).sum)) *
        (Real.Gamma (a + ks.sum) / Real.Gamma a) * (Real.Gamma (b + (ks.map (N - ·)).sum) / Real.Gamma b))) := by
  have e : ∀ᵐ p ∂betaMeasure a b, (ks.map fun k => ENNReal.ofReal (binomialProb N k p)).prod =
      ENNReal.ofReal (ks.map fun k => ((N.choose k : ℕ) : ℝ)).prod *
        ENNReal.ofReal (p ^ ks.sum * (1 - p) ^ (ks.map (N - ·)).sum) := by
    filter_upwards [beta_ae a b] with p hp
    have hc : (0 : ℝ) ≤ (ks.map fun k => ((N.choose k : ℕ) : ℝ)).prod :=
      List.prod_nonneg fun x hx => by
        obtain ⟨k, _, rfl⟩ := List.mem_map.1 hx
        positivity
    rw [← ENNReal.ofReal_mul hc, ← prod_heads N ks h p]
    clear hc h
    induction ks with
    | nil => simp
    | cons k ks ih =>
      rw [List.map_cons, List.prod_cons, List.map_cons, List.prod_cons,
        ENNReal.ofReal_mul (binomialProb_nonneg hp.1.le hp.2.le), ih]
  have hc : (0 : ℝ) ≤ (ks.map fun k => ((N.choose k : ℕ) : ℝ)).prod :=
    List.prod_nonneg fun x hx => by
      obtain ⟨k, _, rfl⟩ := List.mem_map.1 hx
      positivity
  unfold betaBinomialProb
  rw [lintegral_congr_ae e, lintegral_const_mul' _ _ ENNReal.ofReal_ne_top, beta_moment ha hb,
    ← ENNReal.ofReal_mul hc]

/-- A draw with a value that has a point mass. -/
theorem HasLaw.point {P : Measure σ} [IsProbabilityMeasure P] {d : σ → ℕ × σ} {μ : Measure ℕ}
    (h : Spec.HasLaw P d μ) (hd : Measurable d) (k : ℕ) {B : Set σ} (hB : MeasurableSet B) [SFinite μ] :
    P {s | (d s).1 = k ∧ (d s).2 ∈ B} = μ {k} * P B := by
  have : {s | (d s).1 = k ∧ (d s).2 ∈ B} = d ⁻¹' ({k} ×ˢ B) := rfl
  rw [this, ← Measure.map_apply hd ((measurableSet_singleton k).prod hB), h, Measure.prod_prod]

noncomputable def binomialK (n : ℕ) : Kernel ℝ ℕ where
  toFun p := if 0 ≤ p ∧ p ≤ 1 then binomialMeasure n p else Measure.dirac 0
  measurable' := by
    refine Measurable.ite measurableSet_Icc ?_ measurable_const
    refine measurable_natMeasure fun k => ?_
    simp_rw [binomialMeasure_singleton]
    split_ifs
    · unfold binomialProb
      fun_prop
    · exact measurable_const

instance (n : ℕ) : IsMarkovKernel (binomialK n) := ⟨fun p => by
  show IsProbabilityMeasure (if 0 ≤ p ∧ p ≤ 1 then binomialMeasure n p else _)
  split_ifs with h
  · exact binomialMeasure_prob h.1 h.2
  · infer_instance⟩

open unitInterval in
/-- **Existence.** There is an ideal generator of beta and binomial draws. -/
theorem idealBinomial_exists : Nonempty (IdealBinomial Supply) := by
  have hbeta : ∀ q : ℝ × ℝ, ∃ f : I → ℝ, Measurable f ∧
      (0 < q.1 → 0 < q.2 → (volume : Measure I).map f = betaMeasure q.1 q.2) := by
    intro q
    by_cases h : 0 < q.1 ∧ 0 < q.2
    · haveI := isProbabilityMeasureBeta h.1 h.2
      obtain ⟨f, hf, e⟩ := Measure.exists_measurable_map_eq (betaMeasure q.1 q.2)
      exact ⟨f, hf, fun _ _ => e⟩
    · exact ⟨fun _ => 0, measurable_const, fun h1 h2 => (h ⟨h1, h2⟩).elim⟩
  choose fb hfb lb using hbeta
  choose fn hfn ln using fun n => Kernel.exists_measurable_map_eq_unitInterval (binomialK n)
  have h0 : Measurable fun s : Supply => s 0 := measurable_pi_apply 0
  have ht := Supply.tail_meas
  refine ⟨{
    beta := fun q s => (fb q (s 0), s.tail)
    binomial := fun n q => (fn n q.1 (q.2 0), q.2.tail)
    P := Supply.P
    prob := inferInstance
    beta_meas := fun q => ((hfb q).comp h0).prodMk ht
    binomial_meas := fun n => ((hfn n).comp (measurable_fst.prodMk (h0.comp measurable_snd))).prodMk
      (ht.comp measurable_snd)
    beta_law := ?_
    binomial_law := ?_ }⟩
  · intro a b ha hb
    have := Supply.law (hfb (a, b))
    rwa [lb (a, b) ha hb] at this
  · intro n p h1 h2
    have := Supply.law ((hfn n).comp (measurable_prodMk_left (x := p)))
    have e : (volume : Measure I).map (fn n p) = binomialMeasure n p := by
      rw [ln]; exact if_pos ⟨h1, h2⟩
    rw [← e]
    exact this

/-! ## One draw per coin -/

namespace BetaBinom

variable (D : IdealBinomial σ)

/-- The states from which `simone` returns `ks` and leaves a state of `B`. -/
def oneSet (a b : ℝ) (n : ℕ) (ks : List ℕ) (B : Set σ) : Set σ :=
  {s | (simone D.toNumpy a b n ks.length s).1 = ks ∧ (simone D.toNumpy a b n ks.length s).2 ∈ B}

theorem oneSet_cons (a b : ℝ) (n k : ℕ) (ks : List ℕ) (B : Set σ) :
    oneSet D a b n (k :: ks) B = D.beta (a, b) ⁻¹' {q | (D.binomial n q).1 = k ∧
      (D.binomial n q).2 ∈ oneSet D a b n ks B} := by
  ext s
  simp only [oneSet, simone, List.length_cons, Set.mem_setOf_eq, List.cons.injEq, Set.mem_preimage]
  tauto

theorem oneSet_meas (a b : ℝ) (n : ℕ) (ks : List ℕ) {B : Set σ} (hB : MeasurableSet B) :
    MeasurableSet (oneSet D a b n ks B) := by
  induction ks with
  | nil => simpa [oneSet, simone] using hB
  | cons k ks ih =>
    rw [oneSet_cons]
    refine D.beta_meas _ ?_
    exact (D.binomial_meas n) ((measurableSet_singleton k).prod ih)

theorem oneSet_law {a b : ℝ} (ha : 0 < a) (hb : 0 < b) (n : ℕ) (ks : List ℕ) (h : ∀ k ∈ ks, k ≤ n) {B : Set σ}
    (hB : MeasurableSet B) :
    D.P (oneSet D a b n ks B) = (ks.map fun k => betaBinomialProb a b n [k]).prod * D.P B := by
  haveI := D.prob
  haveI := isProbabilityMeasureBeta ha hb
  induction ks with
  | nil => simp [oneSet, simone]
  | cons k ks ih =>
    have hm := oneSet_meas D a b n ks hB
    have hm' : MeasurableSet {q : ℝ × σ | (D.binomial n q).1 = k ∧ (D.binomial n q).2 ∈ oneSet D a b n ks B} :=
      (D.binomial_meas n) ((measurableSet_singleton k).prod hm)
    rw [oneSet_cons, ← Measure.map_apply (D.beta_meas _) hm', D.beta_law a b ha hb, Measure.prod_apply hm',
      List.map_cons, List.prod_cons, mul_assoc, ← ih fun k hk => h k (List.mem_cons_of_mem _ hk), betaBinomialProb,
      ← lintegral_mul_const' _ _ (measure_ne_top _ _)]
    refine lintegral_congr_ae ?_
    filter_upwards [beta_ae a b] with p hp
    haveI := binomialMeasure_prob (n := n) hp.1.le hp.2.le
    have := HasLaw.point (D.binomial_law n p hp.1.le hp.2.le)
      ((D.binomial_meas n).comp measurable_prodMk_left) k hm
    rw [binomialMeasure_singleton, if_pos (h k List.mem_cons_self)] at this
    simpa using this

/-! ## Two draws per coin -/

/-- The states from which the loop of `simtwo` fills in `rows` and leaves a state of `B`. -/
def rowsSet (n : ℕ) (ts : List ℝ) (rows : List (ℕ × ℕ)) (B : Set σ) : Set σ :=
  {s | (fillRows D.toNumpy n ts s).1 = rows ∧ (fillRows D.toNumpy n ts s).2 ∈ B}

theorem binomial_le {n : ℕ} {p : ℝ} (h0 : 0 ≤ p) (h1 : p ≤ 1) :
    ∀ᵐ s ∂D.P, (D.binomial n (p, s)).1 ≤ n := by
  haveI := D.prob
  haveI := binomialMeasure_prob (n := n) h0 h1
  refine Spec.HasLaw.ae (p := fun k => k ≤ n) (D.binomial_law n p h0 h1) ((D.binomial_meas n).comp measurable_prodMk_left) ?_
  rw [ae_iff, ← Set.biUnion_of_singleton {k | ¬ k ≤ n}]
  refine (measure_biUnion_null_iff (Set.to_countable _)).2 fun k hk => ?_
  rw [binomialMeasure_singleton, if_neg hk, ENNReal.ofReal_zero]

theorem pair_law {n : ℕ} (hn : n < 2 ^ 32) {p : ℝ} (h0 : 0 ≤ p) (h1 : p ≤ 1) {r : ℕ × ℕ} (hr : r.1 ≤ n ∧ r.2 ≤ n)
    {B : Set σ} (hB : MeasurableSet B) :
    D.P {s | ((D.binomial n (p, s)).1 % 2 ^ 32, (D.binomial n (p, (D.binomial n (p, s)).2)).1 % 2 ^ 32) = r ∧
        (D.binomial n (p, (D.binomial n (p, s)).2)).2 ∈ B} =
      ENNReal.ofReal (binomialProb n r.1 p) * (ENNReal.ofReal (binomialProb n r.2 p) * D.P B) := by
  haveI := D.prob
  haveI := binomialMeasure_prob (n := n) h0 h1
  have hm : Measurable fun s : σ => D.binomial n (p, s) := (D.binomial_meas n).comp measurable_prodMk_left
  have hm2 : MeasurableSet {s : σ | (D.binomial n (p, s)).1 = r.2 ∧ (D.binomial n (p, s)).2 ∈ B} :=
    hm ((measurableSet_singleton r.2).prod hB)
  have e1 := HasLaw.point (D.binomial_law n p h0 h1) hm r.1 hm2
  have e2 := HasLaw.point (D.binomial_law n p h0 h1) hm r.2 hB
  rw [binomialMeasure_singleton, if_pos hr.1] at e1
  rw [binomialMeasure_singleton, if_pos hr.2] at e2
  rw [← e2, ← e1]
  refine measure_congr ?_
  have b1 := binomial_le D (n := n) h0 h1
  have b2 := Spec.HasLaw.ae_state (D.binomial_law n p h0 h1) hm b1
  filter_upwards [b1, b2] with s c1 c2
  refine propext ?_
  show _ ∧ _ ↔ _ ∧ _ ∧ _
  rw [Nat.mod_eq_of_lt (by omega), Nat.mod_eq_of_lt (by omega), Prod.ext_iff]
  tauto

theorem rowsSet_cons (n : ℕ) (t : ℝ) (ts : List ℝ) (r : ℕ × ℕ) (rows : List (ℕ × ℕ)) (B : Set σ) :
    rowsSet D n (t :: ts) (r :: rows) B =
      {s | ((D.binomial n (t, s)).1 % 2 ^ 32, (D.binomial n (t, (D.binomial n (t, s)).2)).1 % 2 ^ 32) = r ∧
        (D.binomial n (t, (D.binomial n (t, s)).2)).2 ∈ rowsSet D n ts rows B} := by
  ext s
  simp only [rowsSet, fillRows, Set.mem_setOf_eq, List.cons.injEq]
  tauto

/-- The loop of `simtwo` depends measurably on parameters and state. -/
theorem rowsSet_meas (n : ℕ) {B : Set σ} (hB : MeasurableSet B) {X : Type} [MeasurableSpace X] (gs : List (X → ℝ))
    (hg : ∀ g ∈ gs, Measurable g) (rows : List (ℕ × ℕ)) {u : X → σ} (hu : Measurable u) :
    MeasurableSet {x | u x ∈ rowsSet D n (gs.map fun g => g x) rows B} := by
  induction gs generalizing rows u with
  | nil =>
    rcases rows with _ | ⟨r, rows⟩
    · have e : {x | u x ∈ rowsSet D n (([] : List (X → ℝ)).map fun g => g x) [] B} = u ⁻¹' B := by
        ext x
        simp [rowsSet, fillRows]
      rw [e]
      exact hu hB
    · simp [rowsSet, fillRows]
  | cons g gs ih =>
    rcases rows with _ | ⟨r, rows⟩
    · simp [rowsSet, fillRows]
    · simp only [List.map_cons, rowsSet_cons]
      have h1 : Measurable fun x => D.binomial n (g x, u x) :=
        (D.binomial_meas n).comp ((hg g List.mem_cons_self).prodMk hu)
      have h2 : Measurable fun x => D.binomial n (g x, (D.binomial n (g x, u x)).2) :=
        (D.binomial_meas n).comp ((hg g List.mem_cons_self).prodMk (measurable_snd.comp h1))
      have h3 := ih (fun g hg' => hg g (List.mem_cons_of_mem _ hg')) rows (measurable_snd.comp h2)
      have hd : Measurable fun x => ((D.binomial n (g x, u x)).1 % 2 ^ 32,
          (D.binomial n (g x, (D.binomial n (g x, u x)).2)).1 % 2 ^ 32) :=
        ((measurable_of_countable fun k : ℕ => k % 2 ^ 32).comp (measurable_fst.comp h1)).prodMk
          ((measurable_of_countable fun k : ℕ => k % 2 ^ 32).comp (measurable_fst.comp h2))
      exact (hd (measurableSet_singleton r)).inter h3

theorem rowsSet_law {n : ℕ} (hn : n < 2 ^ 32) (ts : List ℝ) (ht : ∀ t ∈ ts, 0 < t ∧ t < 1)
    (rows : List (ℕ × ℕ)) (hl : ts.length = rows.length) (hr : ∀ r ∈ rows, r.1 ≤ n ∧ r.2 ≤ n) {B : Set σ}
    (hB : MeasurableSet B) :
    D.P (rowsSet D n ts rows B) = (List.zipWith (fun t r => ENNReal.ofReal (binomialProb n r.1 t) *
      ENNReal.ofReal (binomialProb n r.2 t)) ts rows).prod * D.P B := by
  induction ts generalizing rows with
  | nil =>
    obtain rfl : rows = [] := List.length_eq_zero_iff.1 hl.symm
    simp [rowsSet, fillRows]
  | cons t ts ih =>
    rcases rows with _ | ⟨r, rows⟩
    · simp at hl
    · have h1 := ht t List.mem_cons_self
      have hm : MeasurableSet (rowsSet D n ts rows B) := by
        have := rowsSet_meas D n hB (ts.map fun t => fun _ : σ => t) (by
          intro g hg
          obtain ⟨t, _, rfl⟩ := List.mem_map.1 hg
          exact measurable_const) rows measurable_id
        simpa [List.map_map, Function.comp_def] using this
      rw [rowsSet_cons, pair_law D hn h1.1.le h1.2.le (hr r List.mem_cons_self) hm,
        ih (fun t h => ht t (List.mem_cons_of_mem _ h)) rows (by simpa using hl)
          (fun r h => hr r (List.mem_cons_of_mem _ h)), List.zipWith_cons_cons, List.prod_cons]
      ring

/-- The states from which `simtwo`, with the parameters `pre` drawn already, returns `rows`. -/
def twoSet (a b : ℝ) (n : ℕ) (pre : List ℝ) (m : ℕ) (rows : List (ℕ × ℕ)) (B : Set σ) : Set σ :=
  {s | (thetas D.toNumpy a b m s).2 ∈ rowsSet D n (pre ++ (thetas D.toNumpy a b m s).1) rows B}

theorem twoSet_succ (a b : ℝ) (n : ℕ) (pre : List ℝ) (m : ℕ) (rows : List (ℕ × ℕ)) (B : Set σ) :
    twoSet D a b n pre (m + 1) rows B =
      D.beta (a, b) ⁻¹' {q | q.2 ∈ twoSet D a b n (pre ++ [q.1]) m rows B} := by
  ext s
  simp only [twoSet, thetas, Set.mem_setOf_eq, Set.mem_preimage, List.append_assoc, List.singleton_append]

theorem twoSet_meas (a b : ℝ) (n : ℕ) {B : Set σ} (hB : MeasurableSet B) (rows : List (ℕ × ℕ)) (m : ℕ) {X : Type}
    [MeasurableSpace X] (gs : List (X → ℝ)) (hg : ∀ g ∈ gs, Measurable g) {u : X → σ} (hu : Measurable u) :
    MeasurableSet {x | u x ∈ twoSet D a b n (gs.map fun g => g x) m rows B} := by
  induction m generalizing gs u with
  | zero =>
    simpa [twoSet, thetas] using rowsSet_meas D n hB gs hg rows hu
  | succ m ih =>
    have hb := (D.beta_meas (a, b)).comp hu
    have := ih (gs ++ [fun x => (D.beta (a, b) (u x)).1]) (by
      intro g h
      rcases List.mem_append.1 h with h | h
      · exact hg g h
      · obtain rfl := List.mem_singleton.1 h
        exact measurable_fst.comp hb) (measurable_snd.comp hb)
    simp only [List.map_append, List.map_cons, List.map_nil] at this
    simp only [twoSet_succ]
    exact this

theorem twoSet_law {a b : ℝ} (ha : 0 < a) (hb : 0 < b) {n : ℕ} (hn : n < 2 ^ 32) (pre : List ℝ)
    (ht : ∀ t ∈ pre, 0 < t ∧ t < 1) (rows₁ rows₂ : List (ℕ × ℕ)) (hl : pre.length = rows₁.length)
    (hr : ∀ r ∈ rows₁ ++ rows₂, r.1 ≤ n ∧ r.2 ≤ n) {B : Set σ} (hB : MeasurableSet B) :
    D.P (twoSet D a b n pre rows₂.length (rows₁ ++ rows₂) B) =
      (List.zipWith (fun t r => ENNReal.ofReal (binomialProb n r.1 t) *
        ENNReal.ofReal (binomialProb n r.2 t)) pre rows₁).prod *
      ((rows₂.map fun r => betaBinomialProb a b n [r.1, r.2]).prod * D.P B) := by
  haveI := D.prob
  haveI := isProbabilityMeasureBeta ha hb
  induction rows₂ generalizing pre rows₁ with
  | nil =>
    have := rowsSet_law D hn pre ht rows₁ hl (by simpa using hr) hB
    simpa [twoSet, thetas] using this
  | cons r rows₂ ih =>
    have hm : MeasurableSet {q : ℝ × σ | q.2 ∈ twoSet D a b n (pre ++ [q.1]) rows₂.length (rows₁ ++ r :: rows₂) B} := by
      have := twoSet_meas D a b n hB (rows₁ ++ r :: rows₂) rows₂.length
        (pre.map (fun t => fun _ : ℝ × σ => t) ++ [Prod.fst]) (by
          intro g h
          rcases List.mem_append.1 h with h | h
          · obtain ⟨t, _, rfl⟩ := List.mem_map.1 h
            exact measurable_const
          · obtain rfl := List.mem_singleton.1 h
            exact measurable_fst) measurable_snd
      simpa [List.map_map, Function.comp_def] using this
    rw [List.length_cons, twoSet_succ, ← Measure.map_apply (D.beta_meas _) hm, D.beta_law a b ha hb,
      Measure.prod_apply hm, List.map_cons, List.prod_cons]
    have e : ∀ᵐ t ∂betaMeasure a b, D.P (Prod.mk t ⁻¹' {q : ℝ × σ | q.2 ∈ twoSet D a b n (pre ++ [q.1]) rows₂.length
        (rows₁ ++ r :: rows₂) B}) =
        (([r.1, r.2].map fun k => ENNReal.ofReal (binomialProb n k t)).prod) *
          ((List.zipWith (fun t r => ENNReal.ofReal (binomialProb n r.1 t) *
            ENNReal.ofReal (binomialProb n r.2 t)) pre rows₁).prod *
          ((rows₂.map fun r => betaBinomialProb a b n [r.1, r.2]).prod * D.P B)) := by
      filter_upwards [beta_ae a b] with t htt
      have := ih (pre ++ [t]) (by
        intro x hx
        rcases List.mem_append.1 hx with hx | hx
        · exact ht x hx
        · obtain rfl := List.mem_singleton.1 hx
          exact htt) (rows₁ ++ [r]) (by simp [hl]) (by simpa using hr)
      rw [List.append_assoc, List.singleton_append] at this
      rw [Set.preimage_setOf_eq]
      simp only [Set.setOf_mem_eq]
      rw [this, List.zipWith_append hl, List.prod_append]
      simp only [List.zipWith_cons_cons, List.zipWith_nil_right, List.prod_cons, List.prod_nil, List.map_cons,
        List.map_nil]
      ring
    rw [lintegral_congr_ae e, lintegral_mul_const]
    · unfold betaBinomialProb
      ring
    · simp only [List.map_cons, List.map_nil, List.prod_cons, List.prod_nil]
      unfold binomialProb
      fun_prop

end BetaBinom

end Dist
