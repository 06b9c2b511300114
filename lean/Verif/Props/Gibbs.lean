import Verif.Lemmas.GibbsRun
import Verif.Lemmas.GibbsModels
import Verif.Lemmas.IdealRngExists

/-!
# C66: Gibbs inference with the library leaves the posterior unchanged and converges to it

The inference loops of the example, run over exact reals with any sampler that draws an index
with probability proportional to the exponential of its score; the two samplers of the library
do (`C66_draws`).
-/

namespace Dist

open Spec Finset MeasureTheory

variable {ι R S G V σ : Type} [DecidableEq ι] [Fintype ι] [MeasurableSpace σ]

/-- The C++ sampler and the Python sampler draw an index with probability proportional to the
exponential of its score. -/
theorem C66_draws (I : IdealRng σ) :
    SoftmaxDraw I.P (fun l s => sampleFromScores I.toRng s l) ∧
    SoftmaxDraw I.P (fun l s => Dbg.sampleDiscreteLog I.toRng s l) :=
  ⟨sampleFromScores_softmax I, Dbg.sampleDiscreteLog_softmax I⟩

omit [DecidableEq ι] [Fintype ι] [MeasurableSpace σ] in
/-- A Dirichlet-Discrete mixture has to be initialised before a group can be added: on a new one,
`init` gives the scorer the features above start with, while `add_group`, which is how the loops
of the example begin, writes outside the vectors of the scorer. -/
theorem C66_dd_uninitialised (lvl : Nat) {dim : Nat} (hd : 0 < dim) (x : (Fin dim → ℝ) × (R → Fin dim)) :
    MixtureSlave.init (ddFeature lvl x).vs ⟨[], DD.Cache.raw⟩ = .ok ⟨[], (ddFeature lvl x).fresh⟩ ∧
    MixtureSlave.addGroup lvl (ddFeature lvl x).ops (ddFeature lvl x).vs ⟨[], DD.Cache.raw⟩ = .ub := by
  obtain ⟨n, rfl⟩ : ∃ n, dim = n + 1 := ⟨dim - 1, by omega⟩
  constructor
  · obtain ⟨s1, s2, h1, h2, h3⟩ := (DD.laws lvl (DD.real x.1)).init DD.Cache.raw [] (by simp)
    have e : MixtureSlave.init (ddFeature lvl x).vs ⟨[], DD.Cache.raw⟩ = .ok ⟨[], s2⟩ := by
      rw [MixtureSlave.init]
      have h1' : (ddFeature lvl x).vs.resize DD.Cache.raw ([] : List DD.Group).length = .ok s1 := h1
      have h2' : (ddFeature lvl x).vs.updateAll s1 [] = .ok s2 := h2
      rw [h1', Res.ok_bind, h2']
      rfl
    rw [e, Res.ok.injEq, MixtureSlave.mk.injEq]
    refine ⟨rfl, ?_⟩
    obtain ⟨a, b, c⟩ := s2
    have ha := h3.sum
    have hc := h3.shift
    have hl := h3.len
    simp only [List.map_nil] at ha hc hl
    simp only [ddFeature, DD.Cache.mk.injEq]
    refine ⟨?_, ?_, hc⟩
    · rw [ha, DD.asum, DD.real, XR.ofInt_eq, Int.cast_zero, DD.foldl_fin, zero_add]
    · rw [DD.real, List.length_ofFn] at hl
      apply List.ext_getElem (by simpa using hl)
      intro v h1 h2
      have hv : v < n + 1 := by omega
      have := h3.cols v (.fin (x.1 ⟨v, hv⟩)) (by
        rw [DD.real, List.getElem?_ofFn, dif_pos hv])
      rw [List.getElem?_eq_getElem h1] at this
      simpa using this
  · simp [MixtureSlave.addGroup, ddFeature, DD.valueScorer, DD.Cache.raw, DD.forValues]

section

variable {lvl : Nat} {alpha d : ℝ} (ha : 0 < alpha) (hd0 : 0 ≤ d) (hd1 : d < 1) {rows : ι → R}
  {fs : List (FeatureModel R S G V XR)} (hf : LibraryFeatures lvl rows fs)
  (hcard : Fintype.card ι ≤ 2147483647)

include ha hd0 hd1 hf hcard

omit [MeasurableSpace σ] in
/-- Every clustering of any of the items is a state of the inference loops. -/
theorem C66_reached {n : Nat} (hn : 1 ≤ n) {A : Finset ι} (hk : n + A.card ≤ 4294967296)
    (Q : Finpartition A) :
    ∃ st, Reached lvl ⟨.fin alpha, .fin d⟩ fs rows st (n + A.card) ∧
      clusters st.assignments = Q.parts := by
  obtain ⟨_, Sm, Coh, dat, hs⟩ := library_sound hf hcard
  have hX : Ctx.Ok (⟨lvl, alpha, d, rows, fs, Sm, Coh, dat⟩ : Ctx ι R S G V) :=
    ⟨ha, hd0, hd1, hcard, hs⟩
  have hA : A.toList.toFinset = A := toList_toFinset A
  obtain ⟨st, h1, h2, _⟩ := Ctx.reached_all hX hn A.toList (nodup_toList A)
    (by rw [length_toList]; exact hk) (Q := Q.parts)
    (by rw [hA]; exact Parts.of_finpartition Q)
  rw [length_toList] at h1
  exact ⟨st, h1, h2⟩

/-- Resampling item `i` draws the new clustering from its full conditional, and leaves a fresh
state of the generator. -/
theorem C66_step {μ : Measure σ} {draw : List XR → σ → Res (Nat × σ)} (hdraw : SoftmaxDraw μ draw)
    {st : Inference ι R S G V XR} {k : Nat}
    (hst : Reached lvl ⟨.fin alpha, .fin d⟩ fs rows st k) (hk : k + 1 ≤ 4294967296)
    {A : Finset ι} {P : Finpartition A} (hP : clusters st.assignments = P.parts)
    {i : ι} (hi : i ∈ A) (Q : Finpartition A) {B : Set σ} (hB : MeasurableSet B) :
    μ {s | ∃ st' s', st.resample lvl ⟨.fin alpha, .fin d⟩ draw rows i s = .ok (st', s') ∧
        clusters st'.assignments = Q.parts ∧ s' ∈ B} =
      ENNReal.ofReal (fullConditional ⟨.fin alpha, .fin d⟩ fs rows i P Q) * μ B := by
  obtain ⟨_, Sm, Coh, dat, hs⟩ := library_sound hf hcard
  let X : Ctx ι R S G V := ⟨lvl, alpha, d, rows, fs, Sm, Coh, dat⟩
  have hX : X.Ok := ⟨ha, hd0, hd1, hcard, hs⟩
  have hinv : X.Inv st k := Ctx.reached_inv hX hst (by omega)
  have hi0 : st.assignments i ≠ none := by
    have := ((clusters_parts st.assignments).cover i).mpr
      (by rw [hP]; exact ((Parts.of_finpartition P).cover i).mp hi)
    simpa using this
  have := (hinv.resample_bind hX hdraw hi0 hk
    (fun st' => {s' | clusters st'.assignments = Q.parts ∧ s' ∈ B})
    (fun C => if C = Q.parts then 1 else 0) (fun C => by split_ifs <;> norm_num) (μ B)
    (fun st' _ _ _ => Ctx.event_measure μ Q.parts hB st')).2
  rw [hP] at this
  rw [show fullConditional ⟨.fin alpha, .fin d⟩ fs rows i P Q = _ from
    Ctx.fullConditional_eq hX hi P Q]
  exact this

/-- Placing a new item `i` with `score_value` draws the new clustering with the posterior
probability of the clusterings that agree with the old one on the items already placed. -/
theorem C66_place {μ : Measure σ} {draw : List XR → σ → Res (Nat × σ)} (hdraw : SoftmaxDraw μ draw)
    {st : Inference ι R S G V XR} {k : Nat}
    (hst : Reached lvl ⟨.fin alpha, .fin d⟩ fs rows st k) (hk : k + 1 ≤ 4294967296)
    {i : ι} (hi : st.assignments i = none) {A : Finset ι} (hA : ∀ j, j ∈ A ↔ st.assignments j ≠ none ∨ j = i)
    (Q : Finpartition A) {B : Set σ} (hB : MeasurableSet B) :
    μ {s | ∃ st' s', st.place lvl ⟨.fin alpha, .fin d⟩ draw true rows i s = .ok (st', s') ∧
        clusters st'.assignments = Q.parts ∧ s' ∈ B} =
      ENNReal.ofReal (if without i Q.parts = clusters st.assignments then
        Real.exp (logPosterior ⟨.fin alpha, .fin d⟩ fs rows Q.parts) /
          ∑ Q' : Finpartition A with without i Q'.parts = clusters st.assignments,
            Real.exp (logPosterior ⟨.fin alpha, .fin d⟩ fs rows Q'.parts) else 0) * μ B := by
  obtain ⟨_, Sm, Coh, dat, hs⟩ := library_sound hf hcard
  let X : Ctx ι R S G V := ⟨lvl, alpha, d, rows, fs, Sm, Coh, dat⟩
  have hX : X.Ok := ⟨ha, hd0, hd1, hcard, hs⟩
  have hinv : X.Inv st k := Ctx.reached_inv hX hst (by omega)
  have := (hinv.place_bind hX hdraw true hi hk
    (fun st' => {s' | clusters st'.assignments = Q.parts ∧ s' ∈ B})
    (fun C => if C = Q.parts then 1 else 0) (fun C => by split_ifs <;> norm_num) (μ B)
    (fun st' _ _ _ => Ctx.event_measure μ Q.parts hB st')).2
  have hiA : i ∈ A := (hA i).mpr (.inr rfl)
  have hAe : A.erase i = univ.filter fun j => st.assignments j ≠ none := by
    ext j
    simp only [mem_erase, hA, mem_filter, mem_univ, true_and]
    constructor
    · rintro ⟨h1, h2 | h2⟩
      · exact h2
      · exact absurd h2 h1
    · intro h
      exact ⟨by rintro rfl; exact h hi, .inl h⟩
  have hC : Parts A (Spec.put i ∅ (clusters st.assignments)) := by
    have := (clusters_parts st.assignments).put (i := i) (by simp [hi]) (mem_insert_self ∅ _)
    rwa [← hAe, insert_erase hiA] at this
  have hw : without i hC.toFinpartition.parts = clusters st.assignments :=
    (clusters_parts st.assignments).without_put (by simp [hi]) (mem_insert_self ∅ _)
  have hfc := Ctx.fullConditional_eq hX hiA hC.toFinpartition Q
  unfold fullConditional at hfc
  rw [hw] at hfc
  refine this.trans ?_
  congr 2
  exact hfc.symm

/-- Running the Gibbs loops from a clustering drawn from the posterior leaves the law of the
clustering as it was: `n` passes over any of the items, from any states, one for every
clustering. -/
theorem C66_invariant {μ : Measure σ} [IsProbabilityMeasure μ] {draw : List XR → σ → Res (Nat × σ)}
    (hdraw : SoftmaxDraw μ draw) {A : Finset ι} {items : List ι} (hit : ∀ i ∈ items, i ∈ A)
    {n k : Nat} (hk : k + n * items.length ≤ 4294967296)
    {st : Finpartition A → Inference ι R S G V XR}
    (hst : ∀ P, Reached lvl ⟨.fin alpha, .fin d⟩ fs rows (st P) k)
    (hP : ∀ P, clusters (st P).assignments = P.parts) (Q : Finpartition A) :
    ∑ P : Finpartition A, posterior ⟨.fin alpha, .fin d⟩ fs rows P *
      μ.real {s | ∃ st' s',
        (st P).passes lvl ⟨.fin alpha, .fin d⟩ draw rows items n s = .ok (st', s') ∧
        clusters st'.assignments = Q.parts} =
      posterior ⟨.fin alpha, .fin d⟩ fs rows Q := by
  obtain ⟨_, Sm, Coh, dat, hs⟩ := library_sound hf hcard
  let X : Ctx ι R S G V := ⟨lvl, alpha, d, rows, fs, Sm, Coh, dat⟩
  have hX : X.Ok := ⟨ha, hd0, hd1, hcard, hs⟩
  have hterm : ∀ P : Finpartition A, μ.real {s | ∃ st' s',
        (st P).passes lvl ⟨.fin alpha, .fin d⟩ draw rows items n s = .ok (st', s') ∧
        clusters st'.assignments = Q.parts} =
      passMean (X.W true) items n (fun C => if C = Q.parts then 1 else 0) P.parts := by
    intro P
    have hinv : X.Inv (st P) k := Ctx.reached_inv hX (hst P) (by omega)
    have hi0 : ∀ i ∈ items, (st P).assignments i ≠ none := by
      intro i hi
      have := ((clusters_parts (st P).assignments).cover i).mpr
        (by rw [hP]; exact ((Parts.of_finpartition P).cover i).mp (hit i hi))
      simpa using this
    have := (hinv.passes_bind hX hdraw items n hi0 hk
      (fun st' => {s' | clusters st'.assignments = Q.parts ∧ s' ∈ Set.univ})
      (fun C => if C = Q.parts then 1 else 0) (fun C => by split_ifs <;> norm_num) (μ Set.univ)
      (fun st' _ _ => Ctx.event_measure μ Q.parts MeasurableSet.univ st')).2
    simp only [Set.mem_univ, and_true, Set.mem_setOf_eq, measure_univ, mul_one] at this
    rw [hP] at this
    have h2 : μ {s | ∃ st' s',
        (st P).passes lvl ⟨.fin alpha, .fin d⟩ draw rows items n s = .ok (st', s') ∧
        clusters st'.assignments = Q.parts} = _ := this
    rw [Measure.real, h2, ENNReal.toReal_ofReal]
    exact passMean_nonneg (X.W_pos true) items n (fun C => by split_ifs <;> norm_num) _
  have hpost : ∀ P : Finpartition A, posterior ⟨.fin alpha, .fin d⟩ fs rows P = _ :=
    fun P => Ctx.posterior_eq hX P
  simp only [hterm, hpost]
  have := passMean_invariant (W := X.W true) (X.W_pos true) items hit n
    (fun C => if C = Q.parts then 1 else 0)
  rw [sum_congr rfl fun P _ => div_mul_eq_mul_div _ _ _, ← sum_div, this]
  congr 1
  rw [sum_eq_single Q]
  · simp
  · intro P _ hne
    rw [if_neg fun he => hne (Finpartition.ext he), mul_zero]
  · simp

/-- The Gibbs loops converge to the posterior at a geometric rate that does not depend on
where they start. -/
theorem C66_converges {μ : Measure σ} [IsProbabilityMeasure μ]
    {draw : List XR → σ → Res (Nat × σ)} (hdraw : SoftmaxDraw μ draw) {A : Finset ι}
    {items : List ι} (hit : ∀ i, i ∈ items ↔ i ∈ A) :
    ∃ ε : ℝ, 0 < ε ∧ ε ≤ 1 ∧ ∀ (n k : Nat) (st : Inference ι R S G V XR),
      Reached lvl ⟨.fin alpha, .fin d⟩ fs rows st k → k + n * items.length ≤ 4294967296 →
      (∀ i, st.assignments i ≠ none ↔ i ∈ A) → ∀ Q : Finpartition A,
      |μ.real {s | ∃ st' s',
          st.passes lvl ⟨.fin alpha, .fin d⟩ draw rows items n s = .ok (st', s') ∧
          clusters st'.assignments = Q.parts} -
        posterior ⟨.fin alpha, .fin d⟩ fs rows Q| ≤ (1 - ε) ^ n := by
  obtain ⟨_, Sm, Coh, dat, hs⟩ := library_sound hf hcard
  let X : Ctx ι R S G V := ⟨lvl, alpha, d, rows, fs, Sm, Coh, dat⟩
  have hX : X.Ok := ⟨ha, hd0, hd1, hcard, hs⟩
  obtain ⟨ε, h0, h1, hε⟩ := passMean_converges (W := X.W true) (X.W_pos true) (A := A) items
    (fun i hi => (hit i).mp hi) (fun i hi => (hit i).mpr hi)
  refine ⟨ε, h0, h1, ?_⟩
  intro n k st hst hk hA Q
  have hinv : X.Inv st k := Ctx.reached_inv hX hst (by omega)
  have hpt := clusters_parts st.assignments
  have hAe : (univ.filter fun i => st.assignments i ≠ none) = A := by ext i; simp [← hA]
  rw [hAe] at hpt
  have := (hinv.passes_bind hX hdraw items n (fun i hi => (hA i).mpr ((hit i).mp hi)) hk
    (fun st' => {s' | clusters st'.assignments = Q.parts ∧ s' ∈ Set.univ})
    (fun C => if C = Q.parts then 1 else 0) (fun C => by split_ifs <;> norm_num) (μ Set.univ)
    (fun st' _ _ => Ctx.event_measure μ Q.parts MeasurableSet.univ st')).2
  simp only [Set.mem_univ, and_true, Set.mem_setOf_eq, measure_univ, mul_one] at this
  have h2 : μ {s | ∃ st' s',
      st.passes lvl ⟨.fin alpha, .fin d⟩ draw rows items n s = .ok (st', s') ∧
      clusters st'.assignments = Q.parts} = _ := this
  rw [Measure.real, h2, ENNReal.toReal_ofReal
    (passMean_nonneg (X.W_pos true) items n (fun C => by split_ifs <;> norm_num) _),
    show posterior ⟨.fin alpha, .fin d⟩ fs rows Q = _ from Ctx.posterior_eq hX Q]
  exact hε n hpt.toFinpartition Q

/-- The first loop of `compress_gibbs` draws the clustering from the prior: its probability is
the exponential of `score_counts` of its cluster sizes. -/
theorem C66_prior_start {μ : Measure σ} {draw : List XR → σ → Res (Nat × σ)}
    (hdraw : SoftmaxDraw μ draw) {n : Nat} {w : FullMixture R S G V XR}
    (hw : (FullMixture.raw fs).init lvl ⟨.fin alpha, .fin d⟩ n = .ok w) {items : List ι}
    (hnd : items.Nodup) (hk : n + items.length ≤ 4294967296)
    (Q : Finpartition items.toFinset) {B : Set σ} (hB : MeasurableSet B) :
    μ {s | ∃ st' s', Inference.placeAll lvl ⟨.fin alpha, .fin d⟩ draw false rows items
          ⟨w, fun _ => none⟩ s = .ok (st', s') ∧
        clusters st'.assignments = Q.parts ∧ s' ∈ B} =
      ENNReal.ofReal (Real.exp (value (.ok
        ((⟨.fin alpha, .fin d⟩ : PitmanYor XR).scoreCounts (Q.parts.toList.map card))))) * μ B := by
  obtain ⟨_, Sm, Coh, dat, hs⟩ := library_sound hf hcard
  let X : Ctx ι R S G V := ⟨lvl, alpha, d, rows, fs, Sm, Coh, dat⟩
  have hX : X.Ok := ⟨ha, hd0, hd1, hcard, hs⟩
  have hinv : X.Inv ⟨w, fun _ => none⟩ n := Ctx.reached_inv hX (.init hw) (by omega)
  have := (hinv.placeAll_bind hX hdraw false items hnd (fun _ _ => rfl) hk
    (fun st' => {s' | clusters st'.assignments = Q.parts ∧ s' ∈ B})
    (fun C => if C = Q.parts then 1 else 0) (fun C => by split_ifs <;> norm_num) (μ B)
    (fun st' _ _ => Ctx.event_measure μ Q.parts hB st')).2
  have he : clusters (fun _ : ι => (none : Option Nat)) = ∅ := by simp [clusters]
  simp only [he] at this
  rw [Ctx.startMean_prior_empty hX items hnd Q] at this
  rw [Ctx.scoreCounts_value ha hd0 hd1]
  exact this

/-- `compress_gibbs` almost surely ends, and after `c` passes its clustering is within
`(1 - ε)^c` of the posterior. -/
theorem C66_compress_gibbs {μ : Measure σ} [IsProbabilityMeasure μ]
    {draw : List XR → σ → Res (Nat × σ)} (hdraw : SoftmaxDraw μ draw) {n : Nat} (hn : 1 ≤ n)
    {items : List ι} (hnd : items.Nodup) :
    ∃ ε : ℝ, 0 < ε ∧ ε ≤ 1 ∧ ∀ c : Nat, n + (c + 1) * items.length ≤ 4294967296 →
      μ {s | ∃ st s', Inference.compressGibbs lvl ⟨.fin alpha, .fin d⟩ draw rows fs n items c s =
        .ok (st, s')} = 1 ∧
      ∀ Q : Finpartition items.toFinset,
      |μ.real {s | ∃ st s', Inference.compressGibbs lvl ⟨.fin alpha, .fin d⟩ draw rows fs n items c s
          = .ok (st, s') ∧ clusters st.assignments = Q.parts} -
        posterior ⟨.fin alpha, .fin d⟩ fs rows Q| ≤ (1 - ε) ^ c := by
  obtain ⟨_, Sm, Coh, dat, hs⟩ := library_sound hf hcard
  let X : Ctx ι R S G V := ⟨lvl, alpha, d, rows, fs, Sm, Coh, dat⟩
  have hX : X.Ok := ⟨ha, hd0, hd1, hcard, hs⟩
  obtain ⟨ε, h0, h1, hε⟩ := Ctx.run_converges hX hdraw false hn items hnd
  refine ⟨ε, h0, h1, fun c hk => ?_⟩
  obtain ⟨w, hw, _⟩ := Ctx.inv_init hX hn (by omega)
  have hcode : ∀ s, Inference.compressGibbs lvl ⟨.fin alpha, .fin d⟩ draw rows fs n items c s =
      (Inference.placeAll lvl ⟨.fin alpha, .fin d⟩ draw false rows items ⟨w, fun _ => none⟩ s).bind
        fun r => Inference.passes lvl ⟨.fin alpha, .fin d⟩ draw rows items c r.1 r.2 := by
    intro s
    unfold Inference.compressGibbs
    rw [show (FullMixture.raw fs).init lvl ⟨.fin alpha, .fin d⟩ n = .ok w from hw, Res.ok_bind]
    rfl
  simp only [hcode]
  exact hε c w hw hk

/-- `compress_seq_gibbs` almost surely ends, and after `c` passes, the first of which places the
items, its clustering is within `(1 - ε)^(c - 1)` of the posterior. -/
theorem C66_compress_seq_gibbs {μ : Measure σ} [IsProbabilityMeasure μ]
    {draw : List XR → σ → Res (Nat × σ)} (hdraw : SoftmaxDraw μ draw) {n : Nat} (hn : 1 ≤ n)
    {items : List ι} (hnd : items.Nodup) :
    ∃ ε : ℝ, 0 < ε ∧ ε ≤ 1 ∧ ∀ c : Nat, 1 ≤ c → n + c * items.length ≤ 4294967296 →
      μ {s | ∃ st s', Inference.compressSeqGibbs lvl ⟨.fin alpha, .fin d⟩ draw rows fs n items c s =
        .ok (st, s')} = 1 ∧
      ∀ Q : Finpartition items.toFinset,
      |μ.real {s | ∃ st s',
          Inference.compressSeqGibbs lvl ⟨.fin alpha, .fin d⟩ draw rows fs n items c s
          = .ok (st, s') ∧ clusters st.assignments = Q.parts} -
        posterior ⟨.fin alpha, .fin d⟩ fs rows Q| ≤ (1 - ε) ^ (c - 1) := by
  obtain ⟨_, Sm, Coh, dat, hs⟩ := library_sound hf hcard
  let X : Ctx ι R S G V := ⟨lvl, alpha, d, rows, fs, Sm, Coh, dat⟩
  have hX : X.Ok := ⟨ha, hd0, hd1, hcard, hs⟩
  obtain ⟨ε, h0, h1, hε⟩ := Ctx.run_converges hX hdraw true hn items hnd
  refine ⟨ε, h0, h1, fun c hc hk => ?_⟩
  obtain ⟨w, hw, _⟩ := Ctx.inv_init hX hn (by omega)
  have hcode : ∀ s, Inference.compressSeqGibbs lvl ⟨.fin alpha, .fin d⟩ draw rows fs n items c s =
      (Inference.placeAll lvl ⟨.fin alpha, .fin d⟩ draw true rows items ⟨w, fun _ => none⟩ s).bind
        fun r => Inference.passes lvl ⟨.fin alpha, .fin d⟩ draw rows items (c - 1) r.1 r.2 := by
    intro s
    unfold Inference.compressSeqGibbs
    rw [distAssert0_of hc, Res.ok_bind,
      show (FullMixture.raw fs).init lvl ⟨.fin alpha, .fin d⟩ n = .ok w from hw, Res.ok_bind]
    rfl
  simp only [hcode]
  exact hε (c - 1) w hw (by rw [Nat.sub_add_cancel hc]; exact hk)

end

/-- The hypotheses are met by the model of the example: two Normal-Inverse-ChiSq features of
points of the plane, a Pitman-Yor clustering with `alpha = 100`, `d = 0.1` and an ideal
generator. -/
example (rows : Fin 10000 → ℝ × ℝ) :
    (0 : ℝ) < 100 ∧ (0 : ℝ) ≤ 1 / 10 ∧ (1 / 10 : ℝ) < 1 ∧ Fintype.card (Fin 10000) ≤ 2147483647 ∧
    LibraryFeatures 0 rows ([(0, 1 / 10, 1 / 100, 1, Prod.fst), (0, 1 / 10, 1 / 100, 1, Prod.snd)].map
      (nichFeature 0)) ∧
    (∃ (σ : Type) (_ : MeasurableSpace σ) (I : IdealRng σ),
      SoftmaxDraw I.P fun l s => Dbg.sampleDiscreteLog I.toRng s l) ∧
    (List.finRange 10000).Nodup ∧ 10 + (10 + 1) * (List.finRange 10000).length ≤ 4294967296 := by
  refine ⟨by norm_num, by norm_num, by norm_num, by simp, .nich _ ?_, ?_, List.nodup_finRange _,
    by simp⟩
  · intro x hx
    simp only [List.mem_cons, List.not_mem_nil, or_false] at hx
    rcases hx with rfl | rfl <;> norm_num
  · obtain ⟨I⟩ := idealRng_exists
    exact ⟨_, _, I, (C66_draws I).2⟩

/-- So does a table of counts with one Gamma-Poisson feature. -/
example : LibraryFeatures 2 (fun i : Fin 5 => i) ([((2 : ℝ), (1 : ℝ),
    fun i : Fin 5 => (UInt32.ofNat (7 * i.val)))].map (gpFeature 2)) := by
  refine .gp _ ?_
  intro x hx
  simp only [List.mem_cons, List.not_mem_nil, or_false] at hx
  subst hx
  exact ⟨by norm_num, by norm_num, by decide⟩

/-- So does a table of answers with three choices. -/
example (rows : Fin 100 → Fin 3 × Fin 3) :
    LibraryFeatures 1 rows ([((fun _ => 1 / 2 : Fin 3 → ℝ), Prod.fst), (![1, 2, 3], Prod.snd)].map
      (ddFeature 1)) := by
  refine .dd _ (by norm_num) ?_
  intro x hx i
  simp only [List.mem_cons, List.not_mem_nil, or_false] at hx
  rcases hx with rfl | rfl
  · norm_num
  · fin_cases i <;> simp

/-- So does a table of words, two of which are known. -/
example (rows : Fin 100 → {v : UInt32 // v ∈ ({3, 7} : Finset UInt32)}) :
    LibraryFeatures 1 rows ([((⟨1, 2, 1 / 4, (FMap.empty.set 3 (1 / 4)).set 7 (1 / 2),
        SparseCounter.raw.clear⟩ : DPD.Shared ℝ),
      fun g : DPD.Group => g.map.exists_enum.choose, id)].map (dpdFeature 1)) := by
  refine .dpd _ ?_
  intro x hx
  simp only [List.mem_cons, List.not_mem_nil, or_false] at hx
  subst hx
  refine ⟨by norm_num, ?_, by decide, by decide, fun g => g.map.exists_enum.choose_spec⟩
  intro v b hb
  simp only [FMap.set, FMap.empty] at hb
  split_ifs at hb <;> simp at hb <;> subst hb <;> norm_num

end Dist
