import Verif.Lemmas.SingleGibbsRun
import Verif.Lemmas.SingleGibbsModels
import Verif.Lemmas.SingleDraw
import Verif.Lemmas.IdealRngExists

/-!
# C82: Gibbs inference in single precision stays close to the posterior

The inference loops of the example, with every operation of the scores, the caches and the sampler
rounded to single precision, `fast_log` read from its table and `fast_exp` computed from its bits.
The posterior is the exact one.
-/

namespace Dist

open Spec Finset MeasureTheory

variable {ι R S S' G V σ : Type} [DecidableEq ι] [Fintype ι] [MeasurableSpace σ] {lib : Libm}

/-- The sampler of the library in single precision, from at most `N` scores: the probability of an
index is within `(8e-5 + N/2^21) q + N/2^20` of its ideal probability `q`. -/
theorem C82_draws (hl : LogNear lib.expVar) (hp : PowAccurate lib.expVar) (I : IdealRng σ)
    {rng : Rng (Single lib) σ} (hr : NearUniform I rng) {N : ℕ} (hN : N ≤ 2 ^ 20) :
    NearSoftmaxDraw N (80 / 10 ^ 6 + N / 2 ^ 21) (N / 2 ^ 20) I.P
      fun l s => sampleFromScores rng s l :=
  sampleFromScores_near hl hp I rng hr hN

section

variable {lvl : Nat} {alpha d : ℝ} (ha1 : 1 / 2 ^ 40 ≤ alpha) (ha2 : alpha ≤ 2 ^ 40)
  (hd0 : d = 0 ∨ 1 / 2 ^ 40 ≤ d) (hd1 : d ≤ 1 - 1 / 2 ^ 24) {rows : ι → R}
  {fs' : List (FeatureModel R S' G V (Single lib))} {fs : List (FeatureModel R S G V XR)} {e : Nat}
  (hf : SingleFeatures lib lvl fs' fs e) (hK : fs'.length ≤ 1000) (hcard : Fintype.card ι ≤ 2147483647)

include ha1 ha2 hd0 hd1 hf hK hcard

omit [MeasurableSpace σ] in
/-- The score of every group for item `i` is within `scoreError` of the exact difference of
log-posteriors, shared among the empty groups. -/
theorem C82_scores {st : Inference ι R S' G V (Single lib)} {k : Nat}
    (hst : Reached lvl ⟨⟨alpha⟩, ⟨d⟩⟩ fs' rows st k) (hk : k ≤ 4294967296)
    (hsz : st.mixture.size ≤ 2 ^ 20) {i : ι} (hi : st.assignments i = none) :
    ∃ x : List ℝ, st.mixture.scoreValue lvl ⟨⟨alpha⟩, ⟨d⟩⟩ (rows i) = .ok (x.map Single.mk) ∧
      x.length = st.mixture.size ∧
      ∀ (p g : Nat) (hp : p < x.length), st.mixture.tracker.packedToGlobalId lvl p = .ok g →
        let b := univ.filter fun j => st.assignments j = some g
        |x[p] - (logPosterior ⟨.fin alpha, .fin d⟩ fs rows
              (put i b (clusters st.assignments)) -
            logPosterior ⟨.fin alpha, .fin d⟩ fs rows (clusters st.assignments) -
            Real.log (if b = ∅ then
              ((st.mixture.size - (clusters st.assignments).card : ℕ) : ℝ) else 1))| ≤
          scoreError e fs'.length := by
  obtain ⟨_, Y, hY, rfl, rfl, rfl, rfl, rfl, rfl, rfl⟩ :=
    library_single (lib := lib) ha1 ha2 hd0 hd1 rows hf hK hcard
  obtain ⟨E, w, s0, ls, h, hk0, hE0⟩ := SCtx.reached_inv hY hst hk
  have hs := h.size
  obtain ⟨F', hF, hF'⟩ := h.scores hY (by rw [← hs.1]; exact hsz) hi true
  refine ⟨ls.map F', ?_, by rw [List.length_map, hs.1], ?_⟩
  · simp only [if_true] at hF
    rw [hF, List.map_map]
    rfl
  intro p g hp hg b
  have hp' : p < ls.length := by simpa using hp
  have htr : st.mixture.tracker = w.tracker := congrArg World.tracker h.world
  have hg' := h.exact.base.tracker.packedToGlobalId Y.X.lvl (p := p) (g := ls[p].1)
    (by simp [List.getElem?_eq_getElem hp'])
  have hg2 : w.tracker.packedToGlobalId Y.X.lvl p = .ok ls[p].1 := hg'
  rw [htr, hg2, Res.ok.injEq] at hg
  have hb : ls[p].2.toFinset = b := by
    rw [h.exact.assign _ (List.getElem_mem hp'), val_toFinset, hg]
  have := (hF' ls[p] (List.getElem_mem hp')).1
  have hlp : ∀ C, logPosterior Y.X.model Y.X.feats Y.X.rows C =
      logWeight Y.X.alpha Y.X.d (Y.X.D (Y.X.used true)) C :=
    fun C => Real.exp_injective (Ctx.logPosterior_eq hY.ok C)
  have hE : st.mixture.size - (clusters st.assignments).card =
      (ls.map fun x => x.2.card).count 0 := by rw [hs.1]; omega
  rw [hb] at this
  rw [List.getElem_map, hE]
  have hlp' : ∀ C, logPosterior ⟨.fin Y.X.alpha, .fin Y.X.d⟩ Y.X.feats Y.X.rows C = _ := hlp
  rw [hlp', hlp']
  refine le_of_eq_of_le ?_ this
  congr 2

/-- Resampling item `i`: the probability of each new clustering is within `stepError` of its full
conditional probability, and the run always succeeds. -/
theorem C82_step {μ : Measure σ} [IsProbabilityMeasure μ] {N : ℕ} {r t : ℝ} (ht : 0 ≤ t)
    (hN : N ≤ 2 ^ 20) {draw : List (Single lib) → σ → Res (Nat × σ)}
    (hdraw : NearSoftmaxDraw N r t μ draw)
    {st : Inference ι R S' G V (Single lib)} {k : Nat}
    (hst : Reached lvl ⟨⟨alpha⟩, ⟨d⟩⟩ fs' rows st k)
    (hk : k + 1 ≤ 4294967296) (hsz : st.mixture.size ≤ N)
    {A : Finset ι} {P : Finpartition A} (hP : clusters st.assignments = P.parts)
    {i : ι} (hi : i ∈ A) :
    (∀ s, ∃ st' s', st.resample lvl ⟨⟨alpha⟩, ⟨d⟩⟩ draw rows i s = .ok (st', s')) ∧
    ∀ (Q : Finpartition A) (B : Set σ), MeasurableSet B →
      |μ.real {s | ∃ st' s', st.resample lvl ⟨⟨alpha⟩, ⟨d⟩⟩ draw rows i s = .ok (st', s') ∧
          clusters st'.assignments = Q.parts ∧ s' ∈ B} -
        fullConditional ⟨.fin alpha, .fin d⟩ fs rows i P Q * μ.real B| ≤
      stepError N e fs'.length r t * μ.real B := by
  obtain ⟨_, Y, hY, rfl, rfl, rfl, rfl, rfl, rfl, rfl⟩ :=
    library_single (lib := lib) ha1 ha2 hd0 hd1 rows hf hK hcard
  obtain ⟨E, hinv⟩ := SCtx.reached_inv hY hst (by omega)
  have hi0 : st.assignments i ≠ none := by
    have := ((clusters_parts st.assignments).cover i).mpr
      (by rw [hP]; exact ((Parts.of_finpartition P).cover i).mp hi)
    simpa using this
  have hL := hinv.resample_law hY ht hN hdraw hsz hi0 hk
  refine ⟨fun s => ?_, fun Q B hB => ?_⟩
  · obtain ⟨st', s', e, -⟩ := hL.total s
    exact ⟨st', s', e⟩
  · obtain ⟨-, -, m3, -⟩ := hL.law
      (fun st' => {s' | clusters st'.assignments = Q.parts ∧ s' ∈ B}) (μ.real B)
      (fun st' _ => (SCtx.event_near Q.parts hB st').1)
    have m4 := m3 (fun C => if C = Q.parts then 1 else 0) 0 (by
      intro st' _
      rw [(SCtx.event_near Q.parts hB st').2]
      simp)
    rw [zero_add, hP] at m4
    rw [show fullConditional ⟨.fin Y.X.alpha, .fin Y.X.d⟩ Y.X.feats Y.X.rows i P Q = _ from
      Ctx.fullConditional_eq hY.ok hi P Q]
    exact m4

/-- The Gibbs loops from any state: after `n` passes, and for every `j` up to `n`, the probability
of each clustering is within `(1 - ε)^j + j * items * stepError` of its posterior probability.  The
error does not grow with the number of passes. -/
theorem C82_converges {μ : Measure σ} [IsProbabilityMeasure μ] {N : ℕ} {r t : ℝ} (ht : 0 ≤ t)
    (hN : N ≤ 2 ^ 20) {draw : List (Single lib) → σ → Res (Nat × σ)}
    (hdraw : NearSoftmaxDraw N r t μ draw) {A : Finset ι} {items : List ι}
    (hit : ∀ i, i ∈ items ↔ i ∈ A) :
    ∃ ε : ℝ, 0 < ε ∧ ε ≤ 1 ∧ ∀ (n k : Nat)
      (st : Inference ι R S' G V (Single lib)),
      Reached lvl ⟨⟨alpha⟩, ⟨d⟩⟩ fs' rows st k →
      k + n * items.length ≤ 4294967296 → st.mixture.size + Fintype.card ι ≤ N →
      (∀ i, st.assignments i ≠ none ↔ i ∈ A) → ∀ j ≤ n, ∀ Q : Finpartition A,
      |μ.real {s | ∃ st' s',
          st.passes lvl ⟨⟨alpha⟩, ⟨d⟩⟩ draw rows items n s = .ok (st', s') ∧
          clusters st'.assignments = Q.parts} -
        posterior ⟨.fin alpha, .fin d⟩ fs rows Q| ≤
        (1 - ε) ^ j + j * items.length * stepError N e fs'.length r t := by
  obtain ⟨_, Y, hY, rfl, rfl, rfl, rfl, rfl, rfl, rfl⟩ :=
    library_single (lib := lib) ha1 ha2 hd0 hd1 rows hf hK hcard
  obtain ⟨ε, h0, h1, hε⟩ := SCtx.passes_converge hY ht hN hdraw hit
  refine ⟨ε, h0, h1, fun n k st hst hk hsz hA j hj Q => ?_⟩
  obtain ⟨E, hinv⟩ := SCtx.reached_inv hY hst (by omega)
  have hE : E + Fintype.card ι ≤ N := by
    have := hinv.size
    omega
  have := (hε n k E st hinv hE hk hA j hj Q).2
  simpa using this

/-- `compress_gibbs` in single precision always succeeds, and after `c` passes, for every `j` up to
`c`, the probability of each clustering is within `(1 - ε)^j + j * items * stepError` of its
posterior probability. -/
theorem C82_compress_gibbs {μ : Measure σ} [IsProbabilityMeasure μ] {N : ℕ} {r t : ℝ} (ht : 0 ≤ t)
    (hN : N ≤ 2 ^ 20) {draw : List (Single lib) → σ → Res (Nat × σ)}
    (hdraw : NearSoftmaxDraw N r t μ draw) {n : Nat} (hn : 1 ≤ n) (hnN : n + Fintype.card ι ≤ N)
    {items : List ι} (hnd : items.Nodup) :
    ∃ ε : ℝ, 0 < ε ∧ ε ≤ 1 ∧ ∀ c : Nat, n + (c + 1) * items.length ≤ 4294967296 →
      (∀ s, ∃ st s', Inference.compressGibbs lvl ⟨⟨alpha⟩, ⟨d⟩⟩ draw rows fs'
        n items c s = .ok (st, s')) ∧
      ∀ j ≤ c, ∀ Q : Finpartition items.toFinset,
      |μ.real {s | ∃ st s', Inference.compressGibbs lvl ⟨⟨alpha⟩, ⟨d⟩⟩ draw rows
          fs' n items c s = .ok (st, s') ∧
          clusters st.assignments = Q.parts} -
        posterior ⟨.fin alpha, .fin d⟩ fs rows Q| ≤
        (1 - ε) ^ j + j * items.length * stepError N e fs'.length r t := by
  obtain ⟨_, Y, hY, rfl, rfl, rfl, rfl, rfl, rfl, rfl⟩ :=
    library_single (lib := lib) ha1 ha2 hd0 hd1 rows hf hK hcard
  obtain ⟨ε, h0, h1, hε⟩ := SCtx.run_near hY ht hN hdraw false hn hnN items hnd
  refine ⟨ε, h0, h1, fun c hk => ?_⟩
  obtain ⟨w, hw, _⟩ := SCtx.inv_init hY hn (by omega)
  have hcode : ∀ s, Inference.compressGibbs Y.X.lvl ⟨⟨Y.X.alpha⟩, ⟨Y.X.d⟩⟩ draw Y.X.rows Y.feats n items c s =
      (Inference.placeAll Y.X.lvl Y.model draw false Y.X.rows items ⟨w, fun _ => none⟩ s).bind
        fun r => Inference.passes Y.X.lvl Y.model draw Y.X.rows items c r.1 r.2 := by
    intro s
    unfold Inference.compressGibbs
    rw [show (FullMixture.raw Y.feats).init Y.X.lvl ⟨⟨Y.X.alpha⟩, ⟨Y.X.d⟩⟩ n = .ok w from hw, Res.ok_bind]
    rfl
  simp only [hcode]
  have := hε c w hw hk
  exact this

/-- `compress_seq_gibbs` in single precision, whose first pass places the items. -/
theorem C82_compress_seq_gibbs {μ : Measure σ} [IsProbabilityMeasure μ] {N : ℕ} {r t : ℝ}
    (ht : 0 ≤ t) (hN : N ≤ 2 ^ 20) {draw : List (Single lib) → σ → Res (Nat × σ)}
    (hdraw : NearSoftmaxDraw N r t μ draw) {n : Nat} (hn : 1 ≤ n) (hnN : n + Fintype.card ι ≤ N)
    {items : List ι} (hnd : items.Nodup) :
    ∃ ε : ℝ, 0 < ε ∧ ε ≤ 1 ∧ ∀ c : Nat, 1 ≤ c → n + c * items.length ≤ 4294967296 →
      (∀ s, ∃ st s', Inference.compressSeqGibbs lvl ⟨⟨alpha⟩, ⟨d⟩⟩ draw rows
        fs' n items c s = .ok (st, s')) ∧
      ∀ j < c, ∀ Q : Finpartition items.toFinset,
      |μ.real {s | ∃ st s', Inference.compressSeqGibbs lvl ⟨⟨alpha⟩, ⟨d⟩⟩ draw rows
          fs' n items c s = .ok (st, s') ∧
          clusters st.assignments = Q.parts} -
        posterior ⟨.fin alpha, .fin d⟩ fs rows Q| ≤
        (1 - ε) ^ j + j * items.length * stepError N e fs'.length r t := by
  obtain ⟨_, Y, hY, rfl, rfl, rfl, rfl, rfl, rfl, rfl⟩ :=
    library_single (lib := lib) ha1 ha2 hd0 hd1 rows hf hK hcard
  obtain ⟨ε, h0, h1, hε⟩ := SCtx.run_near hY ht hN hdraw true hn hnN items hnd
  refine ⟨ε, h0, h1, fun c hc hk => ?_⟩
  obtain ⟨w, hw, _⟩ := SCtx.inv_init hY hn (by omega)
  have hcode : ∀ s, Inference.compressSeqGibbs Y.X.lvl ⟨⟨Y.X.alpha⟩, ⟨Y.X.d⟩⟩ draw Y.X.rows Y.feats n items c s =
      (Inference.placeAll Y.X.lvl Y.model draw true Y.X.rows items ⟨w, fun _ => none⟩ s).bind
        fun r => Inference.passes Y.X.lvl Y.model draw Y.X.rows items (c - 1) r.1 r.2 := by
    intro s
    unfold Inference.compressSeqGibbs
    rw [distAssert0_of hc, Res.ok_bind,
      show (FullMixture.raw Y.feats).init Y.X.lvl ⟨⟨Y.X.alpha⟩, ⟨Y.X.d⟩⟩ n = .ok w from hw, Res.ok_bind]
    rfl
  simp only [hcode]
  have := hε (c - 1) w hw (by rw [Nat.sub_add_cancel hc]; exact hk)
  exact ⟨this.1, fun j hj => this.2 j (by omega)⟩

end

/-- The hypotheses are met by two Beta-Bernoulli features of forty points, a Pitman-Yor clustering
with `alpha = 1`, `d = 1/2` and one empty group.  One step of the inference then changes each
probability by at most one percent of the whole. -/
example : (1 : ℝ) / 2 ^ 40 ≤ 1 ∧ (1 : ℝ) ≤ 2 ^ 40 ∧ (1 : ℝ) / 2 ^ 40 ≤ 1 / 2 ∧
    (1 / 2 : ℝ) ≤ 1 - 1 / 2 ^ 24 ∧ 1 + Fintype.card (Fin 40) ≤ 41 ∧ 41 ≤ 2 ^ 20 ∧
    (List.finRange 40).Nodup ∧ 1 + (1000 + 1) * (List.finRange 40).length ≤ 4294967296 ∧
    stepError 41 125 2 (80 / 10 ^ 6 + (41 : ℕ) / 2 ^ 21) ((41 : ℕ) / 2 ^ 20) ≤ 1 / 100 := by
  refine ⟨by norm_num, by norm_num, by norm_num, by norm_num, by simp, by norm_num,
    List.nodup_finRange _, by simp, ?_⟩
  have h : Real.exp (2 * scoreError 125 2) ≤ 1 + 2 / 1000 := by
    have e : (2 : ℝ) * scoreError 125 2 = 1076 / 10 ^ 6 := by unfold scoreError; norm_num
    rw [e]
    have := Real.exp_bound_div_one_sub_of_interval (x := 1076 / 10 ^ 6) (by norm_num) (by norm_num)
    refine this.trans (by norm_num)
  unfold stepError
  norm_num at h ⊢
  linarith

/-- So are they by three Dirichlet-Discrete features of forty answers with five choices. -/
example (lib : Libm) :
    let l := (List.finRange 3).map fun k => ((fun _ => 1 / 2 : Fin 5 → ℝ),
      fun r : Fin 3 → Fin 5 => r k)
    SingleFeatures lib 1 (l.map (ddSingle lib 1)) (l.map (ddFeature 1)) 315 ∧
    stepError 41 315 3 (80 / 10 ^ 6 + (41 : ℕ) / 2 ^ 21) ((41 : ℕ) / 2 ^ 20) ≤ 1 / 100 := by
  intro l
  constructor
  · refine .dd _ (by norm_num) (by norm_num) ?_
    intro x hx i
    obtain ⟨k, -, rfl⟩ := List.mem_map.mp hx
    norm_num
  have h : Real.exp (2 * scoreError 315 3) ≤ 1 + 3 / 1000 := by
    have e : (2 : ℝ) * scoreError 315 3 = 2506 / 10 ^ 6 := by unfold scoreError; norm_num
    rw [e]
    have := Real.exp_bound_div_one_sub_of_interval (x := 2506 / 10 ^ 6) (by norm_num) (by norm_num)
    refine this.trans (by norm_num)
  unfold stepError
  norm_num at h ⊢
  linarith

/-- So are they by a Dirichlet-Process-Discrete feature of forty words, three of which are known. -/
example (lib : Libm) :
    let l := [((⟨1, 2, 1 / 4, ((FMap.empty.set 3 (1 / 4)).set 7 (3 / 8)).set 9 (1 / 8),
        SparseCounter.raw.clear⟩ : DPD.Shared ℝ),
      fun g : DPD.Group => g.map.exists_enum.choose,
      fun r : {v : UInt32 // v ∈ ({3, 7} : Finset UInt32)} => r)]
    SingleFeatures lib 1 (l.map (dpdSingle lib 1)) (l.map (dpdFeature 1)) 255 := by
  intro l
  refine .dpd _ ?_
  intro x hx
  simp only [l, List.mem_cons, List.not_mem_nil, or_false] at hx
  subst hx
  refine ⟨by norm_num, ?_, by decide, by decide, fun g => g.map.exists_enum.choose_spec⟩
  intro v b hb
  simp only [FMap.set, FMap.empty] at hb
  split_ifs at hb <;> simp at hb <;> subst hb <;> norm_num

/-- There is a generator with such uniform draws. -/
example (lib : Libm) : ∃ (σ : Type) (_ : MeasurableSpace σ) (I : IdealRng σ)
    (rng : Rng (Single lib) σ), NearUniform I rng := by
  obtain ⟨I⟩ := idealRng_exists
  refine ⟨_, _, I, ⟨fun s => (⟨max 0 (min 1 (I.unif s).1)⟩, (I.unif s).2), fun s _ _ => (0, s),
    fun s _ _ => (⟨0⟩, s), fun s _ _ => (⟨0⟩, s), fun s _ => (⟨0⟩, s), fun s _ => (0, s),
    fun s _ _ => (0, s)⟩, fun v => max 0 (min 1 v), by fun_prop, ?_, ?_, fun s => rfl⟩
  · intro v
    exact ⟨le_max_left _ _, max_le zero_le_one (min_le_left _ _)⟩
  · intro v h0 h1
    simp only []
    rw [min_eq_right h1.le, max_eq_right h0]
    simp

end Dist
