import Verif.Lemmas.DirichletDraw
import Verif.Lemmas.IdealRngExists
import Verif.Props.Samplers
import Verif.Props.Scorers
import Verif.Props.DPD
import Verif.Props.BNB
import Verif.Props.CountSums

/-!
# C59 for the models over finite sets and the beta negative binomial

See `Verif/Props/SamplerLaws.lean` for the other models.
-/

namespace Dist

open Spec FloatOps FloatNotation MeasureTheory ProbabilityTheory

variable {σ : Type} [MeasurableSpace σ]

/-- **C59 (Dirichlet-discrete).** The probability that the value sampled is `v` is
`exp(score_value v)`. -/
theorem C59_dd (I : IdealRng σ) (lvl dim : Nat) (a : Fin dim → ℝ) (c : Fin dim → Int) (t : Int)
    (hc : ∀ i, 0 < a i + c i) (v : Fin dim) {B : Set σ} (hB : MeasurableSet B) :
    ∃ x : ℝ, (⟨t, List.ofFn c⟩ : DD.Group).scoreValue lvl (DD.real a) (v : Nat) = .ok (.fin x) ∧
      I.P {s | ∃ s' ∈ B, (⟨t, List.ofFn c⟩ : DD.Group).sampleValue I.toRng s (DD.real a) =
        .ok (v.val, s')} = ENNReal.ofReal (Real.exp x) * I.P B := by
  obtain ⟨_, _, _, h⟩ := C34_dd lvl dim a c t hc v
  haveI : Nonempty (Fin dim) := ⟨v⟩
  have hA : 0 < ∑ j, (a j + c j) := Finset.sum_pos (fun k _ => hc k) Finset.univ_nonempty
  refine ⟨_, h, ?_⟩
  rw [Real.exp_log (div_pos (hc v) hA), ← dirichlet_discrete I dim (fun i => a i + c i) hc v hB]
  have e : ∀ s, (⟨t, List.ofFn c⟩ : DD.Group).sampleValue I.toRng s (DD.real a) =
      sampleDiscrete I.toRng
        (sampleDirichlet I.toRng s (List.ofFn fun i => XR.fin (a i + c i))).2
        (sampleDirichlet I.toRng s (List.ofFn fun i => XR.fin (a i + c i))).1 := by
    intro s
    rw [DD.Group.sampleValue, DD.real, DD.posterior_eq, Res.ok_bind]
  simp_rw [e]

/-- Non-triviality: an ideal source exists, and with it a group with pseudo-counts 1 and 3 and one
observation of the first value samples the second value with probability 3/5. -/
example : ∃ I : IdealRng Supply, I.P {s | ∃ s', (⟨1, List.ofFn ![1, 0]⟩ : DD.Group).sampleValue
    I.toRng s (DD.real ![1, 3]) = .ok (1, s')} = ENNReal.ofReal (3 / 5) := by
  obtain ⟨I⟩ := idealRng_exists
  refine ⟨I, ?_⟩
  have hc : ∀ i, 0 < (![1, 3] : Fin 2 → ℝ) i + (![1, 0] : Fin 2 → Int) i := by
    intro i; fin_cases i <;> norm_num
  obtain ⟨x, hx, h⟩ := C59_dd I 0 2 ![1, 3] ![1, 0] 1 hc 1 MeasurableSet.univ
  obtain ⟨_, _, _, h2⟩ := C34_dd 0 2 ![1, 3] ![1, 0] 1 hc 1
  rw [hx] at h2
  have h3 : x = Real.log (3 / 5) := by
    have := XR.fin_inj.mp (Res.ok.inj h2)
    rw [this]
    congr 1
    rw [Fin.sum_univ_two]
    norm_num
  rw [h3, Real.exp_log (by norm_num)] at h
  simpa using h

/-- **C59 (beta-Bernoulli).** The probability that the value sampled is `v` is
`exp(score_value v)`. -/
theorem C59_bb (I : IdealRng σ) (a b : ℝ) (g : BB.Group) (hh : 0 < a + g.heads)
    (ht : 0 < b + g.tails) (v : Bool) {B : Set σ} (hB : MeasurableSet B) :
    ∃ x : ℝ, g.scoreValue (BB.real a b) v = .fin x ∧
      I.P {s | ∃ s' ∈ B, g.sampleValue I.toRng s (BB.real a b) = .ok (v, s')} =
        ENNReal.ofReal (Real.exp x) * I.P B := by
  refine ⟨_, (C34_bb a b g hh ht v).2, ?_⟩
  have hs : 0 < a + b + g.heads + (g.tails : ℝ) := by linarith
  let p : Fin 2 → ℝ := ![a + g.heads, b + g.tails]
  have hp : ∀ i, 0 < p i := by
    intro i; fin_cases i
    · exact hh
    · exact ht
  have hx : (List.ofFn fun i => XR.fin (p i)) =
      [XR.fin a + ofInt g.heads, XR.fin b + ofInt g.tails] := by
    simp [p, List.ofFn_succ, XR.ofInt_eq]
  have e : ∀ s s', g.sampleValue I.toRng s (BB.real a b) = .ok (v, s') ↔
      sampleDiscrete I.toRng (sampleDirichlet I.toRng s (List.ofFn fun i => XR.fin (p i))).2
        (sampleDirichlet I.toRng s (List.ofFn fun i => XR.fin (p i))).1 =
        .ok (((if v then 0 else 1 : Fin 2) : Nat), s') := by
    intro s s'
    rw [hx, BB.Group.sampleValue, BB.samplerInit]
    simp only [BB.real]
    have hl := sampleDirichlet_length I.toRng s
      [XR.fin a + ofInt g.heads, XR.fin b + ofInt g.tails]
    rcases hD : sampleDirichlet I.toRng s [XR.fin a + ofInt g.heads, XR.fin b + ofInt g.tails] with
      ⟨ps, s₁⟩
    rw [hD] at hl
    obtain ⟨q₀, q₁, rfl⟩ : ∃ q₀ q₁, ps = [q₀, q₁] := List.length_eq_two.mp hl
    have h0 : getAt [q₀, q₁] 0 = .ok q₀ := rfl
    have h1 : sampleDiscrete I.toRng s₁ [q₀, q₁] =
        .ok (if lt (XR.fin (I.unif s₁).1 - q₀) (ofInt 0) then 0 else 1, (I.unif s₁).2) := by
      rw [sampleDiscrete, distAssert0_of (by simp), Res.ok_bind]
      rfl
    rw [h0, h1]
    simp only [Res.ok_bind, Res.pure_eq, sampleBernoulli, IdealRng.toRng, Res.ok.injEq,
      Prod.mk.injEq]
    have h2 : lt (XR.fin (I.unif s₁).1 - q₀) (ofInt 0) = lt (XR.fin (I.unif s₁).1) q₀ := by
      cases q₀ with
      | nan => rfl
      | fin q =>
        rw [XR.fin_sub, XR.ofInt_eq, Bool.eq_iff_iff, XR.lt_fin, XR.lt_fin]
        simp
    rw [h2]
    cases v <;> cases lt (XR.fin (I.unif s₁).1) q₀ <;> simp
  simp_rw [e]
  rw [dirichlet_discrete I 2 p hp _ hB]
  congr 2
  have e1 : ∑ j, p j = a + b + g.heads + g.tails := by
    rw [Fin.sum_univ_two]; show a + g.heads + (b + g.tails) = _; ring
  rw [e1]
  cases v
  · simp only [Bool.false_eq_true, if_false]
    have : 1 - (a + g.heads) / (a + b + g.heads + g.tails) =
        (b + g.tails) / (a + b + g.heads + g.tails) := by field_simp; ring
    rw [this, Real.exp_log (div_pos ht hs)]
    rfl
  · simp only [if_true]
    rw [Real.exp_log (div_pos hh hs)]
    rfl

/-- Non-triviality: a fair prior and two heads make heads come up with probability 3/4. -/
example : ∃ I : IdealRng Supply, I.P {s | ∃ s', (⟨2, 0⟩ : BB.Group).sampleValue I.toRng s
    (BB.real 1 1) = .ok (true, s')} = ENNReal.ofReal (3 / 4) := by
  obtain ⟨I⟩ := idealRng_exists
  refine ⟨I, ?_⟩
  obtain ⟨x, hx, h⟩ := C59_bb I 1 1 ⟨2, 0⟩ (by norm_num) (by norm_num) true MeasurableSet.univ
  have h2 := (C34_bb 1 1 ⟨2, 0⟩ (by norm_num) (by norm_num) true).2
  rw [hx] at h2
  have h3 : x = Real.log (3 / 4) := by
    rw [XR.fin_inj.mp h2]; norm_num
  rw [h3, Real.exp_log (by norm_num)] at h
  simpa using h

/-- **C58, BB, probability.** Under ideal random primitives the Beta-Bernoulli sampler returns
`true` with probability `(alpha + heads) / (alpha + beta + heads + tails)` and `false` with the
remaining probability. -/
theorem C58_bb_probability (I : IdealRng σ) (a b : ℝ) (g : BB.Group) (hh : 0 < a + g.heads)
    (ht : 0 < b + g.tails) :
    let p := (a + g.heads) / (a + b + g.heads + g.tails)
    I.P {s | ∃ s', g.sampleValue I.toRng s (BB.real a b) = .ok (true, s')} = ENNReal.ofReal p ∧
    I.P {s | ∃ s', g.sampleValue I.toRng s (BB.real a b) = .ok (false, s')} =
      ENNReal.ofReal (1 - p) := by
  intro p
  have hs : 0 < a + b + g.heads + (g.tails : ℝ) := by linarith
  have hp : 0 < p := div_pos hh hs
  have hq : 0 < 1 - p := by
    have : 1 - p = (b + g.tails) / (a + b + g.heads + g.tails) := by simp only [p]; field_simp; ring
    rw [this]; exact div_pos ht hs
  have key : ∀ v : Bool, I.P {s | ∃ s', g.sampleValue I.toRng s (BB.real a b) = .ok (v, s')} =
      ENNReal.ofReal (if v then p else 1 - p) := by
    intro v
    obtain ⟨x, hx, h⟩ := C59_bb I a b g hh ht v MeasurableSet.univ
    have h2 := (C34_bb a b g hh ht v).2
    rw [hx] at h2
    have h3 := XR.fin_inj.mp h2
    rw [h3, Real.exp_log (by split_ifs <;> assumption), measure_univ, mul_one] at h
    simpa using h
  exact ⟨by simpa using key true, by simpa using key false⟩

/-- **C59 (Dirichlet process).** The probability that the value sampled is `v` is
`exp(score_value v)`, for every value of the shared table and for OTHER. -/
theorem C59_dpd (I : IdealRng σ) (lvl : Nat) (gamma alpha beta0 : ℝ) (betas : FMap UInt32 ℝ)
    (counts : SparseCounter UInt32) (hα : 0 < alpha)
    (hpos : ∀ v ∈ betas.keys, 0 < DPD.weight betas v) (hother : DPD.other ∉ betas.keys)
    (h0 : 0 ≤ beta0) (h1 : ∑ v ∈ betas.keys, DPD.weight betas v + beta0 = 1) (g : DPD.Group)
    (M : Multiset UInt32) (hg : g.Holds M) (hk : ∀ v ∈ M, v ∈ betas.keys) (ks : List UInt32)
    (hks : betas.Enum ks) (v : UInt32) (hv : v ∈ betas.keys ∨ v = DPD.other ∧ 0 < beta0)
    {B : Set σ} (hB : MeasurableSet B) :
    ∃ x : ℝ, g.scoreValue lvl (DPD.real gamma alpha beta0 betas counts) v = .ok (.fin x) ∧
      I.P {s | ∃ s' ∈ B, g.sampleValue I.toRng s (DPD.real gamma alpha beta0 betas counts) ks =
        .ok (v, s')} = ENNReal.ofReal (Real.exp x) * I.P B := by
  have ht : 0 < alpha + ((M.card : Int) : ℝ) := by push_cast; positivity
  have hw : ∀ v ∈ betas.keys, 0 < alpha * DPD.weight betas v + ((M.count v : Int) : ℝ) := by
    intro v hv
    have := mul_pos hα (hpos v hv)
    push_cast; positivity
  -- the table of the sampler
  let T : List (UInt32 × ℝ) := (ks.map fun k => (k, alpha * DPD.weight betas k + (M.count k : Int)))
    ++ (if 0 < beta0 then [(DPD.other, alpha * beta0)] else [])
  have hT : DPD.samplerTable (DPD.real gamma alpha beta0 betas counts) g ks =
      T.map fun e => (e.1, XR.fin e.2) := by
    have hkeys : ∀ k ∈ ks, k ∈ (betas.mapValues fun _ b => XR.fin b).keys := by
      intro k hk; rw [FMap.keys_mapValues]; exact (hks.mem k).mp hk
    rw [DPD.samplerTable, DPD.real]
    simp only
    rw [DPD.entries_known (.fin 0) hkeys, List.map_append, List.map_map, List.map_map]
    congr 1
    · apply List.map_congr_left
      intro k hk
      have hl : ((betas.mapValues fun _ b => XR.fin b).lookup k).getD (.fin 0) =
          XR.fin (DPD.weight betas k) := by
        rw [FMap.lookup_mapValues, DPD.weight]
        cases betas.lookup k <;> rfl
      simp only [Function.comp, hl, XR.fin_mul, XR.ofInt_eq, XR.fin_add, hg.getCount k]
      rw [mul_comm]
    · have hlt : lt (ofInt 0) (XR.fin beta0) = true ↔ 0 < beta0 := by
        rw [XR.ofInt_eq, XR.lt_fin]; simp
      by_cases hb : 0 < beta0
      · rw [if_pos (hlt.mpr hb), if_pos hb]
        simp [mul_comm]
      · rw [if_neg (fun h => hb (hlt.mp h)), if_neg hb]; rfl
  have hpt : ∀ i : Fin T.length, 0 < (T.get i).2 := by
    intro i
    have hm := List.get_mem T i
    generalize T.get i = e at hm
    rcases List.mem_append.mp hm with h | h
    · obtain ⟨k, hk, rfl⟩ := List.mem_map.mp h
      exact hw k ((hks.mem k).mp hk)
    · split_ifs at h with hb
      · rw [List.mem_singleton] at h; subst h; exact mul_pos hα hb
      · simp at h
  have hks' : ks.toFinset = betas.keys := by
    ext k; rw [List.mem_toFinset]; exact hks.mem k
  have hsum : ∑ i : Fin T.length, (T.get i).2 = alpha + (M.card : Int) := by
    have e1 : ∑ i : Fin T.length, (T.get i).2 = (T.map Prod.snd).sum := by
      rw [← List.sum_ofFn]
      congr 1
      exact List.ofFn_getElem_eq_map T Prod.snd
    have e2 : ((if 0 < beta0 then [(DPD.other, alpha * beta0)] else []).map Prod.snd).sum =
        alpha * beta0 := by
      split_ifs with hb
      · simp
      · have : beta0 = 0 := le_antisymm (not_lt.mp hb) h0
        simp [this]
    have e3 : (ks.map fun k => alpha * DPD.weight betas k + ((M.count k : Int) : ℝ)).sum =
        ∑ k ∈ betas.keys, (alpha * DPD.weight betas k + ((M.count k : Int) : ℝ)) := by
      rw [← hks', List.sum_toFinset _ hks.nodup]
    have hcount : ∑ v ∈ betas.keys, ((M.count v : Int) : ℝ) = M.card := by
      have h2 := Multiset.toFinset_sum_count_eq M
      have h3 : ∑ v ∈ betas.keys, M.count v = M.card := by
        rw [← h2]
        symm
        apply Finset.sum_subset
        · intro v hv; exact hk v (Multiset.mem_toFinset.mp hv)
        · intro v _ hv; rw [Multiset.mem_toFinset] at hv; exact Multiset.count_eq_zero.mpr hv
      rw [← h3]; push_cast; rfl
    have e4 : ((ks.map fun k => (k, alpha * DPD.weight betas k + ((M.count k : Int) : ℝ))).map
        Prod.snd).sum = (ks.map fun k => alpha * DPD.weight betas k + ((M.count k : Int) : ℝ)).sum := by
      rw [List.map_map]; rfl
    rw [e1, List.map_append, List.sum_append, e2, e4, e3, Finset.sum_add_distrib, ← Finset.mul_sum,
      hcount]
    push_cast
    linear_combination alpha * h1
  have hfst : (ks.map fun k => (k, alpha * DPD.weight betas k + ((M.count k : Int) : ℝ))).map
      Prod.fst = ks := by
    rw [List.map_map]; exact List.map_id ks
  have hnd : (T.map Prod.fst).Nodup := by
    rw [List.map_append, hfst, List.nodup_append]
    refine ⟨hks.nodup, by split_ifs <;> simp, ?_⟩
    intro x hx y hy
    split_ifs at hy with hb
    · simp only [List.map_cons, List.map_nil, List.mem_singleton] at hy
      rintro rfl
      exact hother (hy ▸ (hks.mem x).mp hx)
    · simp at hy
  -- the score and the index of the value
  obtain ⟨i, hi1, hi2⟩ : ∃ i : Fin T.length, (T.get i).1 = v ∧
      g.scoreValue lvl (DPD.real gamma alpha beta0 betas counts) v =
        .ok (.fin (Real.log ((T.get i).2 / (alpha + (M.card : Int))))) := by
    rcases hv with hv | ⟨rfl, hb⟩
    · have hmem : (v, alpha * DPD.weight betas v + ((M.count v : Int) : ℝ)) ∈ T :=
        List.mem_append_left _ (List.mem_map.mpr ⟨v, (hks.mem v).mpr hv, rfl⟩)
      obtain ⟨i, hi⟩ := List.mem_iff_get.mp hmem
      refine ⟨i, by rw [hi], ?_⟩
      rw [hi]
      exact DPD.scoreValue_known lvl hv (by rintro rfl; exact hother hv) (hg.getCount v)
        hg.getTotal (hw v hv) ht
    · have hmem : (DPD.other, alpha * beta0) ∈ T :=
        List.mem_append_right _ (by rw [if_pos hb]; simp)
      obtain ⟨i, hi⟩ := List.mem_iff_get.mp hmem
      refine ⟨i, by rw [hi], ?_⟩
      rw [hi]
      exact DPD.scoreValue_other lvl hg.getTotal (mul_pos hα hb) ht
  refine ⟨_, hi2, ?_⟩
  rw [Real.exp_log (div_pos (hpt i) ht), ← hsum,
    ← dirichlet_discrete I T.length (fun i => (T.get i).2) hpt i hB]
  have e1 : (List.ofFn fun i => XR.fin (T.get i).2) = (T.map fun e => (e.1, XR.fin e.2)).map Prod.snd := by
    rw [List.map_map]
    exact List.ofFn_getElem_eq_map T fun e => XR.fin e.2
  have e : ∀ s s', g.sampleValue I.toRng s (DPD.real gamma alpha beta0 betas counts) ks =
      .ok (v, s') ↔ sampleDiscrete I.toRng
        (sampleDirichlet I.toRng s (List.ofFn fun i => XR.fin (T.get i).2)).2
        (sampleDirichlet I.toRng s (List.ofFn fun i => XR.fin (T.get i).2)).1 =
        .ok (i.val, s') := by
    intro s s'
    rw [e1, DPD.Group.sampleValue, hT]
    simp only
    have hl := sampleDirichlet_length I.toRng s
      ((T.map fun e => (e.1, XR.fin e.2)).map Prod.snd)
    rcases hD : sampleDirichlet I.toRng s ((T.map fun e => (e.1, XR.fin e.2)).map Prod.snd) with
      ⟨ps, s₁⟩
    rw [hD] at hl
    simp only [List.length_map] at hl
    obtain ⟨j, ej, hj⟩ := C42_index I.toRng s₁ ps (by
      intro h; rw [h] at hl; have := i.isLt; simp at hl; omega)
    rw [hD]
    dsimp only
    rw [ej]
    simp only [Res.ok_bind]
    rw [getAt_of (by simp; omega), Res.ok_bind]
    simp only [Res.pure_eq, Res.ok.injEq, Prod.mk.injEq, List.getElem_map]
    refine and_congr_left fun _ => ?_
    constructor
    · intro h
      have hj' : j < T.length := by omega
      have h3 : (T.map Prod.fst)[j]'(by simpa using hj') =
          (T.map Prod.fst)[i.val]'(by simp) := by
        rw [List.getElem_map, List.getElem_map, h]; exact hi1.symm
      exact (List.Nodup.getElem_inj_iff hnd).mp h3
    · rintro rfl; exact hi1
  simp_rw [e]

/-- Non-triviality: one known value with weight 1/2, concentration 1 and one observation of it:
OTHER comes up with probability 1/4. -/
example : ∃ I : IdealRng Supply, I.P {s | ∃ s', DPD.Group.sampleValue I.toRng s
    (DPD.real 1 1 (1 / 2) (FMap.empty.set 3 (1 / 2)) ⟨FMap.empty, some 0⟩)
    ⟨FMap.empty.set 3 1, some 1⟩ [3] = .ok (DPD.other, s')} = ENNReal.ofReal (1 / 4) := by
  obtain ⟨I⟩ := idealRng_exists
  refine ⟨I, ?_⟩
  have hg : SparseCounter.Holds (⟨FMap.empty.set 3 1, some 1⟩ : DPD.Group) {3} := by
    refine ⟨?_, ?_⟩
    · intro k
      by_cases hk : k = 3
      · subst hk; simp
      · simp [hk, Multiset.count_singleton]
    · rfl
  obtain ⟨x, hx, h⟩ := C59_dpd I 0 1 1 (1 / 2) (FMap.empty.set 3 (1 / 2)) ⟨FMap.empty, some 0⟩
    one_pos (by intro v hv; simp at hv; subst hv; norm_num [DPD.weight]) (by simp [DPD.other])
    (by norm_num) (by simp [DPD.weight]; norm_num) _ {3} hg (by simp) [3]
    ⟨by simp, by intro k; simp⟩ DPD.other (.inr ⟨rfl, by norm_num⟩) MeasurableSet.univ
  have h2 := DPD.scoreValue_other (gamma := 1) (alpha := 1) (beta0 := 1 / 2)
    (betas := FMap.empty.set 3 (1 / 2)) (counts := ⟨FMap.empty, some 0⟩) 0 hg.getTotal
    (by norm_num) (by norm_num)
  rw [hx] at h2
  have h3 : x = Real.log (1 / 4) := by
    rw [XR.fin_inj.mp (Res.ok.inj h2)]; norm_num
  rw [h3, Real.exp_log (by norm_num)] at h
  simpa using h

/-- Mixture of negative binomial probabilities over a beta variable made of two gamma variables. -/
theorem beta_negBinomial {a b : ℝ} (ha : 0 < a) (hb : 0 < b) {r : ℕ} (hr : 0 < r) (v : ℕ) :
    ∫⁻ x, ENNReal.ofReal (((r + v - 1).choose v : ℝ) * (x 0 / (x 0 + x 1)) ^ r *
        (1 - x 0 / (x 0 + x 1)) ^ v)
      ∂Measure.pi (fun i => gammaMeasure ((![a, b] : Fin 2 → ℝ) i) 1) =
      ENNReal.ofReal (betaNegBinomial a b r v) := by
  have hp : ∀ i, 0 < (![a, b] : Fin 2 → ℝ) i := by
    intro i; fin_cases i
    · exact ha
    · exact hb
  have e : ∀ᵐ x ∂Measure.pi (fun i => gammaMeasure ((![a, b] : Fin 2 → ℝ) i) 1),
      ENNReal.ofReal (((r + v - 1).choose v : ℝ) * (x 0 / (x 0 + x 1)) ^ r *
        (1 - x 0 / (x 0 + x 1)) ^ v) =
      ENNReal.ofReal ((r + v - 1).choose v) * ENNReal.ofReal
        ((∏ i, x i ^ (![(r : ℝ), v] : Fin 2 → ℝ) i) *
          (∑ i, x i) ^ (-∑ i, (![(r : ℝ), v] : Fin 2 → ℝ) i)) := by
    filter_upwards [gammas_pos_ae _ hp] with x hx
    have h0 := hx 0
    have h1 := hx 1
    have hs : 0 < x 0 + x 1 := by linarith
    rw [← ENNReal.ofReal_mul (by positivity)]
    congr 1
    rw [Fin.prod_univ_two, Fin.sum_univ_two, Fin.sum_univ_two]
    simp only [Matrix.cons_val_zero, Matrix.cons_val_one, Real.rpow_natCast]
    rw [← Nat.cast_add, Real.rpow_neg hs.le, Real.rpow_natCast]
    have : 1 - x 0 / (x 0 + x 1) = x 1 / (x 0 + x 1) := by field_simp; ring
    rw [this, div_pow, div_pow, pow_add]
    field_simp
  have hk : ∀ i, 0 ≤ (![(r : ℝ), v] : Fin 2 → ℝ) i := by
    intro i; fin_cases i <;> simp
  rw [lintegral_congr_ae e, lintegral_const_mul' _ _ ENNReal.ofReal_ne_top,
    dirichlet_moment _ _ hp hk (by
      rw [Fin.sum_univ_two]; simp only [Matrix.cons_val_zero, Matrix.cons_val_one]; positivity),
    ← ENNReal.ofReal_mul (by positivity)]
  congr 1
  rw [Fin.sum_univ_two, Fin.sum_univ_two, Fin.prod_univ_two, betaNegBinomial, add_comm v r]
  simp only [Matrix.cons_val_zero, Matrix.cons_val_one]
  have g1 := Real.Gamma_pos_of_pos ha
  have g2 := Real.Gamma_pos_of_pos hb
  have g3 := Real.Gamma_pos_of_pos (add_pos ha hb)
  have g4 : 0 < Real.Gamma (a + r + (b + v)) := Real.Gamma_pos_of_pos (by positivity)
  rw [show a + b + ((r : ℝ) + v) = a + r + (b + v) by ring]
  field_simp

/-- **C59 (beta-negative-binomial), as far as it holds.** The probability that the value sampled
is `v` is the number of orders of `v` failures before the last success times `exp(score_value v)`.
The two agree for `r = 1`; for larger `r` the score lacks the binomial factor, which is the finding
of C31.  Missing: equality for `r >= 2`, which is false (`C59_bnb_fails`). -/
theorem C59_bnb_partial (I : IdealRng σ) (a b : ℝ) (ha : 0 < a) (hb : 0 < b) (r : UInt32)
    (hr : 0 < r.toNat) (g : BNB.Group) (v : UInt32) {B : Set σ} (hB : MeasurableSet B) :
    ∃ x : ℝ, g.scoreValue (BNB.real a b r) v = .fin x ∧
      I.P {s | ∃ s' ∈ B, g.sampleValue I.toRng s (BNB.real a b r) = ((v.toNat : ℤ), s')} =
        ENNReal.ofReal ((v.toNat + r.toNat - 1).choose v.toNat * Real.exp x) * I.P B := by
  obtain ⟨q, hq, hq2, -⟩ := C31_bnb_partial a b ha hb r hr g
  obtain ⟨c, n⟩ := g
  have hsc : ∃ x : ℝ, (⟨c, n⟩ : BNB.Group).scoreValue (BNB.real a b r) v = .fin x :=
    ⟨_, BNB.scoreValue_eq ha hb _ _ _ _⟩
  obtain ⟨x, hx⟩ := hsc
  refine ⟨x, hx, ?_⟩
  have hqx : q v = Real.exp x := by
    have := hq v
    rw [hx, XR.exp_fin, XR.fin_inj] at this
    exact this.symm
  rw [← hqx, hq2 v]
  simp only
  have h1 : 0 < a + (r.toNat : ℝ) * c.toNat := by positivity
  have h2 : 0 < b + (n.toNat : ℝ) := by positivity
  set α := a + (r.toNat : ℝ) * c.toNat with hα
  set β := b + (n.toNat : ℝ) with hβ
  let p : Fin 2 → ℝ := ![α, β]
  have hp : ∀ i, 0 < p i := by
    intro i; fin_cases i
    · exact h1
    · exact h2
  let D : (Fin 2 → ℝ) × σ → ℕ × σ := fun w => I.negBinomial r.toNat (w.1 0 / (w.1 0 + w.1 1), w.2)
  have hD : Measurable D := by
    refine (I.negBinomial_meas r.toNat).comp (Measurable.prodMk ?_ measurable_snd)
    have m0 : Measurable fun w : (Fin 2 → ℝ) × σ => w.1 0 :=
      (measurable_pi_apply 0).comp measurable_fst
    have m1 : Measurable fun w : (Fin 2 → ℝ) × σ => w.1 1 :=
      (measurable_pi_apply 1).comp measurable_fst
    exact m0.div (m0.add m1)
  have hval : ∀ᵐ s ∂I.P, (⟨c, n⟩ : BNB.Group).sampleValue I.toRng s (BNB.real a b r) =
      (((D (gammaVec I 2 p s)).1 : ℤ), (D (gammaVec I 2 p s)).2) := by
    filter_upwards [gammaVec_ae I 2 p hp] with s hs
    have g0 : (gammaVec I 2 p s).1 0 = (I.gamma ((α, 1), s)).1 := rfl
    have g1 : (gammaVec I 2 p s).1 1 = (I.gamma ((β, 1), (I.gamma ((α, 1), s)).2)).1 := rfl
    have g2 : (gammaVec I 2 p s).2 = (I.gamma ((β, 1), (I.gamma ((α, 1), s)).2)).2 := rfl
    have p0 := hs 0
    have p1 := hs 1
    rw [g0] at p0
    rw [g1] at p1
    have l1 : (lit 1 1 : XR) = .fin 1 := by rw [XR.lit_eq]; simp
    have ea : (BNB.real a b r).alpha + BNB.u32 r * BNB.u32 c = XR.fin α := by
      simp [BNB.real, BNB.u32, XR.ofInt_eq, hα]
    have eb : (BNB.real a b r).beta + BNB.u32 n = XR.fin β := by
      simp [BNB.real, BNB.u32, XR.ofInt_eq, hβ]
    have er : (BNB.real a b r).r = r := rfl
    have ez : eqf (XR.fin (I.gamma ((α, 1), s)).1) (ofInt 0) = false := by
      rw [XR.ofInt_eq]
      simp [eqf, XR.le_fin, p0]
    have hsb : sampleBeta I.toRng s (XR.fin α) (XR.fin β) =
        (.fin ((gammaVec I 2 p s).1 0 / ((gammaVec I 2 p s).1 0 + (gammaVec I 2 p s).1 1)),
          (gammaVec I 2 p s).2) := by
      rw [sampleBeta, l1]
      simp only [IdealRng.toRng, ez, Bool.false_and, Bool.false_eq_true, if_false, XR.fin_add]
      rw [XR.fin_div _ _ (by positivity), g0, g1, g2]
    simp only [BNB.Group.sampleValue, BNB.Shared.plusGroup, er, ea, eb, hsb]
    simp [IdealRng.toRng, D]
  have hset : I.P {s | ∃ s' ∈ B, (⟨c, n⟩ : BNB.Group).sampleValue I.toRng s (BNB.real a b r) =
      ((v.toNat : ℤ), s')} = I.P (gammaVec I 2 p ⁻¹' (D ⁻¹' (({v.toNat} : Set ℕ) ×ˢ B))) := by
    apply measure_congr
    filter_upwards [hval] with s hs
    apply propext
    show (∃ s' ∈ B, _) ↔ D (gammaVec I 2 p s) ∈ ({v.toNat} : Set ℕ) ×ˢ B
    rw [hs]
    simp only [Prod.mk.injEq, Nat.cast_inj, Set.mem_prod, Set.mem_singleton_iff]
    constructor
    · rintro ⟨s', h, h1, rfl⟩; exact ⟨h1, h⟩
    · rintro ⟨h1, h⟩; exact ⟨_, h, h1, rfl⟩
  have hm := hD ((measurableSet_singleton v.toNat).prod hB)
  haveI : ∀ i, IsProbabilityMeasure (gammaMeasure (p i) 1) := fun i =>
    isProbabilityMeasure_gammaMeasure (hp i) one_pos
  rw [hset, ← Measure.map_apply (gammaVec_meas I 2 p) hm, gammaVec_law I 2 p hp,
    Measure.prod_apply hm]
  have e2 : ∀ᵐ y ∂Measure.pi (fun i => gammaMeasure (p i) 1),
      I.P (Prod.mk y ⁻¹' (D ⁻¹' (({v.toNat} : Set ℕ) ×ˢ B))) =
      ENNReal.ofReal (((r.toNat + v.toNat - 1).choose v.toNat : ℝ) *
        (y 0 / (y 0 + y 1)) ^ r.toNat * (1 - y 0 / (y 0 + y 1)) ^ v.toNat) * I.P B := by
    filter_upwards [gammas_pos_ae p hp] with y hy
    have y0 := hy 0
    have y1 := hy 1
    have hp0 : 0 < y 0 / (y 0 + y 1) := by positivity
    have hp1 : y 0 / (y 0 + y 1) < 1 := by rw [div_lt_one (by positivity)]; linarith
    have e3 : Prod.mk y ⁻¹' (D ⁻¹' (({v.toNat} : Set ℕ) ×ˢ B)) =
        (fun s => I.negBinomial r.toNat (y 0 / (y 0 + y 1), s)) ⁻¹' (({v.toNat} : Set ℕ) ×ˢ B) := rfl
    have hm1 : Measurable fun s => I.negBinomial r.toNat (y 0 / (y 0 + y 1), s) :=
      (I.negBinomial_meas r.toNat).comp measurable_prodMk_left
    rw [e3, ← Measure.map_apply hm1 ((measurableSet_singleton v.toNat).prod hB), I.negBinomial_law _ _ hr hp0 hp1,
      Measure.prod_prod]
    congr 1
    rw [negBinomialMeasure, Measure.sum_apply _ (measurableSet_singleton _),
      tsum_eq_single v.toNat]
    · simp
    · intro j hj
      simp [hj]
  rw [lintegral_congr_ae e2, lintegral_mul_const' _ _ (measure_ne_top _ _),
    beta_negBinomial h1 h2 hr]

/-- Non-triviality: a uniform prior and one success: the value 0 comes up with probability 1/2. -/
example : ∃ I : IdealRng Supply, I.P {s | ∃ s', BNB.Group.sampleValue I.toRng s (BNB.real 1 1 1)
    ⟨0, 0⟩ = (0, s')} = ENNReal.ofReal (1 / 2) := by
  obtain ⟨I⟩ := idealRng_exists
  refine ⟨I, ?_⟩
  obtain ⟨x, hx, h⟩ := C59_bnb_partial I 1 1 one_pos one_pos 1 (by decide) ⟨0, 0⟩ 0
    MeasurableSet.univ
  have h2 := BNB.scoreValue_eq (one_pos) (one_pos) 1 0 0 0
  rw [hx] at h2
  have h3 : x = Real.log (1 / 2) := by
    rw [XR.fin_inj.mp h2]
    norm_num [show (1 : UInt32).toNat = 1 from rfl, Real.Gamma_two]
    rw [one_div, Real.log_inv]
  rw [h3, Real.exp_log (by norm_num)] at h
  simpa using h

/-- **C59 (beta-negative-binomial), finding.** With two successes the value 1 is sampled with twice
the probability the score describes. -/
theorem C59_bnb_fails (I : IdealRng σ) (a b : ℝ) (ha : 0 < a) (hb : 0 < b) :
    ∃ x : ℝ, BNB.Group.scoreValue (BNB.real a b 2) ⟨0, 0⟩ 1 = .fin x ∧
      I.P {s | ∃ s', BNB.Group.sampleValue I.toRng s (BNB.real a b 2) ⟨0, 0⟩ = (1, s')} =
        ENNReal.ofReal (2 * Real.exp x) ∧
      I.P {s | ∃ s', BNB.Group.sampleValue I.toRng s (BNB.real a b 2) ⟨0, 0⟩ = (1, s')} ≠
        ENNReal.ofReal (Real.exp x) := by
  obtain ⟨x, hx, h⟩ := C59_bnb_partial I a b ha hb 2 (by decide) ⟨0, 0⟩ 1 MeasurableSet.univ
  have e : I.P {s | ∃ s', BNB.Group.sampleValue I.toRng s (BNB.real a b 2) ⟨0, 0⟩ = (1, s')} =
      ENNReal.ofReal (2 * Real.exp x) := by
    have h2 : ((((1 : UInt32).toNat + (2 : UInt32).toNat - 1).choose (1 : UInt32).toNat : ℕ) : ℝ) =
        2 := by norm_num [show (1 : UInt32).toNat = 1 from rfl, show (2 : UInt32).toNat = 2 from rfl]
    rw [h2] at h
    simpa using h
  refine ⟨x, hx, e, ?_⟩
  rw [e, Ne, ENNReal.ofReal_eq_ofReal_iff (by positivity) (by positivity)]
  have := Real.exp_pos x
  intro h3
  linarith

end Dist
