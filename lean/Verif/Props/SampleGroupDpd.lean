import Verif.Props.SampleGroup
import Verif.Props.SamplerLawsDiscrete

/-!
# C62: `sample_group` of the Dirichlet-process-discrete model
-/

namespace Dist

open Spec FloatOps FloatNotation MeasureTheory ProbabilityTheory

variable {σ : Type} [MeasurableSpace σ]

/-- **C62 (Dirichlet-process-discrete).**  Data sets of known values, for every visiting order of
the table of the betas (`ks`) and of the group (`ks'`). -/
theorem C62_dpd (I : IdealRng σ) (lvl : Nat) (gamma alpha beta0 : ℝ) (betas : FMap UInt32 ℝ)
    (counts : SparseCounter UInt32) (hα : 0 < alpha)
    (hpos : ∀ v ∈ betas.keys, 0 < DPD.weight betas v) (hother : DPD.other ∉ betas.keys)
    (h0 : 0 ≤ beta0) (h1 : ∑ v ∈ betas.keys, DPD.weight betas v + beta0 = 1) (ks : List UInt32)
    (hks : betas.Enum ks) (xs : List (DPD.Known (DPD.real gamma alpha beta0 betas counts)))
    (hl : xs.length ≤ 2147483647) {B : Set σ} (hB : MeasurableSet B) :
    ∃ g x, addAll (DPD.opsKnown lvl (DPD.real gamma alpha beta0 betas counts))
        SparseCounter.raw.clear xs = .ok g ∧
      (∀ ks', g.map.Enum ks' → DPD.Group.scoreData lvl (DPD.real gamma alpha beta0 betas counts) g
        ks' = .ok (.fin x)) ∧
      I.P {s | ∃ s' ∈ B, DPD.sampleGroup I.toRng s (DPD.real gamma alpha beta0 betas counts) ks
        xs.length = .ok (xs.map Subtype.val, s')} = ENNReal.ofReal (Real.exp x) * I.P B := by
  obtain ⟨g, hg, hS, hcard⟩ := addAll_summarises (DPD.summarises lvl
    (DPD.real gamma alpha beta0 betas counts)) xs hl
  set M : Multiset UInt32 := (xs : Multiset (DPD.Known
    (DPD.real gamma alpha beta0 betas counts))).map Subtype.val with hM
  have hMk : ∀ v ∈ M, v ∈ betas.keys := by
    intro v hv
    obtain ⟨w, _, rfl⟩ := Multiset.mem_map.mp hv
    exact DPD.known_mem w
  have hMc : M.card = xs.length := by simp [hM]
  refine ⟨g, _, hg, fun ks' hks' => DPD.scoreData_eq lvl hα hpos hS (by omega) hMk hks', ?_⟩
  have hw : ∀ v ∈ betas.keys, 0 < alpha * DPD.weight betas v := fun v hv => mul_pos hα (hpos v hv)
  -- the table of the sampler
  let T : List (UInt32 × ℝ) := (ks.map fun k => (k, alpha * DPD.weight betas k))
    ++ (if 0 < beta0 then [(DPD.other, alpha * beta0)] else [])
  have hclear := SparseCounter.holds_clear (SparseCounter.raw : SparseCounter UInt32)
  have hT : DPD.samplerTable (DPD.real gamma alpha beta0 betas counts) SparseCounter.raw.clear ks =
      T.map fun e => (e.1, XR.fin e.2) := by
    have hkeys : ∀ k ∈ ks, k ∈ (betas.mapValues fun _ b => XR.fin b).keys := by
      intro k hk; rw [FMap.keys_mapValues]; exact (hks.mem k).mp hk
    rw [DPD.samplerTable, DPD.real]
    simp only
    rw [DPD.entries_known (.fin 0) hkeys, List.map_append, List.map_map, List.map_map]
    congr 1
    · apply List.map_congr_left
      intro k hk
      have hl : ((betas.mapValues fun _ b => XR.fin b).lookup k).getD (.fin 0) =
          XR.fin (DPD.weight betas k) := by
        rw [FMap.lookup_mapValues, DPD.weight]
        cases betas.lookup k <;> rfl
      simp only [Function.comp, hl, XR.fin_mul, XR.ofInt_eq, XR.fin_add, hclear.getCount k]
      rw [mul_comm]
      simp
    · have hlt : lt (ofInt 0) (XR.fin beta0) = true ↔ 0 < beta0 := by
        rw [XR.ofInt_eq, XR.lt_fin]; simp
      by_cases hb : 0 < beta0
      · rw [if_pos (hlt.mpr hb), if_pos hb]
        simp [mul_comm]
      · rw [if_neg (fun h => hb (hlt.mp h)), if_neg hb]; rfl
  have hpt : ∀ i : Fin T.length, 0 < (T.get i).2 := by
    intro i
    have hm := List.get_mem T i
    generalize T.get i = e at hm
    rcases List.mem_append.mp hm with h | h
    · obtain ⟨k, hk, rfl⟩ := List.mem_map.mp h
      exact hw k ((hks.mem k).mp hk)
    · split_ifs at h with hb
      · rw [List.mem_singleton] at h; subst h; exact mul_pos hα hb
      · simp at h
  have hks' : ks.toFinset = betas.keys := by
    ext k; rw [List.mem_toFinset]; exact hks.mem k
  -- functions of the table
  have hfun : ∀ f : UInt32 × ℝ → ℝ, ∑ i : Fin T.length, f (T.get i) =
      ∑ v ∈ betas.keys, f (v, alpha * DPD.weight betas v) +
        (if 0 < beta0 then f (DPD.other, alpha * beta0) else 0) := by
    intro f
    have e1 : ∑ i : Fin T.length, f (T.get i) = (T.map f).sum := by
      rw [← List.sum_ofFn]
      congr 1
      exact List.ofFn_getElem_eq_map T f
    rw [e1, List.map_append, List.sum_append, List.map_map, ← hks', List.sum_toFinset _ hks.nodup]
    congr 1
    split_ifs <;> simp
  have hsum : ∑ i : Fin T.length, (T.get i).2 = alpha := by
    rw [hfun Prod.snd]
    simp only
    rw [← Finset.mul_sum]
    split_ifs with hb
    · linear_combination alpha * h1
    · have : beta0 = 0 := le_antisymm (not_lt.mp hb) h0
      rw [this] at h1
      linear_combination alpha * h1
  haveI : Nonempty (Fin T.length) := by
    rw [← Fin.pos_iff_nonempty]
    by_contra hT0
    have : IsEmpty (Fin T.length) := by
      rw [show T.length = 0 by omega]; infer_instance
    rw [Finset.univ_eq_empty, Finset.sum_empty] at hsum
    exact hα.ne hsum
  have hfst : (ks.map fun k => (k, alpha * DPD.weight betas k)).map Prod.fst = ks := by
    rw [List.map_map]; exact List.map_id ks
  have hnd : (T.map Prod.fst).Nodup := by
    rw [List.map_append, hfst, List.nodup_append]
    refine ⟨hks.nodup, by split_ifs <;> simp, ?_⟩
    intro x hx y hy
    split_ifs at hy with hb
    · simp only [List.map_cons, List.map_nil, List.mem_singleton] at hy
      rintro rfl
      exact hother (hy ▸ (hks.mem x).mp hx)
    · simp at hy
  have hinj : Function.Injective fun i : Fin T.length => (T.get i).1 := by
    intro i j hij
    have h3 : (T.map Prod.fst)[i.val]'(by simp) = (T.map Prod.fst)[j.val]'(by simp) := by
      rw [List.getElem_map, List.getElem_map]; exact hij
    exact Fin.ext ((List.Nodup.getElem_inj_iff hnd).mp h3)
  -- the index of a known value
  have hidx : ∀ v : DPD.Known (DPD.real gamma alpha beta0 betas counts),
      ∃ i : Fin T.length, T.get i = (v.1, alpha * DPD.weight betas v.1) := by
    intro v
    exact List.mem_iff_get.mp (List.mem_append_left _
      (List.mem_map.mpr ⟨v.1, (hks.mem v.1).mpr (DPD.known_mem v), rfl⟩))
  choose idx hidx using hidx
  have h := dirichlet_many I T.length (fun i => (T.get i).2) hpt (xs.map idx) hB
  rw [hsum, List.length_map, ← exp_log_gammas (fun i => (T.get i).2)
    (fun i => ((xs.map idx).count i : ℝ)) hpt (fun i => by positivity) hα (by positivity)] at h
  have hcnt : ∀ i, (xs.map idx).count i = M.count (T.get i).1 := by
    intro i
    have e1 : ((xs.map idx).map fun i => (T.get i).1) = xs.map Subtype.val := by
      rw [List.map_map]
      apply List.map_congr_left
      intro v _
      simp only [Function.comp, hidx v]
    have e2 := List.count_map_of_injective (xs.map idx) _ hinj i
    rw [e1] at e2
    rw [← e2, hM, Multiset.map_coe, Multiset.coe_count]
  have hterm : ∑ i, (Real.log (Real.Gamma ((T.get i).2 + ((xs.map idx).count i : ℝ))) -
      Real.log (Real.Gamma (T.get i).2)) =
      ∑ v ∈ betas.keys, DPD.term alpha betas v (M.count v) := by
    simp only [hcnt]
    rw [hfun fun e => Real.log (Real.Gamma (e.2 + (M.count e.1 : ℝ))) -
      Real.log (Real.Gamma e.2)]
    have hz : M.count DPD.other = 0 := Multiset.count_eq_zero.mpr fun h => hother (hMk _ h)
    simp only [hz, Nat.cast_zero, add_zero, sub_self, ite_self]
    rfl
  rw [hterm, ← hMc] at h
  rw [← h]
  have e1 : (List.ofFn fun i => XR.fin (T.get i).2) =
      (T.map fun e => (e.1, XR.fin e.2)).map Prod.snd := by
    rw [List.map_map]
    exact List.ofFn_getElem_eq_map T fun e => XR.fin e.2
  have e : ∀ s s', DPD.sampleGroup I.toRng s (DPD.real gamma alpha beta0 betas counts) ks
      xs.length = .ok (xs.map Subtype.val, s') ↔ sampleLoop (fun s₁ => sampleDiscrete I.toRng s₁
        (sampleDirichlet I.toRng s (List.ofFn fun i => XR.fin (T.get i).2)).1) M.card
        (sampleDirichlet I.toRng s (List.ofFn fun i => XR.fin (T.get i).2)).2 =
          .ok ((xs.map idx).map Fin.val, s') := by
    intro s s'
    rw [e1, DPD.sampleGroup, sampleGroup_size hl, Res.ok_bind, hT, hMc]
    simp only
    have hl := sampleDirichlet_length I.toRng s
      ((T.map fun e => (e.1, XR.fin e.2)).map Prod.snd)
    rcases hD : sampleDirichlet I.toRng s ((T.map fun e => (e.1, XR.fin e.2)).map Prod.snd) with
      ⟨ps, s₁⟩
    rw [hD] at hl
    simp only [List.length_map] at hl
    have hne : ps ≠ [] := by
      intro h; rw [h] at hl
      have := Fin.pos_iff_nonempty.mpr (inferInstance : Nonempty (Fin T.length))
      simp at hl; omega
    have key : ∀ i : Fin T.length, ∀ s s' : σ, ((do
        let (i, s) ← sampleDiscrete I.toRng s ps
        let v ← getAt ((T.map fun e => (e.1, XR.fin e.2)).map Prod.fst) i
        return (v, s) : Res (UInt32 × σ)) = .ok ((T.get i).1, s')) ↔
        sampleDiscrete I.toRng s ps = .ok (i.val, s') := by
      intro i s s'
      obtain ⟨j, ej, hj⟩ := C42_index I.toRng s ps hne
      rw [ej]
      simp only [Res.ok_bind]
      rw [getAt_of (by simp; omega), Res.ok_bind]
      simp only [Res.pure_eq, Res.ok.injEq, Prod.mk.injEq, List.getElem_map]
      refine and_congr_left fun _ => ?_
      constructor
      · intro h
        have hj' : j < T.length := by omega
        exact congrArg Fin.val (hinj (a₁ := ⟨j, hj'⟩) (a₂ := i) h)
      · rintro rfl; rfl
    have e3 : xs.map Subtype.val = (xs.map idx).map fun i => (T.get i).1 := by
      rw [List.map_map]
      apply List.map_congr_left
      intro v _
      simp only [Function.comp, hidx v]
    rw [e3]
    simp only [hD]
    exact sampleLoop_congr₂ key (xs.map idx) xs.length s₁ s'
  simp_rw [e]

/-- Non-triviality: one known value of weight 1/2 twice. -/
example (I : IdealRng Supply) : ∃ xs : List (DPD.Known (DPD.real 1 1 (1 / 2)
    (FMap.empty.set 3 (1 / 2)) ⟨FMap.empty, some 0⟩)), xs.map Subtype.val = [3, 3] ∧
    ∃ g x, addAll (DPD.opsKnown 3 (DPD.real 1 1 (1 / 2) (FMap.empty.set 3 (1 / 2))
        ⟨FMap.empty, some 0⟩)) SparseCounter.raw.clear xs = .ok g ∧
      (∀ ks', g.map.Enum ks' → DPD.Group.scoreData 3 (DPD.real 1 1 (1 / 2)
        (FMap.empty.set 3 (1 / 2)) ⟨FMap.empty, some 0⟩) g ks' = .ok (.fin x)) ∧
      I.P {s | ∃ s', DPD.sampleGroup I.toRng s (DPD.real 1 1 (1 / 2) (FMap.empty.set 3 (1 / 2))
        ⟨FMap.empty, some 0⟩) [3] 2 = .ok ([3, 3], s')} = ENNReal.ofReal (Real.exp x) := by
  refine ⟨[⟨3, by decide, by simp [DPD.real, FMap.contains]⟩, ⟨3, by decide, by simp [DPD.real, FMap.contains]⟩], rfl, ?_⟩
  obtain ⟨g, x, h1, h2, h3⟩ := C62_dpd I 3 1 1 (1 / 2) (FMap.empty.set 3 (1 / 2)) ⟨FMap.empty, some 0⟩
    one_pos (by intro v hv; simp at hv; subst hv; norm_num [DPD.weight]) (by simp [DPD.other])
    (by norm_num) (by simp [DPD.weight]; norm_num) [3] ⟨by simp, by intro k; simp⟩
    [⟨3, by decide, by simp [DPD.real, FMap.contains]⟩, ⟨3, by decide, by simp [DPD.real, FMap.contains]⟩] (by simp)
    MeasurableSet.univ
  exact ⟨g, x, h1, h2, by simpa using h3⟩

end Dist
