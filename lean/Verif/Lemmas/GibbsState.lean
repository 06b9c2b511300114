import Verif.Lemmas.GibbsCode
import Verif.Lemmas.GibbsSets
import Verif.Lemmas.Features

/-! # States of the inference loops -/

namespace Dist

open Spec FloatOps FloatNotation Finset

variable {ι R S G V : Type} [DecidableEq ι] [Fintype ι] [DecidableEq V]

/-- What is needed of a feature: its groups summarise values by `Sm`, its caches keep `Coh`,
its data score is `dat`, and its cached scores are the differences of the data score. -/
structure Sound (lvl : Nat) (f : FeatureModel R S G V XR) (Sm : G → Multiset V → Prop)
    (Coh : S → List G → Prop) (dat : Multiset V → ℝ) (all : Multiset V) : Prop where
  summarises : Summarises f.ops Sm
  empty : ∀ g, Sm g 0 → g = f.ops.init
  fresh : Coh f.fresh []
  cache : MixtureSlave.Laws lvl f.ops f.vs Sm Coh
  data : ∀ g M, Sm g M → M ≤ all → f.scoreData g = .ok (.fin (dat M))
  zero : dat 0 = 0
  scores : ∀ (sl : MixtureSlave S G) (v : V) (accum : List XR) (Ms : List (Multiset V)),
    Coh sl.scorer sl.groups → accum.length = sl.groups.length → PW Sm sl.groups Ms →
    (∀ M ∈ Ms, v ::ₘ M ≤ all) →
    sl.scoreValue lvl f.vs v accum =
      .ok (List.zipWith (fun a M => a + .fin (dat (v ::ₘ M) - dat M)) accum Ms)

omit [DecidableEq ι] [Fintype ι] [DecidableEq V] in
theorem World.Rep.room {Sm : G → Multiset V → Prop} {fs : List (Feature ι G V)}
    {W : World ι G V} {s : Clusters ι} {ls : List (Nat × Multiset ι)}
    (h : World.Rep (fun _ => Sm) fs W s ls) (hrows : s.rows + 1 ≤ 2147483647)
    {sl : Feature ι G V × List G} (hsl : sl ∈ W.slaves) : Room Sm sl.2 := by
  have hpw := h.slaves sl hsl
  refine ⟨ls.map fun x => x.2.map sl.1.col, ⟨by simp [hpw.len], ?_⟩, ?_⟩
  · intro q g M hg hM
    rw [List.getElem?_map] at hM
    cases hx : ls[q]? with
    | none => simp [hx] at hM
    | some x =>
      rw [hx, Option.map_some, Option.some.injEq] at hM
      rw [← hM]
      exact hpw.rel q g x hg hx
  · have : ((ls.map fun x => x.2.map sl.1.col).map Multiset.card) = ls.map fun x => x.2.card := by
      rw [List.map_map]; exact List.map_congr_left fun x _ => by simp
    rw [this, ← h.rows]; exact hrows

omit [DecidableEq ι] [Fintype ι] [DecidableEq V] in
theorem World.Rep.hasValue {Sm : G → Multiset V → Prop} {fs : List (Feature ι G V)}
    {W : World ι G V} {s : Clusters ι} {ls : List (Nat × Multiset ι)}
    (h : World.Rep (fun _ => Sm) fs W s ls) {p g : Nat} {M : Multiset ι} {i : ι}
    (hp : ls[p]? = some (g, M)) (hi : i ∈ M) {sl : Feature ι G V × List G}
    (hsl : sl ∈ W.slaves) : HasValue Sm sl.2 p (sl.1.col i) := by
  obtain ⟨g0, hg0, hs⟩ := (h.slaves sl hsl).get hp
  exact ⟨g0, _, hg0, hs, Multiset.mem_map_of_mem _ hi⟩

theorem World.Rep.empty_remove {Sm : G → Multiset V → Prop} {fs : List (Feature ι G V)}
    {W : World ι G V} {s : Clusters ι} {ls : List (Nat × Multiset ι)}
    (h : World.Rep (fun _ => Sm) fs W s ls)
    (hS : ∀ f ∈ fs, Summarises f.ops Sm ∧ ∀ g, Sm g 0 → g = f.ops.init)
    {lvl p g : Nat} {M : Multiset ι} {i : ι} (hp : ls[p]? = some (g, M)) (hi : i ∈ M)
    (h1 : (ls.map fun x => x.2.card)[p]? = some 1) {sl : Feature ι G V × List G}
    (hsl : sl ∈ W.slaves) {gs : List G}
    (hgs : SlaveGroups.removeValue lvl sl.1.ops sl.2 p (sl.1.col i) = .ok gs) :
    gs[p]? = some sl.1.ops.init := by
  have hf : sl.1 ∈ fs := by rw [← h.feats]; exact List.mem_map.mpr ⟨sl, hsl, rfl⟩
  obtain ⟨g0, hg0, hs⟩ := (h.slaves sl hsl).get hp
  rw [List.getElem?_map, hp, Option.map_some, Option.some.injEq] at h1
  obtain ⟨j, hj⟩ := Multiset.card_eq_one.mp h1
  have hj' : M = {j} := hj
  rw [hj', Multiset.mem_singleton] at hi
  subst hi
  exact Dist.empty_remove (hS _ hf).1 (hS _ hf).2 hg0 (by simpa [hj'] using hs) hgs

/-- The parameters of an inference run. -/
structure Ctx (ι R S G V : Type) where
  lvl : Nat
  alpha : ℝ
  d : ℝ
  rows : ι → R
  feats : List (FeatureModel R S G V XR)
  Sm : G → Multiset V → Prop
  Coh : FeatureModel R S G V XR → S → List G → Prop
  dat : FeatureModel R S G V XR → Multiset V → ℝ

namespace Ctx

variable (X : Ctx ι R S G V)

abbrev model : PitmanYor XR := ⟨.fin X.alpha, .fin X.d⟩

/-- The values of a feature of some items. -/
def vals (f : FeatureModel R S G V XR) (M : Multiset ι) : Multiset V :=
  M.map fun i => f.col (X.rows i)

structure Ok : Prop where
  alpha : 0 < X.alpha
  d0 : 0 ≤ X.d
  d1 : X.d < 1
  card : Fintype.card ι ≤ 2147483647
  sound : ∀ f ∈ X.feats, Sound X.lvl f X.Sm (X.Coh f) (X.dat f) (X.vals f univ.val)

/-- The data score of a cluster under the features `fs`. -/
noncomputable def D (fs : List (FeatureModel R S G V XR)) (b : Finset ι) : ℝ :=
  (fs.map fun f => X.dat f (X.vals f b.val)).sum

/-- `w` holds the items assigned by `a`; `ls` lists its groups in packed order. -/
structure Coherent (w : FullMixture R S G V XR) (a : ι → Option Nat) (s : Clusters ι)
    (ls : List (Nat × Multiset ι)) : Prop where
  base : World.Rep (fun _ => X.Sm) (X.feats.map (FullMixture.feature X.rows))
    (w.toWorld X.rows) s ls
  clus : w.clustering = PitmanYor.Cached.canon X.model (ls.map fun x => x.2.card)
  feats : w.features.map Prod.fst = X.feats
  caches : FullMixture.Caches X.lvl X.Sm X.Coh w.features
  assign : ∀ x ∈ ls, x.2 = (univ.filter fun i => a i = some x.1).val
  live : ∀ i g, a i = some g → ∃ M, (g, M) ∈ ls

variable {X} {w : FullMixture R S G V XR} {a : ι → Option Nat} {s : Clusters ι}
  {ls : List (Nat × Multiset ι)}

omit [DecidableEq V] in
theorem Coherent.nodup (h : X.Coherent w a s ls) : (ls.map Prod.fst).Nodup :=
  h.base.tracker.nodup

omit [DecidableEq V] in
/-- The groups are the clusters and some empty groups. -/
theorem Coherent.sum_groups (h : X.Coherent w a s ls) {β : Type} [AddCommMonoid β]
    (F : Finset ι → β) :
    (ls.map fun x => F x.2.toFinset).sum =
      (ls.map fun x => x.2.card).count 0 • F ∅ + ∑ b ∈ clusters a, F b := by
  have hnd : ls.Nodup := List.Nodup.of_map _ h.nodup
  have hset : ∀ x ∈ ls, x.2.toFinset = univ.filter fun i => a i = some x.1 := by
    intro x hx; rw [h.assign x hx]; simp
  have hz : ∀ x ∈ ls, x.2 = 0 ↔ (univ.filter fun i => a i = some x.1) = ∅ := by
    intro x hx; rw [h.assign x hx, val_eq_zero]
  rw [← List.sum_toFinset (fun x => F x.2.toFinset) hnd,
    ← sum_filter_add_sum_filter_not ls.toFinset (fun x => x.2 = 0)]
  congr 1
  · have : ∀ x ∈ ls.toFinset.filter (fun x => x.2 = 0), F x.2.toFinset = F ∅ := by
      intro x hx; rw [(mem_filter.mp hx).2]; simp
    rw [sum_congr rfl this, sum_const]
    congr 1
    have hcard : (ls.filter fun x => x.2 = 0).toFinset = ls.toFinset.filter fun x => x.2 = 0 := by
      ext x; simp
    rw [← hcard, List.toFinset_card_of_nodup (hnd.filter _), List.count, List.countP_map,
      List.countP_eq_length_filter]
    congr 1
    apply List.filter_congr
    intro x _
    rw [Bool.eq_iff_iff, decide_eq_true_iff, Function.comp, beq_iff_eq, Multiset.card_eq_zero]
  · refine sum_nbij (fun x => x.2.toFinset) ?_ ?_ ?_ (fun _ _ => rfl)
    · intro x hx
      obtain ⟨hx, h0⟩ := mem_filter.mp hx
      rw [List.mem_toFinset] at hx
      rw [hz x hx] at h0
      obtain ⟨i, hi⟩ := nonempty_iff_ne_empty.mpr h0
      rw [mem_clusters]
      exact ⟨x.1, i, by simpa using hi, hset x hx⟩
    · intro x hx y hy he
      obtain ⟨hx, hx0⟩ := mem_filter.mp hx
      obtain ⟨hy, _⟩ := mem_filter.mp hy
      rw [List.mem_toFinset] at hx hy
      simp only [hset x hx, hset y hy] at he
      rw [hz x hx] at hx0
      obtain ⟨i, hi⟩ := nonempty_iff_ne_empty.mpr hx0
      have hi' := he ▸ hi
      simp only [mem_filter, mem_univ, true_and] at hi hi'
      have hxy : x.1 = y.1 := by rw [hi] at hi'; exact Option.some.inj hi'
      have := World.fst_inj h.nodup (g := x.1) (M := x.2) (M' := y.2) hx (by rw [hxy]; exact hy)
      exact Prod.ext hxy this
    · intro b hb
      obtain ⟨g, i, hi, rfl⟩ := mem_clusters.mp hb
      obtain ⟨M, hM⟩ := h.live i g hi
      refine ⟨(g, M), ?_, hset _ hM⟩
      simp only [coe_filter, List.mem_toFinset, Set.mem_setOf_eq]
      refine ⟨hM, ?_⟩
      have := (hz _ hM).not.mpr (ne_empty_of_mem (a := i) (by simp [hi]))
      exact this

omit [DecidableEq V] in
theorem Coherent.card_group (h : X.Coherent w a s ls) {x : Nat × Multiset ι} (hx : x ∈ ls) :
    x.2.card = x.2.toFinset.card := by
  have := h.assign x hx
  rw [this, val_toFinset]; rfl

omit [DecidableEq V] in
theorem Coherent.sum_sizes (h : X.Coherent w a s ls) :
    (ls.map fun x => x.2.card).sum = ∑ b ∈ clusters a, b.card := by
  have := h.sum_groups (F := card)
  simp only [card_empty, smul_zero, zero_add] at this
  rw [← this]
  congr 1
  exact List.map_congr_left fun x hx => h.card_group hx

theorem clusters_sum_card (a : ι → Option Nat) :
    ∑ b ∈ clusters a, b.card = (univ.filter fun i => a i ≠ none).card :=
  (clusters_parts a).toFinpartition.sum_card_parts

omit [DecidableEq V] in
theorem Coherent.nonempty_count (h : X.Coherent w a s ls) :
    (ls.map fun x => x.2.card).length - (ls.map fun x => x.2.card).count 0 = (clusters a).card := by
  have := h.sum_groups (F := fun b => if b = ∅ then 1 else (1 : ℕ))
  simp only [ite_self, smul_eq_mul, mul_one, sum_const] at this
  have h2 : (ls.map fun _ => (1 : ℕ)).sum = ls.length := by simp
  rw [h2] at this
  simp only [List.length_map]
  omega

omit [DecidableEq V] in
theorem Coherent.rows_lt (hX : Fintype.card ι ≤ 2147483647) (h : X.Coherent w a s ls) {i : ι}
    (hi : a i = none) : s.rows + 1 ≤ 2147483647 := by
  rw [h.base.rows, h.sum_sizes, clusters_sum_card]
  have : (univ.filter fun i => a i ≠ none).card < Fintype.card ι := by
    apply card_lt_card
    exact ⟨subset_univ _, fun h => by simpa [hi] using h (mem_univ i)⟩
  omega

theorem Ok.summ (hX : X.Ok) : ∀ f ∈ X.feats.map (FullMixture.feature X.rows),
    Summarises f.ops X.Sm := by
  intro f hf
  obtain ⟨f', hf', rfl⟩ := List.mem_map.mp hf
  exact (hX.sound f' hf').summarises

theorem Ok.summ0 (hX : X.Ok) : ∀ f ∈ X.feats.map (FullMixture.feature X.rows),
    Summarises f.ops X.Sm ∧ ∀ g, X.Sm g 0 → g = f.ops.init := by
  intro f hf
  obtain ⟨f', hf', rfl⟩ := List.mem_map.mp hf
  exact ⟨(hX.sound f' hf').summarises, (hX.sound f' hf').empty⟩

/-- Adding an item that is not assigned to the group at position `p`. -/
theorem Coherent.add (hX : X.Ok) (h : X.Coherent w a s ls) {i : ι} (hi : a i = none) {p g : Nat}
    {M : Multiset ι} (hp : ls[p]? = some (g, M)) (hcr : s.created + 1 ≤ 4294967296) :
    ∃ w' s' ls', w.addValue X.lvl X.model p (X.rows i) = .ok w' ∧
      w'.tracker.packedToGlobalId X.lvl p = .ok g ∧
      X.Coherent w' (Inference.assign a i (some g)) s' ls' ∧ s'.created ≤ s.created + 1 := by
  have hrows := h.rows_lt hX.card hi
  obtain ⟨W, ls', hW, hpl, hrep⟩ := h.base.addValue_at hX.summ X.lvl hp (r := i) hrows hcr
  have hplen := (List.getElem?_eq_some_iff.mp hp).1
  obtain ⟨w', hw', hto, hcl, hca, hfe⟩ := FullMixture.addValue_sim X.lvl X.model X.rows h.clus
    h.caches ⟨by simpa using hplen, by omega, by rw [← h.base.rows]; exact hrows⟩
    (fun f hf => h.base.room hrows
      (sl := (FullMixture.feature X.rows f.1, f.2.groups)) (List.mem_map.mpr ⟨f, hf, rfl⟩)) hW
  have hgM : (g, M) ∈ ls := List.mem_of_getElem? hp
  have hMem : s.members g = some M := (h.base.members g M).mpr hgM
  have hMa : M = (univ.filter fun j => a j = some g).val := h.assign _ hgM
  have hrep' := hrep
  rw [← hto] at hrep
  have hiM : i ∉ univ.filter fun j => a j = some g := by simp [hi]
  have hself : i ::ₘ M = (univ.filter fun j => Inference.assign a i (some g) j = some g).val := by
    have : (univ.filter fun j => Inference.assign a i (some g) j = some g) =
        insert i (univ.filter fun j => a j = some g) := by
      ext j
      by_cases hj : j = i <;> simp [Inference.assign, hj]
    rw [this, insert_val_of_notMem hiM, hMa]
  have hoth : ∀ g', g' ≠ g → (univ.filter fun j => Inference.assign a i (some g) j = some g') =
      univ.filter fun j => a j = some g' := by
    intro g' hg'
    ext j
    rw [mem_filter, mem_filter]
    by_cases hj : j = i
    · subst hj; simp [Inference.assign, hi, hg'.symm]
    · simp [Inference.assign, hj]
  have hgc : g < s.created := h.base.tracker.lt g (List.mem_map.mpr ⟨_, hgM, rfl⟩)
  have hfresh : ∀ j, a j ≠ some s.created := by
    intro j hj
    obtain ⟨N, hN⟩ := h.live j _ hj
    have := h.base.tracker.lt s.created (List.mem_map.mpr ⟨_, hN, rfl⟩)
    simp at this
  refine ⟨w', (RowOp.add g i).step s, ls', hw', ?_, ⟨hrep, ?_, ?_, hca, ?_, ?_⟩, ?_⟩
  · exact hrep.tracker.packedToGlobalId X.lvl (by simp [hpl])
  · have hd := hrep.driver
    have : w'.clustering.driver = .ofSizes (addTo (ls.map fun x => x.2.card) p 1) := by
      rw [hcl]; rfl
    have he : Driver.ofSizes (addTo (ls.map fun x => x.2.card) p 1) =
        Driver.ofSizes (ls'.map fun x => x.2.card) := by rw [← this]; exact hd
    have hc := congrArg Driver.counts he
    rw [Driver.ofSizes_counts, Driver.ofSizes_counts] at hc
    have : addTo (ls.map fun x => x.2.card) p 1 = ls'.map fun x => x.2.card :=
      List.map_injective_iff.mpr (fun a b h => by simpa using h) hc
    rw [hcl, this]
  · rw [hfe]; exact h.feats
  · rintro ⟨g', N⟩ hx
    have hm := (hrep.members g' N).mpr hx
    simp only [RowOp.step, hMem] at hm
    by_cases hM0 : M = 0
    · simp only [hM0, if_true] at hm
      by_cases hgs : g' = s.created
      · subst hgs
        simp only [if_true, Option.some.injEq] at hm
        rw [hoth _ (by omega), ← hm]
        symm
        rw [val_eq_zero, filter_eq_empty_iff]
        exact fun j _ => hfresh j
      · simp only [hgs, if_false] at hm
        by_cases hgg : g' = g
        · subst hgg
          simp only [if_true, Option.some.injEq] at hm
          rw [← hself, ← hm, hM0]; rfl
        · simp only [hgg, if_false] at hm
          rw [hoth g' hgg]
          exact h.assign _ ((h.base.members g' N).mp hm)
    · simp only [hM0, if_false] at hm
      by_cases hgg : g' = g
      · subst hgg
        simp only [if_true, Option.some.injEq] at hm
        rw [← hself, ← hm]
      · simp only [hgg, if_false] at hm
        rw [hoth g' hgg]
        exact h.assign _ ((h.base.members g' N).mp hm)
  · intro j g' hj
    by_cases hgg : g' = g
    · subst hgg; exact ⟨_, List.mem_of_getElem? hpl⟩
    · have hji : j ≠ i := by
        rintro rfl; simp [Inference.assign] at hj; exact hgg hj.symm
      have hj' : a j = some g' := by simpa [Inference.assign, hji] using hj
      obtain ⟨N, hN⟩ := h.live j g' hj'
      have hlt := h.base.tracker.lt g' (List.mem_map.mpr ⟨_, hN, rfl⟩)
      refine ⟨N, (hrep.members g' N).mp ?_⟩
      simp only [RowOp.step, hMem]
      have hne : g' ≠ s.created := by simp at hlt; omega
      have := (h.base.members g' N).mpr hN
      split_ifs <;> simp [hne, hgg, this]
  · simp only [RowOp.step, hMem]
    split_ifs <;> simp

/-- Taking out an item. -/
theorem Coherent.remove (hX : X.Ok) (h : X.Coherent w a s ls) {i : ι} {g : Nat}
    (hi : a i = some g) :
    ∃ p w' s' ls', w.tracker.globalToPackedId X.lvl g = .ok p ∧
      w.removeValue X.lvl X.model p (X.rows i) = .ok w' ∧
      X.Coherent w' (Inference.assign a i none) s' ls' ∧ s'.created = s.created := by
  obtain ⟨M, hgM⟩ := h.live i g hi
  obtain ⟨p, hp⟩ := List.mem_iff_getElem?.mp hgM
  have hMa : M = (univ.filter fun j => a j = some g).val := h.assign _ hgM
  have hiM : i ∈ M := by rw [hMa]; simp [hi]
  obtain ⟨W, ls', hW, hrep⟩ := h.base.removeValue hX.summ X.lvl hp hiM
  have hplen := (List.getElem?_eq_some_iff.mp hp).1
  have hMem : s.members g = some M := (h.base.members g M).mpr hgM
  obtain ⟨w', hw', hto, hcl, hca, hfe⟩ := FullMixture.removeValue_sim X.lvl X.model X.rows h.clus
    h.caches ⟨by omega, M.card, by simp [hp],
      Multiset.card_pos_iff_exists_mem.mpr ⟨i, hiM⟩⟩ h.base.empty
      (by rw [← h.base.rows]; exact h.base.rowsLe)
      (fun f hf => h.base.hasValue hp hiM
        (sl := (FullMixture.feature X.rows f.1, f.2.groups)) (List.mem_map.mpr ⟨f, hf, rfl⟩))
      (fun h1 f hf gs hgs => h.base.empty_remove hX.summ0 hp hiM h1
        (sl := (FullMixture.feature X.rows f.1, f.2.groups)) (List.mem_map.mpr ⟨f, hf, rfl⟩) hgs) hW
  rw [← hto] at hrep
  have hself : M.erase i = (univ.filter fun j => Inference.assign a i none j = some g).val := by
    have : (univ.filter fun j => Inference.assign a i none j = some g) =
        (univ.filter fun j => a j = some g).erase i := by
      ext j
      by_cases hj : j = i <;> simp [Inference.assign, hj]
    rw [this, erase_val, hMa]
  have hoth : ∀ g', g' ≠ g → (univ.filter fun j => Inference.assign a i none j = some g') =
      univ.filter fun j => a j = some g' := by
    intro g' hg'
    ext j
    rw [mem_filter, mem_filter]
    by_cases hj : j = i
    · subst hj; simp [Inference.assign, hi, hg'.symm]
    · simp [Inference.assign, hj]
  refine ⟨p, w', (RowOp.remove g i).step s, ls', ?_, hw', ⟨hrep, ?_, ?_, hca, ?_, ?_⟩, ?_⟩
  · exact h.base.tracker.globalToPackedId X.lvl (by simp [hp])
  · have hd := hrep.driver
    have : w'.clustering.driver = .ofSizes (removeFrom (ls.map fun x => x.2.card) p 1) := by
      rw [hcl]; rfl
    have he : Driver.ofSizes (removeFrom (ls.map fun x => x.2.card) p 1) =
        Driver.ofSizes (ls'.map fun x => x.2.card) := by rw [← this]; exact hd
    have hc := congrArg Driver.counts he
    rw [Driver.ofSizes_counts, Driver.ofSizes_counts] at hc
    have : removeFrom (ls.map fun x => x.2.card) p 1 = ls'.map fun x => x.2.card :=
      List.map_injective_iff.mpr (fun a b h => by simpa using h) hc
    rw [hcl, this]
  · rw [hfe]; exact h.feats
  · rintro ⟨g', N⟩ hx
    have hm := (hrep.members g' N).mpr hx
    simp only [RowOp.step, hMem] at hm
    by_cases hgg : g' = g
    · subst hgg
      split_ifs at hm
      · simp at hm
      · simp only [if_true, Option.some.injEq] at hm
        rw [← hself, ← hm]
    · rw [hoth g' hgg]
      split_ifs at hm
      · simp only [hgg, if_false] at hm
        exact h.assign _ ((h.base.members g' N).mp hm)
      · simp only [hgg, if_false] at hm
        exact h.assign _ ((h.base.members g' N).mp hm)
  · intro j g' hj
    have hji : j ≠ i := by rintro rfl; simp [Inference.assign] at hj
    have hj' : a j = some g' := by simpa [Inference.assign, hji] using hj
    by_cases hgg : g' = g
    · subst hgg
      have hne : M.erase i ≠ 0 := by
        rw [hself]
        intro h0
        rw [val_eq_zero] at h0
        have : j ∈ (∅ : Finset ι) := by rw [← h0]; simp [hj]
        simp at this
      refine ⟨M.erase i, (hrep.members g' _).mp ?_⟩
      simp only [RowOp.step, hMem, hne, if_false, if_true]
    · obtain ⟨N, hN⟩ := h.live j g' hj'
      refine ⟨N, (hrep.members g' N).mp ?_⟩
      have := (h.base.members g' N).mpr hN
      simp only [RowOp.step, hMem]
      split_ifs <;> simp [hgg, this]
  · simp only [RowOp.step, hMem]
    split_ifs <;> rfl

end Ctx

end Dist
