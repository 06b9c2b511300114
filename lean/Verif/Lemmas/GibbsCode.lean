import Verif.Lemmas.Mixture
import Verif.Lemmas.Protocol
import Verif.Lemmas.PYCache
import Verif.Model.Gibbs

/-! # The cached mixture follows the uncached protocol -/

namespace Dist

open Spec FloatOps FloatNotation

/-- A loop that succeeds on the images succeeds on the originals. -/
theorem mapM_sim {α α' β β' : Type} {pr : α → α'} {h : β → β'} {g : α' → Res β'} {f : α → Res β}
    {Q : β → Prop} {l : List α} {bs : List β'} (hg : (l.map pr).mapM g = .ok bs)
    (H : ∀ a ∈ l, ∀ b, g (pr a) = .ok b → ∃ c, f a = .ok c ∧ h c = b ∧ Q c) :
    ∃ cs, l.mapM f = .ok cs ∧ cs.map h = bs ∧ ∀ c ∈ cs, Q c := by
  induction l generalizing bs with
  | nil =>
    simp only [List.map_nil, List.mapM_nil, Res.pure_eq, Res.ok.injEq] at hg
    exact ⟨[], rfl, by simpa using hg, by simp⟩
  | cons a l ih =>
    rw [List.map_cons, List.mapM_cons] at hg
    obtain ⟨b, hb, hg⟩ := Res.bind_eq_ok.mp hg
    obtain ⟨bs', hbs, hg⟩ := Res.bind_eq_ok.mp hg
    simp only [Res.pure_eq, Res.ok.injEq] at hg
    subst hg
    obtain ⟨c, hc, rfl, hQ⟩ := H a (by simp) b hb
    obtain ⟨cs, hcs, rfl, hQs⟩ := ih hbs fun a ha => H a (List.mem_cons_of_mem _ ha)
    refine ⟨c :: cs, ?_, rfl, ?_⟩
    · rw [List.mapM_cons, hc, Res.ok_bind, hcs]; rfl
    · intro x hx
      rcases List.mem_cons.mp hx with rfl | hx
      · exact hQ
      · exact hQs x hx

/-- Groups that hold, all together, fewer values than one group can count. -/
def Room {G V : Type} (Sm : G → Multiset V → Prop) (gs : List G) : Prop :=
  ∃ Ms : List (Multiset V), PW Sm gs Ms ∧ (Ms.map Multiset.card).sum < 2147483647

/-- The group at position `p` holds the value `v`. -/
def HasValue {G V : Type} (Sm : G → Multiset V → Prop) (gs : List G) (p : Nat) (v : V) : Prop :=
  ∃ g M, gs[p]? = some g ∧ Sm g M ∧ v ∈ M

theorem empty_remove {G V : Type} [DecidableEq V] {lvl : Nat} {ops : GroupOps G V}
    {Sm : G → Multiset V → Prop} (hS : Summarises ops Sm) (he : ∀ g, Sm g 0 → g = ops.init)
    {gs gs' : List G} {p : Nat} {g : G} {v : V} (hg : gs[p]? = some g) (hs : Sm g {v})
    (h : SlaveGroups.removeValue lvl ops gs p v = .ok gs') : gs'[p]? = some ops.init := by
  have hp := (List.getElem?_eq_some_iff.mp hg).1
  obtain ⟨g', e, hS'⟩ := hS.remove g {v} v hs (by simp)
  unfold SlaveGroups.removeValue at h
  rw [groupAt_of hg, Res.ok_bind, e, Res.ok_bind, setAt_of hp] at h
  injection h with h
  subst h
  rw [Multiset.erase_singleton] at hS'
  rw [he _ hS']
  simp [hp]

namespace MixtureSlave

variable {S G V F : Type} {lvl : Nat} {ops : GroupOps G V} {vs : ValueScorerOps S G V F}
  {P : G → Prop} {C : S → List G → Prop}

theorem addValue_of (L : CacheLaws lvl ops vs P C) {m : MixtureSlave S G}
    (hC : C m.scorer m.groups) {p : Nat} {v : V} {gs : List G}
    (h : SlaveGroups.addValue lvl ops m.groups p v = .ok gs) :
    ∃ m', m.addValue lvl ops vs p v = .ok m' ∧ m'.groups = gs ∧ C m'.scorer m'.groups := by
  have h0 := h
  unfold SlaveGroups.addValue at h
  obtain ⟨g, hg, h⟩ := Res.bind_eq_ok.mp h
  obtain ⟨g', hg', h⟩ := Res.bind_eq_ok.mp h
  unfold SlaveGroups.groupAt at hg
  obtain ⟨_, _, hg⟩ := Res.bind_eq_ok.mp hg
  rw [getAt_eq_ok] at hg
  have hp := (List.getElem?_eq_some_iff.mp hg).1
  rw [setAt_of hp] at h
  injection h with h
  subst h
  obtain ⟨s', hs', hC'⟩ := L.add _ _ p g v g' hC hg hg'
  refine ⟨⟨m.groups.set p g', s'⟩, ?_, rfl, hC'⟩
  unfold addValue
  rw [h0, Res.ok_bind, groupAt_of (g := g') (by simp [hp]), Res.ok_bind, hs']; rfl

theorem removeValue_of (L : CacheLaws lvl ops vs P C) {m : MixtureSlave S G}
    (hC : C m.scorer m.groups) {p : Nat} {v : V} {gs : List G}
    (h : SlaveGroups.removeValue lvl ops m.groups p v = .ok gs) :
    ∃ m', m.removeValue lvl ops vs p v = .ok m' ∧ m'.groups = gs ∧ C m'.scorer m'.groups := by
  have h0 := h
  unfold SlaveGroups.removeValue at h
  obtain ⟨g, hg, h⟩ := Res.bind_eq_ok.mp h
  obtain ⟨g', hg', h⟩ := Res.bind_eq_ok.mp h
  unfold SlaveGroups.groupAt at hg
  obtain ⟨_, _, hg⟩ := Res.bind_eq_ok.mp hg
  rw [getAt_eq_ok] at hg
  have hp := (List.getElem?_eq_some_iff.mp hg).1
  rw [setAt_of hp] at h
  injection h with h
  subst h
  obtain ⟨s', hs', hC'⟩ := L.remove _ _ p g v g' hC hg hg'
  refine ⟨⟨m.groups.set p g', s'⟩, ?_, rfl, hC'⟩
  unfold removeValue
  rw [h0, Res.ok_bind, groupAt_of (g := g') (by simp [hp]), Res.ok_bind, hs']; rfl

theorem addGroup_of (L : CacheLaws lvl ops vs P C) {m : MixtureSlave S G}
    (hC : C m.scorer m.groups) :
    ∃ m', m.addGroup lvl ops vs = .ok m' ∧ m'.groups = SlaveGroups.addGroup ops m.groups ∧
      C m'.scorer m'.groups := by
  obtain ⟨s₁, s₂, h1, h2, hC'⟩ := L.addGroup _ _ hC
  refine ⟨⟨m.groups ++ [ops.init], s₂⟩, ?_, rfl, hC'⟩
  simp only [addGroup, SlaveGroups.addGroup, packedAdd]
  rw [h1, Res.ok_bind, groupAt_of (g := ops.init) (by simp), Res.ok_bind, h2]; rfl

theorem removeGroup_of (L : CacheLaws lvl ops vs P C) {m : MixtureSlave S G}
    (hC : C m.scorer m.groups) {p : Nat} {gs : List G} (hp : p < m.groups.length)
    (h : SlaveGroups.removeGroup lvl m.groups p = .ok gs) :
    ∃ m', m.removeGroup lvl vs p = .ok m' ∧ m'.groups = gs ∧ C m'.scorer m'.groups := by
  have h0 := h
  rw [SlaveGroups.removeGroup, packedRemove_eq lvl hp] at h
  injection h with h
  subst h
  obtain ⟨s', hs', hC'⟩ := L.removeGroup _ _ p hC hp
  refine ⟨⟨swapRemove m.groups p, s'⟩, ?_, rfl, hC'⟩
  rw [removeGroup, h0, Res.ok_bind, hs']; rfl

/-- What the loops need of a cache that keeps `C`, of groups summarising values by `Sm`: groups
are only removed when empty, and no more items are ever held than a group can count. -/
structure Laws (lvl : Nat) (ops : GroupOps G V) (vs : ValueScorerOps S G V F)
    (Sm : G → Multiset V → Prop) (C : S → List G → Prop) : Prop where
  init : ∀ m : MixtureSlave S G, C m.scorer m.groups →
    ∃ m', m.init vs = .ok m' ∧ m'.groups = m.groups ∧ C m'.scorer m'.groups
  addGroup : ∀ m : MixtureSlave S G, C m.scorer m.groups →
    ∃ m', m.addGroup lvl ops vs = .ok m' ∧ m'.groups = SlaveGroups.addGroup ops m.groups ∧
      C m'.scorer m'.groups
  removeGroup : ∀ (m : MixtureSlave S G) p gs, C m.scorer m.groups →
    m.groups[p]? = some ops.init → SlaveGroups.removeGroup lvl m.groups p = .ok gs →
    ∃ m', m.removeGroup lvl vs p = .ok m' ∧ m'.groups = gs ∧ C m'.scorer m'.groups
  add : ∀ (m : MixtureSlave S G) p v gs, C m.scorer m.groups →
    SlaveGroups.addValue lvl ops m.groups p v = .ok gs → Room Sm m.groups →
    ∃ m', m.addValue lvl ops vs p v = .ok m' ∧ m'.groups = gs ∧ C m'.scorer m'.groups
  remove : ∀ (m : MixtureSlave S G) p v gs, C m.scorer m.groups →
    SlaveGroups.removeValue lvl ops m.groups p v = .ok gs → HasValue Sm m.groups p v →
    ∃ m', m.removeValue lvl ops vs p v = .ok m' ∧ m'.groups = gs ∧ C m'.scorer m'.groups

theorem laws_of (L : CacheLaws lvl ops vs P C) (Sm : G → Multiset V → Prop) :
    Laws lvl ops vs Sm C where
  init m hC := by
    obtain ⟨s₁, s₂, h1, h2, h3⟩ := L.init m.scorer m.groups (L.valid _ _ hC)
    exact ⟨⟨m.groups, s₂⟩, by rw [MixtureSlave.init, h1, Res.ok_bind, h2]; rfl, rfl, h3⟩
  addGroup _ hC := addGroup_of L hC
  removeGroup _ _ _ hC hp h := removeGroup_of L hC (List.getElem?_eq_some_iff.mp hp).1 h
  add _ _ _ _ hC h _ := addValue_of L hC h
  remove _ _ _ _ hC h _ := removeValue_of L hC h

end MixtureSlave

namespace FullMixture

variable {R S G V F ι : Type} [FloatOps F]

/-- The feature as a feature of the uncached protocol, whose rows are the items. -/
def feature (rows : ι → R) (f : FeatureModel R S G V F) : Feature ι G V :=
  ⟨fun i => f.col (rows i), f.ops⟩

/-- Forget the caches. -/
def toWorld (rows : ι → R) (w : FullMixture R S G V F) : World ι G V :=
  ⟨w.clustering.driver, w.features.map fun f => (feature rows f.1, f.2.groups), w.tracker⟩

/-- All caches of the feature mixtures are in order. -/
def Caches (lvl : Nat) (Sm : G → Multiset V → Prop) (Coh : FeatureModel R S G V F → S → List G → Prop)
    (fs : List (FeatureModel R S G V F × MixtureSlave S G)) : Prop :=
  ∀ f ∈ fs, MixtureSlave.Laws lvl f.1.ops f.1.vs Sm (Coh f.1) ∧ Coh f.1 f.2.scorer f.2.groups

theorem addValue_sim (lvl : Nat) (m : PitmanYor F) (rows : ι → R)
    {Sm : G → Multiset V → Prop} {Coh : FeatureModel R S G V F → S → List G → Prop}
    {w : FullMixture R S G V F} {l : List Nat}
    (hc : w.clustering = PitmanYor.Cached.canon m l) (hC : Caches lvl Sm Coh w.features)
    {p : Nat} {i : ι} (hv : (Op.add p 1).Valid l)
    (hroom : ∀ f ∈ w.features, Room Sm f.2.groups)
    {W : World ι G V}
    (hW : (w.toWorld rows).addValue lvl p i = .ok W) :
    ∃ w', w.addValue lvl m p (rows i) = .ok w' ∧ w'.toWorld rows = W ∧
      w'.clustering = PitmanYor.Cached.canon m (addTo l p 1) ∧ Caches lvl Sm Coh w'.features ∧
      w'.features.map Prod.fst = w.features.map Prod.fst := by
  unfold World.addValue at hW
  have hdr : (w.toWorld rows).driver = .ofSizes l := by
    simp only [toWorld, hc]; rfl
  rw [hdr, show (1 : Int) = ((1 : Nat) : Int) from rfl, Driver.addValue_ofSizes lvl hv,
    Res.ok_bind] at hW
  obtain ⟨sls, hsl, hW⟩ := Res.bind_eq_ok.mp hW
  obtain ⟨fs, hfs, hm, hQ⟩ := mapM_sim
    (f := fun f : FeatureModel R S G V F × MixtureSlave S G => (do
      let s ← f.2.addValue lvl f.1.ops f.1.vs p (f.1.col (rows i))
      return (f.1, s) : Res _))
    (h := fun f => (feature rows f.1, f.2.groups))
    (Q := fun f => MixtureSlave.Laws lvl f.1.ops f.1.vs Sm (Coh f.1) ∧
      Coh f.1 f.2.scorer f.2.groups) hsl (by
    intro f hf b hb
    obtain ⟨L, hcoh⟩ := hC f hf
    obtain ⟨gs, hgs, hb⟩ := Res.bind_eq_ok.mp hb
    simp only [Res.pure_eq, Res.ok.injEq] at hb
    subst hb
    obtain ⟨m', h1, h2, h3⟩ := L.add _ _ _ _ hcoh hgs (hroom f hf)
    have h1 : f.2.addValue lvl f.1.ops f.1.vs p (f.1.col (rows i)) = .ok m' := h1
    exact ⟨(f.1, m'), by rw [h1]; rfl, by simp [h2], L, h3⟩)
  have hfst : fs.map Prod.fst = w.features.map Prod.fst := by
    clear hm hQ hsl hC hW
    generalize w.features = xs at hfs
    induction xs generalizing fs with
    | nil => simp only [List.mapM_nil, Res.pure_eq, Res.ok.injEq] at hfs; subst hfs; rfl
    | cons x xs ih =>
      rw [List.mapM_cons] at hfs
      obtain ⟨y, hy, hfs⟩ := Res.bind_eq_ok.mp hfs
      obtain ⟨ys, hys, hfs⟩ := Res.bind_eq_ok.mp hfs
      obtain ⟨z, _, hy⟩ := Res.bind_eq_ok.mp hy
      simp only [Res.pure_eq, Res.ok.injEq] at hfs hy
      subst hfs hy
      simp [ih _ hys]
  unfold addValue
  rw [hc, show (1 : Int) = ((1 : Nat) : Int) from rfl, PitmanYor.Cached.addValue_canon lvl m hv,
    Res.ok_bind]
  simp only [hfs, Res.ok_bind]
  by_cases h0 : l[p]? = some 0
  · simp only [h0, beq_self_eq_true, if_true] at hW ⊢
    obtain ⟨t, ht, hW⟩ := Res.bind_eq_ok.mp hW
    simp only [Res.pure_eq, Res.ok.injEq] at hW
    have hgr : ∀ f ∈ fs, ∃ f', (do
        let s ← f.2.addGroup lvl f.1.ops f.1.vs
        return (f.1, s) : Res _) = .ok f' ∧ (f'.1 = f.1 ∧
          f'.2.groups = SlaveGroups.addGroup f.1.ops f.2.groups ∧
          (MixtureSlave.Laws lvl f'.1.ops f'.1.vs Sm (Coh f'.1) ∧
            Coh f'.1 f'.2.scorer f'.2.groups)) := by
      intro f hf
      obtain ⟨L, hcoh⟩ := hQ f hf
      obtain ⟨m', h1, h2, h3⟩ := L.addGroup _ hcoh
      exact ⟨(f.1, m'), by rw [h1]; rfl, rfl, h2, L, h3⟩
    obtain ⟨fs', hfs', hall⟩ := mapM_exists hgr
    have hmap : fs'.map (fun f => (feature rows f.1, f.2.groups)) =
        sls.map fun s => (s.1, SlaveGroups.addGroup s.1.ops s.2) := by
      rw [← hm, List.map_map]
      clear hfs hfs' hW hm hQ hgr hfst hsl
      induction hall with
      | nil => rfl
      | cons h _ ih =>
        obtain ⟨e1, e2, _⟩ := h
        rw [List.map_cons, List.map_cons, ih]
        simp [e1, e2, feature]
    refine ⟨⟨PitmanYor.Cached.canon m (addTo l p 1), fs', t⟩, ?_, ?_, rfl, ?_, ?_⟩
    · rw [hfs', Res.ok_bind]
      have ht' : w.tracker.addGroup = .ok t := ht
      rw [ht']; rfl
    · rw [← hW, toWorld]; simp only [hmap]; rfl
    · intro f hf
      obtain ⟨f0, hf0, _, _, h⟩ := forall2_mem hall hf
      exact h
    · rw [← hfst]; exact forall2_map_fst hall
  · have h0' : (l[p]? == some 0) = false := by simpa using h0
    simp only [h0', Bool.false_eq_true, if_false, Res.pure_eq, Res.ok.injEq] at hW ⊢
    refine ⟨_, rfl, ?_, rfl, hQ, hfst⟩
    rw [← hW, toWorld]; simp only [hm]; rfl

theorem removeValue_sim (lvl : Nat) (m : PitmanYor F) (rows : ι → R)
    {Sm : G → Multiset V → Prop} {Coh : FeatureModel R S G V F → S → List G → Prop}
    {w : FullMixture R S G V F} {l : List Nat}
    (hc : w.clustering = PitmanYor.Cached.canon m l) (hC : Caches lvl Sm Coh w.features)
    {p : Nat} {i : ι} (hv : (Op.remove p 1).Valid l) (he : 0 ∈ l) (hs : l.sum ≤ 2147483647)
    (hhas : ∀ f ∈ w.features, HasValue Sm f.2.groups p (f.1.col (rows i)))
    (hemp : l[p]? = some 1 → ∀ f ∈ w.features, ∀ gs,
      SlaveGroups.removeValue lvl f.1.ops f.2.groups p (f.1.col (rows i)) = .ok gs →
      gs[p]? = some f.1.ops.init)
    {W : World ι G V} (hW : (w.toWorld rows).removeValue lvl p i = .ok W) :
    ∃ w', w.removeValue lvl m p (rows i) = .ok w' ∧ w'.toWorld rows = W ∧
      w'.clustering = PitmanYor.Cached.canon m (removeFrom l p 1) ∧ Caches lvl Sm Coh w'.features ∧
      w'.features.map Prod.fst = w.features.map Prod.fst := by
  unfold World.removeValue at hW
  have hdr : (w.toWorld rows).driver = .ofSizes l := by
    simp only [toWorld, hc]; rfl
  rw [hdr, show (1 : Int) = ((1 : Nat) : Int) from rfl,
    Driver.removeValue_ofSizes lvl hv (.inr he) hs, Res.ok_bind] at hW
  obtain ⟨sls, hsl, hW⟩ := Res.bind_eq_ok.mp hW
  obtain ⟨fs, hfs, hm, hQ⟩ := mapM_sim
    (f := fun f : FeatureModel R S G V F × MixtureSlave S G => (do
      let s ← f.2.removeValue lvl f.1.ops f.1.vs p (f.1.col (rows i))
      return (f.1, s) : Res _))
    (h := fun f => (feature rows f.1, f.2.groups))
    (Q := fun f => (l[p]? = some 1 → f.2.groups[p]? = some f.1.ops.init) ∧
      MixtureSlave.Laws lvl f.1.ops f.1.vs Sm (Coh f.1) ∧
      Coh f.1 f.2.scorer f.2.groups) hsl (by
    intro f hf b hb
    obtain ⟨L, hcoh⟩ := hC f hf
    obtain ⟨gs, hgs, hb⟩ := Res.bind_eq_ok.mp hb
    simp only [Res.pure_eq, Res.ok.injEq] at hb
    subst hb
    obtain ⟨m', h1, h2, h3⟩ := L.remove _ _ _ _ hcoh hgs (hhas f hf)
    have h1 : f.2.removeValue lvl f.1.ops f.1.vs p (f.1.col (rows i)) = .ok m' := h1
    exact ⟨(f.1, m'), by rw [h1]; rfl, by simp [h2],
      fun h1 => by rw [h2]; exact hemp h1 f hf gs hgs, L, h3⟩)
  have hfst : fs.map Prod.fst = w.features.map Prod.fst := by
    clear hm hQ hsl hC hW
    generalize w.features = xs at hfs
    induction xs generalizing fs with
    | nil => simp only [List.mapM_nil, Res.pure_eq, Res.ok.injEq] at hfs; subst hfs; rfl
    | cons x xs ih =>
      rw [List.mapM_cons] at hfs
      obtain ⟨y, hy, hfs⟩ := Res.bind_eq_ok.mp hfs
      obtain ⟨ys, hys, hfs⟩ := Res.bind_eq_ok.mp hfs
      obtain ⟨z, _, hy⟩ := Res.bind_eq_ok.mp hy
      simp only [Res.pure_eq, Res.ok.injEq] at hfs hy
      subst hfs hy
      simp [ih _ hys]
  unfold removeValue
  rw [hc, show (1 : Int) = ((1 : Nat) : Int) from rfl,
    PitmanYor.Cached.removeValue_canon lvl m hv (.inr he) hs, Res.ok_bind]
  simp only [hfs, Res.ok_bind]
  by_cases h0 : l[p]? = some 1
  · simp only [h0, beq_self_eq_true, if_true] at hW ⊢
    obtain ⟨sls', hsl', hW⟩ := Res.bind_eq_ok.mp hW
    obtain ⟨t, ht, hW⟩ := Res.bind_eq_ok.mp hW
    simp only [Res.pure_eq, Res.ok.injEq] at hW
    rw [← hm] at hsl'
    obtain ⟨fs', hfs', hm', hQ'⟩ := mapM_sim
      (f := fun f : FeatureModel R S G V F × MixtureSlave S G => (do
        let s ← f.2.removeGroup lvl f.1.vs p
        return (f.1, s) : Res _))
      (h := fun f => (feature rows f.1, f.2.groups))
      (Q := fun f => MixtureSlave.Laws lvl f.1.ops f.1.vs Sm (Coh f.1) ∧
        Coh f.1 f.2.scorer f.2.groups) hsl' (by
      intro f hf b hb
      obtain ⟨hp, L, hcoh⟩ := hQ f hf
      obtain ⟨gs, hgs, hb⟩ := Res.bind_eq_ok.mp hb
      simp only [Res.pure_eq, Res.ok.injEq] at hb
      subst hb
      obtain ⟨m', h1, h2, h3⟩ := L.removeGroup _ _ _ hcoh (hp h0) hgs
      exact ⟨(f.1, m'), by rw [h1]; rfl, by simp [h2], L, h3⟩)
    have hfst' : fs'.map Prod.fst = fs.map Prod.fst := by
      clear hm' hQ' hsl' hW hQ hfs hfst hm
      induction fs generalizing fs' with
      | nil => simp only [List.mapM_nil, Res.pure_eq, Res.ok.injEq] at hfs'; subst hfs'; rfl
      | cons x xs ih =>
        rw [List.mapM_cons] at hfs'
        obtain ⟨y, hy, hfs'⟩ := Res.bind_eq_ok.mp hfs'
        obtain ⟨ys, hys, hfs'⟩ := Res.bind_eq_ok.mp hfs'
        obtain ⟨z, _, hy⟩ := Res.bind_eq_ok.mp hy
        simp only [Res.pure_eq, Res.ok.injEq] at hfs' hy
        subst hfs' hy
        simp [ih _ hys]
    refine ⟨⟨PitmanYor.Cached.canon m (removeFrom l p 1), fs', t⟩, ?_, ?_, rfl, hQ', ?_⟩
    · rw [hfs', Res.ok_bind]
      have ht' : w.tracker.removeGroup lvl p = .ok t := ht
      rw [ht']; rfl
    · rw [← hW, toWorld]; simp only [hm']; rfl
    · rw [← hfst, hfst']
  · have h0' : (l[p]? == some 1) = false := by simpa using h0
    simp only [h0', Bool.false_eq_true, if_false, Res.pure_eq, Res.ok.injEq] at hW ⊢
    refine ⟨_, rfl, ?_, rfl, fun f hf => (hQ f hf).2, hfst⟩
    rw [← hW, toWorld]; simp only [hm]; rfl

end FullMixture

end Dist
