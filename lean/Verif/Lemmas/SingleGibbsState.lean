import Verif.Lemmas.GibbsRun
import Verif.Model.Single

/-! # States of the inference loops in single precision

A state in single precision is followed by a state in exact arithmetic with the same groups, the
same driver and the same tracker. -/

namespace Dist

open Spec FloatOps FloatNotation Finset

variable {ι R S S' G V : Type} [DecidableEq ι] [Fintype ι] [DecidableEq V] {lib : Libm}

/-- What is needed of a feature in single precision: it is the exact feature `f`, its caches keep
`Coh`, and its cached scores are `sc`, within `err * 1e-6` of the exact scores. -/
structure SNear (lvl : Nat) (f' : FeatureModel R S' G V (Single lib)) (f : FeatureModel R S G V XR)
    (Sm : G → Multiset V → Prop) (Coh : S' → List G → Prop) (sc : V → Multiset V → ℝ)
    (err : ℕ) (dat : Multiset V → ℝ) (all : Multiset V) : Prop where
  col : f'.col = f.col
  ops : f'.ops = f.ops
  fresh : Coh f'.fresh []
  cache : MixtureSlave.Laws lvl f'.ops f'.vs Sm Coh
  scores : ∀ (sl : MixtureSlave S' G) (v : V) (accum : List (Single lib)) (Ms : List (Multiset V)),
    Coh sl.scorer sl.groups → accum.length = sl.groups.length → PW Sm sl.groups Ms →
    (∀ M ∈ Ms, v ::ₘ M ≤ all) →
    sl.scoreValue lvl f'.vs v accum =
      .ok (List.zipWith (fun a M => a + (⟨sc v M⟩ : Single lib)) accum Ms)
  near : ∀ v M, v ::ₘ M ≤ all →
    |sc v M - (dat (v ::ₘ M) - dat M)| ≤ err / 10 ^ 6 ∧ |sc v M| ≤ 64

/-- The parameters of an inference run in single precision, with the exact ones. -/
structure SCtx (lib : Libm) (ι R S S' G V : Type) where
  X : Ctx ι R S G V
  feats : List (FeatureModel R S' G V (Single lib))
  Coh : FeatureModel R S' G V (Single lib) → S' → List G → Prop
  sc : FeatureModel R S' G V (Single lib) → V → Multiset V → ℝ
  err : ℕ

namespace SCtx

variable (Y : SCtx lib ι R S S' G V)

abbrev model : PitmanYor (Single lib) := ⟨⟨Y.X.alpha⟩, ⟨Y.X.d⟩⟩

structure Ok : Prop where
  ok : Y.X.Ok
  near : List.Forall₂ (fun f' f => SNear Y.X.lvl f' f Y.X.Sm (Y.Coh f') (Y.sc f') Y.err (Y.X.dat f)
    (Y.X.vals f univ.val)) Y.feats Y.X.feats
  alpha1 : 1 / 2 ^ 40 ≤ Y.X.alpha
  alpha2 : Y.X.alpha ≤ 2 ^ 40
  d0 : Y.X.d = 0 ∨ 1 / 2 ^ 40 ≤ Y.X.d
  d1 : Y.X.d ≤ 1 - 1 / 2 ^ 24
  feats : Y.feats.length ≤ 1000

/-- The state `w'` in single precision follows the exact state `w`. -/
structure Coherent (w' : FullMixture R S' G V (Single lib)) (w : FullMixture R S G V XR)
    (a : ι → Option Nat) (s : Clusters ι) (ls : List (Nat × Multiset ι)) : Prop where
  exact : Y.X.Coherent w a s ls
  world : w'.toWorld Y.X.rows = w.toWorld Y.X.rows
  clus : w'.clustering = PitmanYor.Cached.canon Y.model (ls.map fun x => x.2.card)
  feats : w'.features.map Prod.fst = Y.feats
  caches : FullMixture.Caches Y.X.lvl Y.X.Sm Y.Coh w'.features

variable {Y} {w' : FullMixture R S' G V (Single lib)} {w : FullMixture R S G V XR}
  {a : ι → Option Nat} {s : Clusters ι} {ls : List (Nat × Multiset ι)}

omit [DecidableEq ι] [Fintype ι] [DecidableEq V] in
theorem canon_sizes {m : PitmanYor XR} {l l' : List Nat} {w : FullMixture R S G V XR}
    (h1 : w.clustering = PitmanYor.Cached.canon m l) (h2 : w.clustering = PitmanYor.Cached.canon m l') :
    l = l' := by
  rw [h1] at h2
  exact ofSizes_inj (congrArg PitmanYor.Cached.driver h2)

theorem Coherent.add (hY : Y.Ok) (h : Y.Coherent w' w a s ls) {i : ι} (hi : a i = none) {p g : Nat}
    {M : Multiset ι} (hp : ls[p]? = some (g, M)) (hcr : s.created + 1 ≤ 4294967296) :
    ∃ w1' w1 s1 ls1, w'.addValue Y.X.lvl Y.model p (Y.X.rows i) = .ok w1' ∧
      w1'.tracker.packedToGlobalId Y.X.lvl p = .ok g ∧
      Y.Coherent w1' w1 (Inference.assign a i (some g)) s1 ls1 ∧ s1.created ≤ s.created + 1 ∧
      (ls1.map fun x => x.2.card).count 0 = (ls.map fun x => x.2.card).count 0 := by
  have hX := hY.ok
  have hE := h.exact
  have hrows := hE.rows_lt hX.card hi
  have hplen := (List.getElem?_eq_some_iff.mp hp).1
  obtain ⟨w1, s1, ls1, h1, h2, h3, h4⟩ := hE.add hX hi hp hcr
  obtain ⟨W, _, hW, _, _⟩ := hE.base.addValue_at hX.summ Y.X.lvl hp (r := i) hrows hcr
  have hv : (Op.add p 1).Valid (ls.map fun x => x.2.card) :=
    ⟨by simpa using hplen, by omega, by rw [← hE.base.rows]; exact hrows⟩
  obtain ⟨v, hv1, hv2, hv3, -, -⟩ := FullMixture.addValue_sim Y.X.lvl Y.X.model Y.X.rows hE.clus
    hE.caches hv (fun f hf => hE.base.room hrows
      (sl := (FullMixture.feature Y.X.rows f.1, f.2.groups)) (List.mem_map.mpr ⟨f, hf, rfl⟩)) hW
  rw [h1, Res.ok.injEq] at hv1
  subst hv1
  rw [← h.world] at hW
  obtain ⟨w1', e1, e2, e3, e4, e5⟩ := FullMixture.addValue_sim Y.X.lvl Y.model Y.X.rows h.clus
    h.caches hv (fun f hf => hE.base.room hrows
      (sl := (FullMixture.feature Y.X.rows f.1, f.2.groups))
      (by rw [← h.world]; exact List.mem_map.mpr ⟨f, hf, rfl⟩)) hW
  have hsz := canon_sizes hv3 h3.clus
  have hworld : w1'.toWorld Y.X.rows = w1.toWorld Y.X.rows := by rw [e2, hv2]
  refine ⟨w1', w1, s1, ls1, e1, ?_, ⟨h3, hworld, by rw [e3, hsz], by rw [e5, h.feats], e4⟩, h4, ?_⟩
  · have : w1'.tracker = w1.tracker := congrArg World.tracker hworld
    rw [this]; exact h2
  · rw [← hsz]; exact Driver.count_zero_addTo hv

theorem Coherent.remove (hY : Y.Ok) (h : Y.Coherent w' w a s ls) {i : ι} {g : Nat}
    (hi : a i = some g) :
    ∃ p w1' w1 s1 ls1, w'.tracker.globalToPackedId Y.X.lvl g = .ok p ∧
      w'.removeValue Y.X.lvl Y.model p (Y.X.rows i) = .ok w1' ∧
      Y.Coherent w1' w1 (Inference.assign a i none) s1 ls1 ∧ s1.created = s.created ∧
      (ls1.map fun x => x.2.card).count 0 = (ls.map fun x => x.2.card).count 0 := by
  have hX := hY.ok
  have hE := h.exact
  obtain ⟨p, w1, s1, ls1, h1, h2, h3, h4⟩ := hE.remove hX hi
  obtain ⟨M, hgM⟩ := hE.live i g hi
  obtain ⟨q, hq⟩ := List.mem_iff_getElem?.mp hgM
  have hqp : q = p := by
    have := hE.base.tracker.globalToPackedId Y.X.lvl (p := q) (g := g) (by simp [hq])
    have h1' : (w.toWorld Y.X.rows).tracker.globalToPackedId Y.X.lvl g = .ok p := h1
    rw [h1'] at this
    simpa using this.symm
  subst hqp
  have hMa : M = (univ.filter fun j => a j = some g).val := hE.assign _ hgM
  have hiM : i ∈ M := by rw [hMa]; simp [hi]
  obtain ⟨W, _, hW, _⟩ := hE.base.removeValue hX.summ Y.X.lvl hq hiM
  have hv : (Op.remove q 1).Valid (ls.map fun x => x.2.card) :=
    ⟨by omega, M.card, by simp [hq], Multiset.card_pos_iff_exists_mem.mpr ⟨i, hiM⟩⟩
  have hsum : (ls.map fun x => x.2.card).sum ≤ 2147483647 := by
    rw [← hE.base.rows]; exact hE.base.rowsLe
  obtain ⟨v, hv1, hv2, hv3, -, -⟩ := FullMixture.removeValue_sim Y.X.lvl Y.X.model Y.X.rows hE.clus
    hE.caches hv hE.base.empty hsum
    (fun f hf => hE.base.hasValue hq hiM
      (sl := (FullMixture.feature Y.X.rows f.1, f.2.groups)) (List.mem_map.mpr ⟨f, hf, rfl⟩))
    (fun h1 f hf gs hgs => hE.base.empty_remove hX.summ0 hq hiM h1
      (sl := (FullMixture.feature Y.X.rows f.1, f.2.groups)) (List.mem_map.mpr ⟨f, hf, rfl⟩) hgs) hW
  rw [h2, Res.ok.injEq] at hv1
  subst hv1
  rw [← h.world] at hW
  obtain ⟨w1', e1, e2, e3, e4, e5⟩ := FullMixture.removeValue_sim Y.X.lvl Y.model Y.X.rows h.clus
    h.caches hv hE.base.empty hsum
    (fun f hf => hE.base.hasValue hq hiM
      (sl := (FullMixture.feature Y.X.rows f.1, f.2.groups))
      (by rw [← h.world]; exact List.mem_map.mpr ⟨f, hf, rfl⟩))
    (fun h1 f hf gs hgs => hE.base.empty_remove hX.summ0 hq hiM h1
      (sl := (FullMixture.feature Y.X.rows f.1, f.2.groups))
      (by rw [← h.world]; exact List.mem_map.mpr ⟨f, hf, rfl⟩) hgs) hW
  have hsz := canon_sizes hv3 h3.clus
  have htr : w'.tracker = w.tracker := congrArg World.tracker h.world
  refine ⟨q, w1', w1, s1, ls1, by rw [htr]; exact h1, e1,
    ⟨h3, by rw [e2, hv2], by rw [e3, hsz], by rw [e5, h.feats], e4⟩, h4, ?_⟩
  rw [← hsz]; exact Driver.count_zero_removeFrom hv

theorem feature_eq {f' : FeatureModel R S' G V (Single lib)} {f : FeatureModel R S G V XR}
    {Sm : G → Multiset V → Prop} {C : S' → List G → Prop} {sc : V → Multiset V → ℝ}
    {dat : Multiset V → ℝ} {all : Multiset V} {lvl err : Nat} (h : SNear lvl f' f Sm C sc err dat all)
    (rows : ι → R) : FullMixture.feature rows f' = FullMixture.feature rows f := by
  unfold FullMixture.feature
  rw [h.col, h.ops]

theorem forall₂_left {α β : Type} {r : α → β → Prop} {l : List α} {l' : List β}
    (h : List.Forall₂ r l l') {x : α} (hx : x ∈ l) : ∃ y ∈ l', r x y := by
  induction h with
  | nil => simp at hx
  | cons h1 _ ih =>
    rcases List.mem_cons.mp hx with rfl | hx
    · exact ⟨_, by simp, h1⟩
    · obtain ⟨y, hy, h⟩ := ih hx
      exact ⟨y, by simp [hy], h⟩

theorem forall₂_map {α β γ : Type} {r : α → β → Prop} {l : List α} {l' : List β}
    {f : α → γ} {g : β → γ} (h : List.Forall₂ r l l') (hfg : ∀ x y, r x y → f x = g y) :
    l.map f = l'.map g := by
  induction h with
  | nil => rfl
  | cons h1 _ ih => rw [List.map_cons, List.map_cons, ih, hfg _ _ h1]

theorem coherent_init (hY : Y.Ok) {n : Nat} (hn : 1 ≤ n) (hb : n ≤ 4294967296) :
    ∃ w' w ls, (FullMixture.raw Y.feats).init Y.X.lvl Y.model n = .ok w' ∧
      Y.Coherent w' w (fun _ => none) (Clusters.start ι n) ls ∧
      (ls.map fun x => x.2.card).count 0 = n := by
  have hX := hY.ok
  obtain ⟨w, ls, hw, hco⟩ := Ctx.coherent_init hX hn hb
  have hcl := PitmanYor.Cached.init_eq Y.X.lvl Y.X.model (List.replicate n 0) [] (by simp)
    (.inr (by simp; omega))
  have hc := PitmanYor.Cached.init_eq Y.X.lvl Y.model (List.replicate n 0) [] (by simp)
    (.inr (by simp; omega))
  have h0 : (List.replicate n (0 : Nat)).map Int.ofNat = List.replicate n (0 : Int) := by simp
  rw [h0] at hc hcl
  -- the exact state
  have hw0 := hw
  simp only [FullMixture.init, FullMixture.raw] at hw
  rw [distAssert0_of hn, Res.ok_bind, hcl, Res.ok_bind,
      distAssert0_of (by simp [PitmanYor.Cached.canon]), Res.ok_bind] at hw
  obtain ⟨t, ht, hw⟩ := Res.bind_eq_ok.mp hw
  obtain ⟨fsx, hfsx, hw⟩ := Res.bind_eq_ok.mp hw
  rw [Res.pure_eq, Res.ok.injEq] at hw
  have hsz : List.replicate n 0 = ls.map fun x => x.2.card :=
    canon_sizes (w := w) (by rw [← hw]) hco.clus
  -- the features
  have hfs : ∀ f ∈ Y.feats.map (fun f => (f, (⟨[], f.fresh⟩ : MixtureSlave S' G))),
      ∃ b : FeatureModel R S' G V (Single lib) × MixtureSlave S' G, (do
        let s ← FullMixture.addGroups Y.X.lvl f.1 n ⟨[], f.2.scorer⟩
        let s ← s.init f.1.vs
        return (f.1, s) : Res _) = .ok b ∧ (b.1 = f.1 ∧
          b.2.groups = List.replicate n f.1.ops.init ∧
          MixtureSlave.Laws Y.X.lvl b.1.ops b.1.vs Y.X.Sm (Y.Coh b.1) ∧
          Y.Coh b.1 b.2.scorer b.2.groups) := by
    intro f' hf'
    obtain ⟨f, hf, rfl⟩ := List.mem_map.mp hf'
    obtain ⟨fx, -, hN⟩ : ∃ fx ∈ Y.X.feats, SNear Y.X.lvl f fx Y.X.Sm (Y.Coh f) (Y.sc f) Y.err
        (Y.X.dat fx) (Y.X.vals fx univ.val) := by
      exact forall₂_left hY.near hf
    have L := hN.cache
    obtain ⟨m1, h1, h2, h3⟩ := FullMixture.addGroups_of L n ⟨[], f.fresh⟩ hN.fresh
    obtain ⟨m2, h4, h5, h6⟩ := L.init m1 h3
    refine ⟨(f, m2), ?_, rfl, by rw [h5]; simpa using h2, L, h6⟩
    simp only
    rw [h1, Res.ok_bind, h4]
    rfl
  obtain ⟨fs, hfs, hall⟩ := mapM_exists hfs
  have hmap : fs.map Prod.fst = Y.feats ∧
      fs.map (fun f => (FullMixture.feature Y.X.rows f.1, f.2.groups)) =
      Y.feats.map (fun f => (FullMixture.feature Y.X.rows f, List.replicate n f.ops.init)) := by
    clear hfs
    generalize Y.feats = F at hall
    induction F generalizing fs with
    | nil => cases hall; exact ⟨rfl, rfl⟩
    | cons f F ih =>
      rw [List.map_cons] at hall
      cases hall with
      | cons h ht =>
        obtain ⟨e1, e2⟩ := ih _ ht
        simp only [List.map_cons]
        rw [e1, e2, h.1, h.2.1]
        exact ⟨rfl, rfl⟩
  have hmapx : w.features.map (fun f => (FullMixture.feature Y.X.rows f.1, f.2.groups)) =
      Y.X.feats.map (fun f => (FullMixture.feature Y.X.rows f, List.replicate n f.ops.init)) := by
    obtain ⟨W, _, hW, hrep⟩ := World.rep_init (S := fun _ => Y.X.Sm) hX.summ Y.X.lvl n hn hb
    have key : ∀ f ∈ Y.X.feats.map (fun f => (f, (⟨[], f.fresh⟩ : MixtureSlave S G))),
        ∃ b : FeatureModel R S G V XR × MixtureSlave S G, (do
        let s ← FullMixture.addGroups Y.X.lvl f.1 n ⟨[], f.2.scorer⟩
        let s ← s.init f.1.vs
        return (f.1, s) : Res _) = .ok b ∧ (b.1 = f.1 ∧
          b.2.groups = List.replicate n f.1.ops.init) := by
      intro f' hf'
      obtain ⟨f, hf, rfl⟩ := List.mem_map.mp hf'
      have L := (hX.sound f hf).cache
      obtain ⟨m1, h1, h2, h3⟩ := FullMixture.addGroups_of L n ⟨[], f.fresh⟩ (hX.sound f hf).fresh
      obtain ⟨m2, h4, h5, h6⟩ := L.init m1 h3
      refine ⟨(f, m2), ?_, rfl, by rw [h5]; simpa using h2⟩
      simp only
      rw [h1, Res.ok_bind, h4]
      rfl
    obtain ⟨fsy, hfsy, hally⟩ := mapM_exists key
    rw [hfsy, Res.ok.injEq] at hfsx
    subst hfsx
    have : w.features = fsy := by rw [← hw]
    rw [this]
    clear hfsy key this hw hW hrep hw0 hco hsz hfs hmap ht
    generalize Y.X.feats = F at hally
    induction F generalizing fsy with
    | nil => cases hally; rfl
    | cons f F ih =>
      rw [List.map_cons] at hally
      cases hally with
      | cons h ht =>
        simp only [List.map_cons]
        rw [ih _ ht, h.1, h.2]
  have hww : Y.feats.map (fun f => (FullMixture.feature Y.X.rows f, List.replicate n f.ops.init)) =
      Y.X.feats.map (fun f => (FullMixture.feature Y.X.rows f, List.replicate n f.ops.init)) := by
    refine forall₂_map hY.near fun f' f h1 => ?_
    rw [feature_eq h1, h1.ops]
  refine ⟨⟨PitmanYor.Cached.canon Y.model (List.replicate n 0), fs, t⟩, w, ls, ?_,
    ⟨hco, ?_, by rw [hsz], hmap.1, ?_⟩, by rw [← hsz]; simp⟩
  · simp only [FullMixture.init, FullMixture.raw]
    rw [distAssert0_of hn, Res.ok_bind, hc, Res.ok_bind,
      distAssert0_of (by simp [PitmanYor.Cached.canon]), Res.ok_bind, ht, Res.ok_bind, hfs]
    rfl
  · unfold FullMixture.toWorld
    simp only
    rw [hmap.2, hww, ← hmapx, ← hw]
    rfl
  · intro f hf
    have : ∀ b ∈ fs, MixtureSlave.Laws Y.X.lvl b.1.ops b.1.vs Y.X.Sm (Y.Coh b.1) ∧
          Y.Coh b.1 b.2.scorer b.2.groups := by
      clear hfs hmap hf hww
      generalize Y.feats.map (fun f => (f, (⟨[], f.fresh⟩ : MixtureSlave S' G))) = F at hall
      induction hall with
      | nil => simp
      | cons h _ ih =>
        intro b hb
        rcases List.mem_cons.mp hb with rfl | hb
        · exact h.2.2
        · exact ih b hb
    exact this f hf

/-! ### Invariant -/

/-- A state in which everything agrees, at most `k` groups have been created and `E` groups are
empty. -/
def Inv (Y : SCtx lib ι R S S' G V) (st : Inference ι R S' G V (Single lib)) (k E : Nat) : Prop :=
  ∃ w s ls, Y.Coherent st.mixture w st.assignments s ls ∧ s.created ≤ k ∧
    (ls.map fun x => x.2.card).count 0 = E

omit [DecidableEq V] in
theorem Inv.mono {st : Inference ι R S' G V (Single lib)} {k k' E : Nat} (h : Y.Inv st k E)
    (hk : k ≤ k') : Y.Inv st k' E := by
  obtain ⟨w, s, ls, h1, h2, h3⟩ := h
  exact ⟨w, s, ls, h1, h2.trans hk, h3⟩

omit [DecidableEq V] in
theorem Coherent.size (h : Y.Coherent w' w a s ls) :
    w'.size = ls.length ∧ ls.length = (clusters a).card + (ls.map fun x => x.2.card).count 0 := by
  constructor
  · rw [FullMixture.size, h.clus, PitmanYor.Cached.canon, Driver.ofSizes_counts]
    simp
  · have h1 := h.exact.nonempty_count
    have h2 := List.count_le_length (a := 0) (l := ls.map fun x => x.2.card)
    rw [List.length_map] at h1 h2
    omega

omit [DecidableEq V] in
theorem Inv.size {st : Inference ι R S' G V (Single lib)} {k E : Nat} (h : Y.Inv st k E) :
    st.mixture.size = (clusters st.assignments).card + E := by
  obtain ⟨w, s, ls, h1, h2, h3⟩ := h
  obtain ⟨e1, e2⟩ := h1.size
  omega

theorem inv_init (hY : Y.Ok) {n : Nat} (hn : 1 ≤ n) (hb : n ≤ 4294967296) :
    ∃ w, (FullMixture.raw Y.feats).init Y.X.lvl Y.model n = .ok w ∧
      Y.Inv ⟨w, fun _ => none⟩ n n := by
  obtain ⟨w', w, ls, h1, h2, h3⟩ := coherent_init hY hn hb
  exact ⟨w', h1, _, _, ls, h2, le_refl n, h3⟩

theorem Inv.takeOut (hY : Y.Ok) {st : Inference ι R S' G V (Single lib)} {k E : Nat}
    (h : Y.Inv st k E) {i : ι} {g : Nat} (hi : st.assignments i = some g) :
    ∃ st', st.takeOut Y.X.lvl Y.model Y.X.rows i = .ok st' ∧ Y.Inv st' k E ∧
      st'.assignments = Inference.assign st.assignments i none := by
  obtain ⟨w, s, ls, h, hk, hE⟩ := h
  obtain ⟨p, w1', w1, s1, ls1, h1, h2, h3, h4, h5⟩ := h.remove hY hi
  refine ⟨⟨w1', Inference.assign st.assignments i none⟩, ?_, ⟨w1, s1, ls1, h3, by omega, by omega⟩,
    rfl⟩
  have hl : st.lookup i = .ok g := by rw [Inference.lookup, hi]
  rw [Inference.takeOut, hl, Res.ok_bind, h1, Res.ok_bind, h2]
  rfl

theorem reached_inv (hY : Y.Ok) {st : Inference ι R S' G V (Single lib)} {k : Nat}
    (h : Reached Y.X.lvl Y.model Y.feats Y.X.rows st k) (hk : k ≤ 4294967296) :
    ∃ E, Y.Inv st k E := by
  have hplace : ∀ {st st' : Inference ι R S' G V (Single lib)} {k p E : Nat} {i : ι} {scored : Bool},
      Y.Inv st k E → st.assignments i = none → k + 1 ≤ 4294967296 →
      st.place Y.X.lvl Y.model (fun _ s => .ok (p, s)) scored Y.X.rows i () = .ok (st', ()) →
      Y.Inv st' (k + 1) E := by
    intro st st' k p E i scored h hi hk he
    unfold Inference.place at he
    obtain ⟨sc, hsc, he⟩ := Res.bind_eq_ok.mp he
    simp only [Res.ok_bind] at he
    obtain ⟨w, hw, he⟩ := Res.bind_eq_ok.mp he
    obtain ⟨g, hg, he⟩ := Res.bind_eq_ok.mp he
    rw [Res.pure_eq, Res.ok.injEq, Prod.mk.injEq] at he
    obtain ⟨he, _⟩ := he
    subst he
    obtain ⟨v, s, ls, h, hs, hE⟩ := h
    have hp : p < ls.length := by
      have hw' := hw
      unfold FullMixture.addValue PitmanYor.Cached.addValue Driver.addValue at hw'
      simp only [Res.bind_eq_ok] at hw'
      obtain ⟨_, ⟨_, ⟨_, _, _, _, old, hold, _⟩, _⟩, _⟩ := hw'
      rw [getAt_eq_ok, h.clus, PitmanYor.Cached.canon, Driver.ofSizes_counts] at hold
      simpa using (List.getElem?_eq_some_iff.mp hold).1
    obtain ⟨w1', w1, s1, ls1, h1, h2, h3, h4, h5⟩ :=
      h.add hY hi (List.getElem?_eq_getElem hp) (by omega)
    rw [h1, Res.ok.injEq] at hw
    subst hw
    rw [h2, Res.ok.injEq] at hg
    subst hg
    exact ⟨w1, s1, ls1, h3, by omega, by omega⟩
  have htake : ∀ {st st' : Inference ι R S' G V (Single lib)} {k E : Nat} {i : ι},
      Y.Inv st k E → st.takeOut Y.X.lvl Y.model Y.X.rows i = .ok st' →
      Y.Inv st' k E ∧ st'.assignments i = none := by
    intro st st' k E i h he
    cases hi : st.assignments i with
    | none =>
      unfold Inference.takeOut Inference.lookup at he
      rw [hi] at he
      exact absurd he (by simp [bind, Res.bind])
    | some g =>
      obtain ⟨st1, h1, h2, h3⟩ := h.takeOut hY hi
      rw [h1, Res.ok.injEq] at he
      subst he
      exact ⟨h2, by rw [h3]; simp [Inference.assign]⟩
  induction h with
  | @init n w he =>
    have hn : 1 ≤ n := by
      by_contra hn
      unfold FullMixture.init at he
      rw [distAssert0_of_not hn] at he
      exact absurd he (by simp [bind, Res.bind])
    obtain ⟨w', h1, h2⟩ := inv_init hY hn hk
    rw [h1, Res.ok.injEq] at he
    subst he
    exact ⟨n, h2⟩
  | place _ hi he ih =>
    obtain ⟨E, h⟩ := ih (by omega)
    exact ⟨E, hplace h hi hk he⟩
  | takeOut _ he ih =>
    obtain ⟨E, h⟩ := ih hk
    exact ⟨E, (htake h he).1⟩
  | @resample st k i p st' _ he ih =>
    obtain ⟨E, hinv⟩ := ih (by omega)
    cases hi : st.assignments i with
    | none =>
      unfold Inference.resample Inference.lookup at he
      rw [hi] at he
      exact absurd he (by simp [bind, Res.bind])
    | some g =>
      obtain ⟨st1, h1, h2, h3⟩ := hinv.takeOut hY hi
      rw [Ctx.resample_eq h1] at he
      exact ⟨E, hplace h2 (by rw [h3]; simp [Inference.assign]) hk he⟩

end SCtx

end Dist
