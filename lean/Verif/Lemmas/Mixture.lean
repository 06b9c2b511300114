import Verif.Spec.Mixture
import Verif.Lemmas.IdTracker

/-! # Value caches that mirror the groups -/

namespace Dist

open Spec FloatOps FloatNotation

variable {S G V F : Type}

/-- What a value scorer must guarantee to keep a relation `R` between its cache and the
groups, all of them satisfying `P`. -/
structure CacheLaws (lvl : Nat) (ops : GroupOps G V) (vs : ValueScorerOps S G V F)
    (P : G → Prop) (R : S → List G → Prop) : Prop where
  valid : ∀ s gs, R s gs → ∀ g ∈ gs, P g
  init : ∀ s gs, (∀ g ∈ gs, P g) → ∃ s₁ s₂, vs.resize s gs.length = .ok s₁ ∧ vs.updateAll s₁ gs = .ok s₂ ∧ R s₂ gs
  addGroup : ∀ s gs, R s gs → ∃ s₁ s₂, vs.addGroup s = .ok s₁ ∧
    vs.updateGroup s₁ gs.length ops.init = .ok s₂ ∧ R s₂ (gs ++ [ops.init])
  removeGroup : ∀ s gs i, R s gs → i < gs.length →
    ∃ s', vs.removeGroup s i = .ok s' ∧ R s' (swapRemove gs i)
  add : ∀ s gs i g v g', R s gs → gs[i]? = some g → ops.add g v = .ok g' →
    ∃ s', vs.addValue s i g' v = .ok s' ∧ R s' (gs.set i g')
  remove : ∀ s gs i g v g', R s gs → gs[i]? = some g → ops.remove g v = .ok g' →
    ∃ s', vs.removeValue s i g' v = .ok s' ∧ R s' (gs.set i g')

theorem groupAt_of {lvl i : Nat} {gs : List G} {g : G} (h : gs[i]? = some g) :
    SlaveGroups.groupAt lvl gs i = .ok g := by
  obtain ⟨hi, rfl⟩ := List.getElem?_eq_some_iff.mp h
  rw [SlaveGroups.groupAt, distAssert_of hi, Res.ok_bind, getAt_of hi]

theorem runMixture_coherent {lvl : Nat} {ops : GroupOps G V} {vs : ValueScorerOps S G V F}
    {P : G → Prop} {R : S → List G → Prop} (L : CacheLaws lvl ops vs P R) (h : List (MixOp V)) :
    ∀ (m : MixtureSlave S G) (gs' : List G), R m.scorer m.groups →
      groupsAfter ops m.groups h = some gs' →
      ∃ m', runMixture lvl ops vs m h = .ok m' ∧ m'.groups = gs' ∧ R m'.scorer gs' := by
  induction h with
  | nil =>
    intro m gs' hR hg
    simp only [groupsAfter, Option.some.injEq] at hg
    exact ⟨m, rfl, hg, hg ▸ hR⟩
  | cons op h ih =>
    intro m gs' hR hg
    simp only [groupsAfter] at hg
    cases hop : op.groups ops m.groups with
    | none => rw [hop] at hg; simp at hg
    | some gs₁ =>
      rw [hop] at hg
      simp only at hg
      have key : ∀ s₁, R s₁ gs₁ → ∃ m', runMixture lvl ops vs ⟨gs₁, s₁⟩ h = .ok m' ∧
          m'.groups = gs' ∧ R m'.scorer gs' := fun s₁ h₁ => ih ⟨gs₁, s₁⟩ gs' h₁ hg
      cases op with
      | init =>
        simp only [MixOp.groups, Option.some.injEq] at hop
        subst hop
        obtain ⟨s₁, s₂, e₁, e₂, hr⟩ := L.init m.scorer m.groups (L.valid _ _ hR)
        simp only [runMixture, MixtureSlave.init, e₁, e₂, Res.ok_bind, Res.pure_eq]
        exact key s₂ hr
      | addGroup =>
        simp only [MixOp.groups, Option.some.injEq] at hop
        subst hop
        obtain ⟨s₁, s₂, e₁, e₂, hr⟩ := L.addGroup m.scorer m.groups hR
        simp only [runMixture, MixtureSlave.addGroup, SlaveGroups.addGroup, packedAdd, e₁,
          Res.ok_bind, Res.pure_eq]
        rw [groupAt_of (g := ops.init) (by simp)]
        simp only [Res.ok_bind, e₂]
        exact key s₂ hr
      | removeGroup i =>
        simp only [MixOp.groups] at hop
        split_ifs at hop with hi
        simp only [Option.some.injEq] at hop
        subst hop
        obtain ⟨s₁, e₁, hr⟩ := L.removeGroup m.scorer m.groups i hR hi
        simp only [runMixture, MixtureSlave.removeGroup, SlaveGroups.removeGroup,
          packedRemove_eq lvl hi, e₁, Res.ok_bind, Res.pure_eq]
        exact key s₁ hr
      | add i v =>
        simp only [MixOp.groups] at hop
        cases hgi : m.groups[i]? with
        | none => rw [hgi] at hop; simp at hop
        | some g =>
          rw [hgi] at hop
          cases hadd : ops.add g v with
          | ok g' =>
            simp only [hadd, Option.some.injEq] at hop
            subst hop
            have hi := (List.getElem?_eq_some_iff.mp hgi).1
            obtain ⟨s₁, e₁, hr⟩ := L.add m.scorer m.groups i g v g' hR hgi hadd
            simp only [runMixture, MixtureSlave.addValue, SlaveGroups.addValue,
              groupAt_of hgi, hadd, setAt_of hi, Res.ok_bind]
            rw [groupAt_of (g := g') (by simp [hi])]
            simp only [Res.ok_bind, e₁, Res.pure_eq]
            exact key s₁ hr
          | fail => simp [hadd] at hop
          | ub => simp [hadd] at hop
      | remove i v =>
        simp only [MixOp.groups] at hop
        cases hgi : m.groups[i]? with
        | none => rw [hgi] at hop; simp at hop
        | some g =>
          rw [hgi] at hop
          cases hadd : ops.remove g v with
          | ok g' =>
            simp only [hadd, Option.some.injEq] at hop
            subst hop
            have hi := (List.getElem?_eq_some_iff.mp hgi).1
            obtain ⟨s₁, e₁, hr⟩ := L.remove m.scorer m.groups i g v g' hR hgi hadd
            simp only [runMixture, MixtureSlave.removeValue, SlaveGroups.removeValue,
              groupAt_of hgi, hadd, setAt_of hi, Res.ok_bind]
            rw [groupAt_of (g := g') (by simp [hi])]
            simp only [Res.ok_bind, e₁, Res.pure_eq]
            exact key s₁ hr
          | fail => simp [hadd] at hop
          | ub => simp [hadd] at hop

/-- The whole property from the laws and the scores in related states. -/
theorem mixture_scores {lvl : Nat} {ops : GroupOps G V}
    {vs : ValueScorerOps S G V F} {P : G → Prop} {R : S → List G → Prop}
    (L : CacheLaws lvl ops vs P R) (Q : MixtureSlave S G → Prop)
    (hs : ∀ m : MixtureSlave S G, R m.scorer m.groups → Q m)
    (m : MixtureSlave S G) (hP : ∀ g ∈ m.groups, P g) (h : List (MixOp V)) (gs' : List G)
    (hg : groupsAfter ops m.groups h = some gs') :
    ∃ m', runMixture lvl ops vs m (.init :: h) = .ok m' ∧ m'.groups = gs' ∧
      Q m' := by
  obtain ⟨s₁, s₂, e₁, e₂, hr⟩ := L.init m.scorer m.groups hP
  obtain ⟨m', e, hm, hR⟩ := runMixture_coherent L h ⟨m.groups, s₂⟩ gs' hr hg
  refine ⟨m', ?_, hm, hs m' (by rw [hm]; exact hR)⟩
  simp only [runMixture, MixtureSlave.init, e₁, e₂, Res.ok_bind, Res.pure_eq]
  exact e

/-! ## Vectors that are the image of the groups -/

theorem swapRemove_map_list {β : Type} (f : G → β) (gs : List G) (i : Nat) :
    swapRemove (gs.map f) i = (swapRemove gs i).map f := by
  unfold swapRemove
  by_cases h : gs = []
  · simp [h]
  · have h' : gs.map f ≠ [] := by simpa using h
    simp only [h, h', dite_false]
    rw [List.getLast_map, ← List.map_set, List.map_dropLast]

theorem setAt_map {β : Type} (f : G → β) {gs : List G} {i : Nat} {g : G} (g' : G)
    (h : gs[i]? = some g) : setAt (gs.map f) i (f g') = .ok ((gs.set i g').map f) := by
  have hi := (List.getElem?_eq_some_iff.mp h).1
  rw [setAt_of (by simpa using hi), List.map_set]

theorem setAt_push {β : Type} (f : G → β) (gs : List G) (g : G) (z : β) :
    setAt (packedAdd (gs.map f) z) gs.length (f g) = .ok ((gs ++ [g]).map f) := by
  rw [packedAdd, setAt_of (by simp), List.set_append_right _ _ (by simp)]
  simp

theorem packedRemove_map {β : Type} (lvl : Nat) (f : G → β) {gs : List G} {i : Nat}
    (h : i < gs.length) :
    packedRemove lvl (gs.map f) i = .ok ((swapRemove gs i).map f) := by
  rw [packedRemove_eq lvl (by simpa using h), swapRemove_map_list]

theorem setAt_fill {β : Type} (f : G → β) (xs : List G) (g : G) (o : β) (os : List β) :
    setAt (xs.map f ++ o :: os) xs.length (f g) = .ok ((xs ++ [g]).map f ++ os) := by
  rw [setAt_of (by simp), List.set_append_right _ _ (by simp)]
  simp

theorem resizeWith_length {β : Type} (v : List β) (n : Nat) (x : β) :
    (resizeWith v n x).length = n := by
  simp [resizeWith]; omega

theorem getAt_map {β : Type} (f : G → β) {gs : List G} {i : Nat} {g : G}
    (h : gs[i]? = some g) : getAt (gs.map f) i = .ok (f g) := by
  rw [getAt_eq_ok, List.getElem?_map, h]; rfl

theorem accumulate_map [FloatOps F] (f : Nat → Res F) (φ : G → F) (gs : List G) :
    ∀ (i : Nat) (accum : List F), accum.length = gs.length →
      (∀ k g, gs[k]? = some g → f (i + k) = .ok (φ g)) →
      accumulate f i accum = .ok (List.zipWith (fun a g => FloatOps.add a (φ g)) accum gs) := by
  induction gs with
  | nil => intro i accum h _; rw [List.length_eq_zero_iff.mp h]; rfl
  | cons g gs ih =>
    intro i accum h hf
    cases accum with
    | nil => simp at h
    | cons a as =>
      simp only [accumulate]
      rw [show f i = .ok (φ g) from hf 0 g rfl, Res.ok_bind,
        ih (i + 1) as (by simpa using h) (fun k g' hk => by
          rw [show i + 1 + k = i + (k + 1) by omega]; exact hf (k + 1) g' (by simpa using hk))]
      rfl

theorem mapM_ok {α β : Type} (f : α → Res β) (φ : α → β) (l : List α)
    (h : ∀ x ∈ l, f x = .ok (φ x)) : l.mapM f = .ok (l.map φ) := by
  induction l with
  | nil => rfl
  | cons a l ih =>
    rw [List.mapM_cons, h a (by simp), Res.ok_bind, ih (fun x hx => h x (by simp [hx]))]
    rfl

theorem mapM_range {β : Type} (f : Nat → Res β) (φ : G → β) (gs : List G)
    (h : ∀ k g, gs[k]? = some g → f k = .ok (φ g)) :
    (List.range gs.length).mapM f = .ok (gs.map φ) := by
  induction gs using List.reverseRecOn with
  | nil => rfl
  | append_singleton gs g ih =>
    rw [List.length_append, List.length_singleton, List.range_succ, List.mapM_append,
      ih (fun k g' hk => h k g' (by
        rw [List.getElem?_append_left (List.getElem?_eq_some_iff.mp hk).1]; exact hk)),
      Res.ok_bind, List.mapM_cons, h gs.length g (by simp)]
    simp

end Dist
