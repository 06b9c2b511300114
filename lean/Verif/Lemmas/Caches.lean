import Verif.Lemmas.Mixture
import Verif.Model.BB
import Verif.Model.GP
import Verif.Model.BNB
import Verif.Model.NICH

/-! # The caches of the fixed-size models are images of the groups -/

namespace Dist

open Spec FloatOps FloatNotation

variable {F : Type} [FloatOps F]

theorem scoreValueGroup_of {S G V : Type} {lvl : Nat} {vs : ValueScorerOps S G V F}
    {m : MixtureSlave S G} {i : Nat} {g : G} (v : V) (h : m.groups[i]? = some g) :
    m.scoreValueGroup lvl vs i v = vs.scoreValueGroup m.scorer m.groups i v := by
  rw [MixtureSlave.scoreValueGroup, distAssert_of (List.getElem?_eq_some_iff.mp h).1, Res.ok_bind]

theorem scoreValue_of {S G V : Type} {lvl : Nat} {vs : ValueScorerOps S G V F}
    {m : MixtureSlave S G} (v : V) {accum : List F} (h : accum.length = m.groups.length) :
    m.scoreValue lvl vs v accum = vs.scoreValue m.scorer m.groups v accum := by
  rw [MixtureSlave.scoreValue, distAssert_of h, Res.ok_bind]

namespace BB

def Mirrors (sh : Shared F) (c : Cache F) (gs : List Group) : Prop :=
  c.heads = gs.map (fun g => (Scorer.init sh g).headsScore) ∧
    c.tails = gs.map (fun g => (Scorer.init sh g).tailsScore)

theorem mirrors_update (sh : Shared F) {c : Cache F} {gs : List Group} (h : Mirrors sh c gs)
    {i : Nat} {g : Group} (g' : Group) (hi : gs[i]? = some g) :
    ∃ c', updateGroup sh c i g' = .ok c' ∧ Mirrors sh c' (gs.set i g') := by
  obtain ⟨h1, h2⟩ := h
  refine ⟨⟨(gs.set i g').map _, (gs.set i g').map _⟩, ?_, rfl, rfl⟩
  simp only [updateGroup, h1, h2]
  rw [setAt_map (fun g => (Scorer.init sh g).headsScore) g' hi, Res.ok_bind,
    setAt_map (fun g => (Scorer.init sh g).tailsScore) g' hi]
  rfl

theorem laws (lvl : Nat) (sh : Shared F) :
    CacheLaws lvl ops (valueScorer lvl sh) (fun _ => True) (Mirrors sh) where
  valid _ _ _ _ _ := trivial
  init s gs _ := ⟨_, _, rfl, rfl, rfl, rfl⟩
  addGroup s gs h := by
    obtain ⟨h1, h2⟩ := h
    refine ⟨_, ⟨(gs ++ [ops.init]).map _, (gs ++ [ops.init]).map _⟩, rfl, ?_, rfl, rfl⟩
    simp only [valueScorer, updateGroup, h1, h2]
    rw [setAt_push (fun g => (Scorer.init sh g).headsScore), Res.ok_bind,
      setAt_push (fun g => (Scorer.init sh g).tailsScore)]
    rfl
  removeGroup s gs i h hi := by
    obtain ⟨h1, h2⟩ := h
    refine ⟨⟨(swapRemove gs i).map _, (swapRemove gs i).map _⟩, ?_, rfl, rfl⟩
    simp only [valueScorer, h1, h2]
    rw [packedRemove_map lvl (fun g => (Scorer.init sh g).headsScore) hi, Res.ok_bind,
      packedRemove_map lvl (fun g => (Scorer.init sh g).tailsScore) hi]
    rfl
  add s gs i g v g' h hi _ := mirrors_update sh h g' hi
  remove s gs i g v g' h hi _ := mirrors_update sh h g' hi

theorem mirrors_scores (lvl : Nat) (sh : Shared F) (m : MixtureSlave (Cache F) Group)
    (h : Mirrors sh m.scorer m.groups) (v : Bool) :
    ScoresLike lvl (valueScorer lvl sh) m v (fun g => g.scoreValue sh v) := by
  obtain ⟨h1, h2⟩ := h
  constructor
  · intro i g hi
    rw [scoreValueGroup_of v hi]
    cases v
    · simp only [valueScorer, h2, Bool.false_eq_true, if_false]
      rw [getAt_map _ hi]; rfl
    · simp only [valueScorer, h1, if_true]
      rw [getAt_map _ hi]; rfl
  · intro accum ha
    rw [scoreValue_of v ha]
    cases v
    · simp only [valueScorer, h2, Bool.false_eq_true, if_false, vectorAdd]
      exact accumulate_map _ _ m.groups 0 accum ha (fun k g hk => by
        rw [Nat.zero_add, getAt_map _ hk]; rfl)
    · simp only [valueScorer, h1, if_true, vectorAdd]
      exact accumulate_map _ _ m.groups 0 accum ha (fun k g hk => by
        rw [Nat.zero_add, getAt_map _ hk]; rfl)

end BB

namespace GP

def Mirrors (sh : Shared F) (c : Cache F) (gs : List (Group F)) : Prop :=
  c.score = gs.map (fun g => (Scorer.init sh g).score) ∧
    c.postAlpha = gs.map (fun g => (Scorer.init sh g).postAlpha) ∧
    c.scoreCoeff = gs.map (fun g => (Scorer.init sh g).scoreCoeff)

theorem mirrors_update (sh : Shared F) {c : Cache F} {gs : List (Group F)} (h : Mirrors sh c gs)
    {i : Nat} {g : Group F} (g' : Group F) (hi : gs[i]? = some g) :
    ∃ c', updateGroup sh c i g' = .ok c' ∧ Mirrors sh c' (gs.set i g') := by
  obtain ⟨h1, h2, h3⟩ := h
  refine ⟨⟨(gs.set i g').map _, (gs.set i g').map _, (gs.set i g').map _⟩, ?_, rfl, rfl, rfl⟩
  simp only [updateGroup, h1, h2, h3]
  rw [setAt_map (fun g => (Scorer.init sh g).score) g' hi, Res.ok_bind,
    setAt_map (fun g => (Scorer.init sh g).postAlpha) g' hi, Res.ok_bind,
    setAt_map (fun g => (Scorer.init sh g).scoreCoeff) g' hi]
  rfl

theorem updateAllLoop_eq (sh : Shared F) (gs : List (Group F)) :
    ∀ (xs : List (Group F)) (o₁ o₂ o₃ : List F), o₁.length = gs.length → o₂.length = gs.length →
      o₃.length = gs.length →
      updateAllLoop sh ⟨xs.map (fun g => (Scorer.init sh g).score) ++ o₁,
        xs.map (fun g => (Scorer.init sh g).postAlpha) ++ o₂,
        xs.map (fun g => (Scorer.init sh g).scoreCoeff) ++ o₃⟩ xs.length gs =
      .ok ⟨(xs ++ gs).map (fun g => (Scorer.init sh g).score),
        (xs ++ gs).map (fun g => (Scorer.init sh g).postAlpha),
        (xs ++ gs).map (fun g => (Scorer.init sh g).scoreCoeff)⟩ := by
  induction gs with
  | nil =>
    intro xs o₁ o₂ o₃ h1 h2 h3
    rw [List.length_eq_zero_iff.mp h1, List.length_eq_zero_iff.mp h2,
      List.length_eq_zero_iff.mp h3]
    simp [updateAllLoop]
  | cons g gs ih =>
    intro xs o₁ o₂ o₃ h1 h2 h3
    obtain ⟨a₁, o₁, rfl⟩ := List.exists_cons_of_length_eq_add_one h1
    obtain ⟨a₂, o₂, rfl⟩ := List.exists_cons_of_length_eq_add_one h2
    obtain ⟨a₃, o₃, rfl⟩ := List.exists_cons_of_length_eq_add_one h3
    simp only [updateAllLoop, updateGroup]
    rw [setAt_fill (fun g => (Scorer.init sh g).score), Res.ok_bind,
      setAt_fill (fun g => (Scorer.init sh g).postAlpha), Res.ok_bind,
      setAt_fill (fun g => (Scorer.init sh g).scoreCoeff), Res.ok_bind, Res.pure_eq, Res.ok_bind,
      show xs.length + 1 = (xs ++ [g]).length by simp,
      ih (xs ++ [g]) o₁ o₂ o₃ (by simpa using h1) (by simpa using h2) (by simpa using h3)]
    simp

theorem laws (lvl : Nat) (sh : Shared F) :
    CacheLaws lvl ops (valueScorer lvl sh) (fun _ => True) (Mirrors sh) where
  valid _ _ _ _ _ := trivial
  init s gs _ := ⟨_, _, rfl, updateAllLoop_eq sh gs [] _ _ _ (resizeWith_length _ _ _)
    (resizeWith_length _ _ _) (resizeWith_length _ _ _), rfl, rfl, rfl⟩
  addGroup s gs h := by
    obtain ⟨h1, h2, h3⟩ := h
    refine ⟨_, ⟨(gs ++ [ops.init]).map _, (gs ++ [ops.init]).map _, (gs ++ [ops.init]).map _⟩,
      rfl, ?_, rfl, rfl, rfl⟩
    simp only [valueScorer, updateGroup, h1, h2, h3]
    rw [setAt_push (fun g => (Scorer.init sh g).score), Res.ok_bind,
      setAt_push (fun g => (Scorer.init sh g).postAlpha), Res.ok_bind,
      setAt_push (fun g => (Scorer.init sh g).scoreCoeff)]
    rfl
  removeGroup s gs i h hi := by
    obtain ⟨h1, h2, h3⟩ := h
    refine ⟨⟨(swapRemove gs i).map _, (swapRemove gs i).map _, (swapRemove gs i).map _⟩,
      ?_, rfl, rfl, rfl⟩
    simp only [valueScorer, h1, h2, h3]
    rw [packedRemove_map lvl (fun g => (Scorer.init sh g).score) hi, Res.ok_bind,
      packedRemove_map lvl (fun g => (Scorer.init sh g).postAlpha) hi, Res.ok_bind,
      packedRemove_map lvl (fun g => (Scorer.init sh g).scoreCoeff) hi]
    rfl
  add s gs i g v g' h hi _ := mirrors_update sh h g' hi
  remove s gs i g v g' h hi _ := mirrors_update sh h g' hi

theorem mirrors_scores (lvl : Nat) (sh : Shared F) (m : MixtureSlave (Cache F) (Group F))
    (h : Mirrors sh m.scorer m.groups) (v : UInt32) :
    ScoresLike lvl (valueScorer lvl sh) m v (fun g => g.scoreValue sh v) := by
  obtain ⟨h1, h2, h3⟩ := h
  constructor
  · intro i g hi
    rw [scoreValueGroup_of v hi]
    simp only [valueScorer, h1, h2, h3]
    rw [getAt_map _ hi, Res.ok_bind, getAt_map _ hi, Res.ok_bind, getAt_map _ hi]; rfl
  · intro accum ha
    rw [scoreValue_of v ha]
    simp only [valueScorer, h1, h2, h3, ha]
    rw [mapM_range _ (fun g => lgamma ((Scorer.init sh g).postAlpha + u32 v)) m.groups
      (fun k g hk => by rw [getAt_map _ hk]; rfl), Res.ok_bind]
    exact accumulate_map _ _ m.groups 0 accum ha (fun k g hk => by
      rw [Nat.zero_add, getAt_map _ hk, Res.ok_bind, getAt_map _ hk, Res.ok_bind, getAt_map _ hk]
      rfl)

end GP

namespace BNB

def Mirrors (sh : Shared F) (c : Cache F) (gs : List Group) : Prop :=
  c.score = gs.map (fun g => (Scorer.init sh g).score) ∧
    c.postBeta = gs.map (fun g => (Scorer.init sh g).postBeta) ∧
    c.alpha = gs.map (fun g => (Scorer.init sh g).alpha)

theorem mirrors_update (sh : Shared F) {c : Cache F} {gs : List Group} (h : Mirrors sh c gs)
    {i : Nat} {g : Group} (g' : Group) (hi : gs[i]? = some g) :
    ∃ c', updateGroup sh c i g' = .ok c' ∧ Mirrors sh c' (gs.set i g') := by
  obtain ⟨h1, h2, h3⟩ := h
  refine ⟨⟨(gs.set i g').map _, (gs.set i g').map _, (gs.set i g').map _⟩, ?_, rfl, rfl, rfl⟩
  simp only [updateGroup, h1, h2, h3]
  rw [setAt_map (fun g => (Scorer.init sh g).score) g' hi, Res.ok_bind,
    setAt_map (fun g => (Scorer.init sh g).postBeta) g' hi, Res.ok_bind,
    setAt_map (fun g => (Scorer.init sh g).alpha) g' hi]
  rfl

theorem updateAllLoop_eq (sh : Shared F) (gs : List Group) :
    ∀ (xs : List Group) (o₁ o₂ o₃ : List F), o₁.length = gs.length → o₂.length = gs.length →
      o₃.length = gs.length →
      updateAllLoop sh ⟨xs.map (fun g => (Scorer.init sh g).score) ++ o₁,
        xs.map (fun g => (Scorer.init sh g).postBeta) ++ o₂,
        xs.map (fun g => (Scorer.init sh g).alpha) ++ o₃⟩ xs.length gs =
      .ok ⟨(xs ++ gs).map (fun g => (Scorer.init sh g).score),
        (xs ++ gs).map (fun g => (Scorer.init sh g).postBeta),
        (xs ++ gs).map (fun g => (Scorer.init sh g).alpha)⟩ := by
  induction gs with
  | nil =>
    intro xs o₁ o₂ o₃ h1 h2 h3
    rw [List.length_eq_zero_iff.mp h1, List.length_eq_zero_iff.mp h2,
      List.length_eq_zero_iff.mp h3]
    simp [updateAllLoop]
  | cons g gs ih =>
    intro xs o₁ o₂ o₃ h1 h2 h3
    obtain ⟨a₁, o₁, rfl⟩ := List.exists_cons_of_length_eq_add_one h1
    obtain ⟨a₂, o₂, rfl⟩ := List.exists_cons_of_length_eq_add_one h2
    obtain ⟨a₃, o₃, rfl⟩ := List.exists_cons_of_length_eq_add_one h3
    simp only [updateAllLoop, updateGroup]
    rw [setAt_fill (fun g => (Scorer.init sh g).score), Res.ok_bind,
      setAt_fill (fun g => (Scorer.init sh g).postBeta), Res.ok_bind,
      setAt_fill (fun g => (Scorer.init sh g).alpha), Res.ok_bind, Res.pure_eq, Res.ok_bind,
      show xs.length + 1 = (xs ++ [g]).length by simp,
      ih (xs ++ [g]) o₁ o₂ o₃ (by simpa using h1) (by simpa using h2) (by simpa using h3)]
    simp

theorem laws (lvl : Nat) (sh : Shared F) :
    CacheLaws lvl ops (valueScorer lvl sh) (fun _ => True) (Mirrors sh) where
  valid _ _ _ _ _ := trivial
  init s gs _ := ⟨_, _, rfl, updateAllLoop_eq sh gs [] _ _ _ (resizeWith_length _ _ _)
    (resizeWith_length _ _ _) (resizeWith_length _ _ _), rfl, rfl, rfl⟩
  addGroup s gs h := by
    obtain ⟨h1, h2, h3⟩ := h
    refine ⟨_, ⟨(gs ++ [ops.init]).map _, (gs ++ [ops.init]).map _, (gs ++ [ops.init]).map _⟩,
      rfl, ?_, rfl, rfl, rfl⟩
    simp only [valueScorer, updateGroup, h1, h2, h3]
    rw [setAt_push (fun g => (Scorer.init sh g).score), Res.ok_bind,
      setAt_push (fun g => (Scorer.init sh g).postBeta), Res.ok_bind,
      setAt_push (fun g => (Scorer.init sh g).alpha)]
    rfl
  removeGroup s gs i h hi := by
    obtain ⟨h1, h2, h3⟩ := h
    refine ⟨⟨(swapRemove gs i).map _, (swapRemove gs i).map _, (swapRemove gs i).map _⟩,
      ?_, rfl, rfl, rfl⟩
    simp only [valueScorer, h1, h2, h3]
    rw [packedRemove_map lvl (fun g => (Scorer.init sh g).score) hi, Res.ok_bind,
      packedRemove_map lvl (fun g => (Scorer.init sh g).postBeta) hi, Res.ok_bind,
      packedRemove_map lvl (fun g => (Scorer.init sh g).alpha) hi]
    rfl
  add s gs i g v g' h hi _ := mirrors_update sh h g' hi
  remove s gs i g v g' h hi _ := mirrors_update sh h g' hi

theorem mirrors_scores (hcomm : ∀ a b : F, a + b = b + a) (lvl : Nat) (sh : Shared F)
    (m : MixtureSlave (Cache F) Group)
    (h : Mirrors sh m.scorer m.groups) (v : UInt32) :
    ScoresLike lvl (valueScorer lvl sh) m v (fun g => (Scorer.init sh g).eval v) := by
  obtain ⟨h1, h2, h3⟩ := h
  constructor
  · intro i g hi
    rw [scoreValueGroup_of v hi]
    simp only [valueScorer, h1, h2, h3]
    rw [getAt_map _ hi, Res.ok_bind, getAt_map _ hi, Res.ok_bind, getAt_map _ hi]
    simp only [Res.ok_bind, Res.pure_eq, Scorer.eval]
    rw [hcomm (Scorer.init sh g).alpha]
  · intro accum ha
    rw [scoreValue_of v ha]
    simp only [valueScorer, h1, h2, h3]
    exact accumulate_map _ _ m.groups 0 accum ha (fun k g hk => by
      rw [Nat.zero_add, getAt_map _ hk, Res.ok_bind, getAt_map _ hk, Res.ok_bind, getAt_map _ hk]
      simp only [Res.ok_bind, Res.pure_eq, Scorer.eval]
      rw [hcomm (Scorer.init sh g).alpha])

end BNB

namespace NICH

def Mirrors (sh : Shared F) (c : Cache F) (gs : List (Group F)) : Prop :=
  c.score = gs.map (fun g => (Scorer.init sh g).score) ∧
    c.logCoeff = gs.map (fun g => (Scorer.init sh g).logCoeff) ∧
    c.precision = gs.map (fun g => (Scorer.init sh g).precision) ∧
    c.mean = gs.map (fun g => (Scorer.init sh g).mean)

theorem mirrors_update (sh : Shared F) {c : Cache F} {gs : List (Group F)} (h : Mirrors sh c gs)
    {i : Nat} {g : Group F} (g' : Group F) (hi : gs[i]? = some g) :
    ∃ c', updateGroup sh c i g' = .ok c' ∧ Mirrors sh c' (gs.set i g') := by
  obtain ⟨h1, h2, h3, h4⟩ := h
  refine ⟨⟨(gs.set i g').map _, (gs.set i g').map _, (gs.set i g').map _, (gs.set i g').map _⟩,
    ?_, rfl, rfl, rfl, rfl⟩
  simp only [updateGroup, h1, h2, h3, h4]
  rw [setAt_map (fun g => (Scorer.init sh g).score) g' hi, Res.ok_bind,
    setAt_map (fun g => (Scorer.init sh g).logCoeff) g' hi, Res.ok_bind,
    setAt_map (fun g => (Scorer.init sh g).precision) g' hi, Res.ok_bind,
    setAt_map (fun g => (Scorer.init sh g).mean) g' hi]
  rfl

theorem updateAllLoop_eq (sh : Shared F) (gs : List (Group F)) :
    ∀ (xs : List (Group F)) (o₁ o₂ o₃ o₄ : List F), o₁.length = gs.length →
      o₂.length = gs.length → o₃.length = gs.length → o₄.length = gs.length →
      updateAllLoop sh ⟨xs.map (fun g => (Scorer.init sh g).score) ++ o₁,
        xs.map (fun g => (Scorer.init sh g).logCoeff) ++ o₂,
        xs.map (fun g => (Scorer.init sh g).precision) ++ o₃,
        xs.map (fun g => (Scorer.init sh g).mean) ++ o₄⟩ xs.length gs =
      .ok ⟨(xs ++ gs).map (fun g => (Scorer.init sh g).score),
        (xs ++ gs).map (fun g => (Scorer.init sh g).logCoeff),
        (xs ++ gs).map (fun g => (Scorer.init sh g).precision),
        (xs ++ gs).map (fun g => (Scorer.init sh g).mean)⟩ := by
  induction gs with
  | nil =>
    intro xs o₁ o₂ o₃ o₄ h1 h2 h3 h4
    rw [List.length_eq_zero_iff.mp h1, List.length_eq_zero_iff.mp h2,
      List.length_eq_zero_iff.mp h3, List.length_eq_zero_iff.mp h4]
    simp [updateAllLoop]
  | cons g gs ih =>
    intro xs o₁ o₂ o₃ o₄ h1 h2 h3 h4
    obtain ⟨a₁, o₁, rfl⟩ := List.exists_cons_of_length_eq_add_one h1
    obtain ⟨a₂, o₂, rfl⟩ := List.exists_cons_of_length_eq_add_one h2
    obtain ⟨a₃, o₃, rfl⟩ := List.exists_cons_of_length_eq_add_one h3
    obtain ⟨a₄, o₄, rfl⟩ := List.exists_cons_of_length_eq_add_one h4
    simp only [updateAllLoop, updateGroup]
    rw [setAt_fill (fun g => (Scorer.init sh g).score), Res.ok_bind,
      setAt_fill (fun g => (Scorer.init sh g).logCoeff), Res.ok_bind,
      setAt_fill (fun g => (Scorer.init sh g).precision), Res.ok_bind,
      setAt_fill (fun g => (Scorer.init sh g).mean), Res.ok_bind, Res.pure_eq, Res.ok_bind,
      show xs.length + 1 = (xs ++ [g]).length by simp,
      ih (xs ++ [g]) o₁ o₂ o₃ o₄ (by simpa using h1) (by simpa using h2) (by simpa using h3)
        (by simpa using h4)]
    simp

theorem laws (lvl : Nat) (sh : Shared F) :
    CacheLaws lvl ops (valueScorer lvl sh) (fun _ => True) (Mirrors sh) where
  valid _ _ _ _ _ := trivial
  init s gs _ := ⟨_, _, rfl, updateAllLoop_eq sh gs [] _ _ _ _ (resizeWith_length _ _ _)
    (resizeWith_length _ _ _) (resizeWith_length _ _ _) (resizeWith_length _ _ _),
    rfl, rfl, rfl, rfl⟩
  addGroup s gs h := by
    obtain ⟨h1, h2, h3, h4⟩ := h
    refine ⟨_, ⟨(gs ++ [ops.init]).map _, (gs ++ [ops.init]).map _, (gs ++ [ops.init]).map _,
      (gs ++ [ops.init]).map _⟩, rfl, ?_, rfl, rfl, rfl, rfl⟩
    simp only [valueScorer, updateGroup, h1, h2, h3, h4]
    rw [setAt_push (fun g => (Scorer.init sh g).score), Res.ok_bind,
      setAt_push (fun g => (Scorer.init sh g).logCoeff), Res.ok_bind,
      setAt_push (fun g => (Scorer.init sh g).precision), Res.ok_bind,
      setAt_push (fun g => (Scorer.init sh g).mean)]
    rfl
  removeGroup s gs i h hi := by
    obtain ⟨h1, h2, h3, h4⟩ := h
    refine ⟨⟨(swapRemove gs i).map _, (swapRemove gs i).map _, (swapRemove gs i).map _,
      (swapRemove gs i).map _⟩, ?_, rfl, rfl, rfl, rfl⟩
    simp only [valueScorer, h1, h2, h3, h4]
    rw [packedRemove_map lvl (fun g => (Scorer.init sh g).score) hi, Res.ok_bind,
      packedRemove_map lvl (fun g => (Scorer.init sh g).logCoeff) hi, Res.ok_bind,
      packedRemove_map lvl (fun g => (Scorer.init sh g).precision) hi, Res.ok_bind,
      packedRemove_map lvl (fun g => (Scorer.init sh g).mean) hi]
    rfl
  add s gs i g v g' h hi _ := mirrors_update sh h g' hi
  remove s gs i g v g' h hi _ := mirrors_update sh h g' hi

theorem mirrors_scores (lvl : Nat) (sh : Shared F) (m : MixtureSlave (Cache F) (Group F))
    (h : Mirrors sh m.scorer m.groups) (v : F) :
    ScoresLike lvl (valueScorer lvl sh) m v (fun g => g.scoreValue sh v) := by
  obtain ⟨h1, h2, h3, h4⟩ := h
  constructor
  · intro i g hi
    rw [scoreValueGroup_of v hi]
    simp only [valueScorer, h1, h2, h3, h4]
    rw [getAt_map _ hi, Res.ok_bind, getAt_map _ hi, Res.ok_bind, getAt_map _ hi, Res.ok_bind,
      getAt_map _ hi]
    rfl
  · intro accum ha
    rw [scoreValue_of v ha]
    simp only [valueScorer, h1, h2, h3, h4, ha]
    rw [mapM_range _ (fun g => lit 1 1 + (Scorer.init sh g).precision *
        sqr (v - (Scorer.init sh g).mean)) m.groups
      (fun k g hk => by rw [getAt_map _ hk, Res.ok_bind, getAt_map _ hk]; rfl), Res.ok_bind,
      List.map_map]
    exact accumulate_map _ _ m.groups 0 accum ha (fun k g hk => by
      rw [Nat.zero_add, getAt_map _ hk, Res.ok_bind, getAt_map _ hk, Res.ok_bind, getAt_map _ hk]
      rfl)

end NICH

end Dist
