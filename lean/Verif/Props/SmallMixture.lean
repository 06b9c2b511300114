import Verif.Lemmas.Mixture
import Verif.Props.MixtureData
import Verif.Props.NIW
import Verif.Props.Sampling

/-! # C35 and C36 for the mixtures without cached scores

`SmallMixture` works for every model and is the only mixture of the Normal-Inverse-Wishart
model: it keeps no caches and asks each group for its score. -/

namespace Dist

open Spec FloatOps FloatNotation MeasureTheory

variable {F G V : Type} [FloatOps F]

theorem smallScoreLoop_eq {score : G → Res F} {sc : G → F} (gs : List G) (as : List F)
    (hl : as.length = gs.length) (h : ∀ g ∈ gs, score g = .ok (sc g)) :
    smallScoreLoop score gs as = .ok (List.zipWith (fun a g => FloatOps.add a (sc g)) as gs) := by
  induction gs generalizing as with
  | nil =>
    have : as = [] := List.length_eq_zero_iff.mp (by simpa using hl)
    subst this; rfl
  | cons g gs ih =>
    cases as with
    | nil => simp at hl
    | cons a as =>
      rw [smallScoreLoop, h g (by simp), Res.ok_bind,
        ih as (by simpa using hl) (fun g' hg => h g' (by simp [hg])), Res.ok_bind]
      rfl

/-- **C35 (SmallMixture, every model).** Bit for bit, for any group type, group operations and
score function: every history that the groups allow succeeds, and whenever each group can
score the value, the mixture reports exactly those scores. -/
theorem C35_small (lvl : Nat) (ops : GroupOps G V) (score : G → V → Res F)
    (m : MixtureSlave Unit G) (h : List (MixOp V)) (gs' : List G)
    (hg : groupsAfter ops m.groups h = some gs') :
    ∃ m', runMixture lvl ops (smallValueScorer lvl score) m (.init :: h) = .ok m' ∧
      m'.groups = gs' ∧
      ∀ v (sc : G → F), (∀ g ∈ gs', score g v = .ok (sc g)) →
        ScoresLike lvl (smallValueScorer lvl score) m' v sc := by
  have L : CacheLaws lvl ops (smallValueScorer (F := F) lvl score) (fun _ => True) (fun _ _ => True) :=
    { valid := fun _ _ _ _ _ => trivial
      init := fun _ _ _ => ⟨(), (), rfl, rfl, trivial⟩
      addGroup := fun _ _ _ => ⟨(), (), rfl, rfl, trivial⟩
      removeGroup := fun _ _ _ _ _ => ⟨(), rfl, trivial⟩
      add := fun _ _ _ _ _ _ _ _ _ => ⟨(), rfl, trivial⟩
      remove := fun _ _ _ _ _ _ _ _ _ => ⟨(), rfl, trivial⟩ }
  obtain ⟨m', e, hm, -⟩ := mixture_scores L (fun _ => True) (fun _ _ => trivial) m
    (fun _ _ => trivial) h gs' hg
  refine ⟨m', e, hm, ?_⟩
  subst hm
  intro v sc hsc
  constructor
  · intro i g hi
    obtain ⟨hi', hgi⟩ := List.getElem?_eq_some_iff.mp hi
    rw [MixtureSlave.scoreValueGroup, distAssert_of hi', Res.ok_bind]
    simp only [smallValueScorer]
    rw [distAssert_of hi', Res.ok_bind, getAt_of hi', Res.ok_bind, hgi]
    exact hsc g (hgi ▸ List.getElem_mem hi')
  · intro accum ha
    rw [MixtureSlave.scoreValue, distAssert_of ha, Res.ok_bind]
    simp only [smallValueScorer]
    rw [distAssert_of ha, Res.ok_bind]
    exact smallScoreLoop_eq m'.groups accum ha hsc

/-- **C36 (SmallMixture, every model).** Bit for bit: the data score of the mixture is the sum
of the groups' data scores, added from left to right starting with 0. -/
theorem C36_small (scoreData : G → Res F) (gs : List G) (xs : List F)
    (h : gs.mapM scoreData = .ok xs) :
    smallScoreData scoreData gs = .ok (xs.foldl (fun a b => FloatOps.add a b) (ofInt 0)) := by
  unfold smallScoreData
  generalize (ofInt 0 : F) = acc
  induction gs generalizing xs acc with
  | nil =>
    have : xs = [] := by simpa [Res.pure_eq] using h.symm
    subst this; rfl
  | cons g gs ih =>
    rw [List.mapM_cons] at h
    obtain ⟨x, h1, h⟩ := Res.bind_eq_ok.mp h
    obtain ⟨ys, h2, h⟩ := Res.bind_eq_ok.mp h
    have : xs = x :: ys := by simpa [Res.pure_eq] using h.symm
    subst this
    rw [List.foldlM_cons, h1, Res.ok_bind]
    exact ih ys h2 _

/-- In exact arithmetic this is `sumScores`, as for the cached mixtures. -/
theorem C36_small_exact {G : Type} (scoreData : G → Res XR) (gs : List G) (xs : List XR)
    (h : gs.mapM scoreData = .ok xs) : smallScoreData scoreData gs = .ok (sumScores xs) := by
  rw [C36_small scoreData gs xs h, sumScores]
  simp

/-- Two Bernoulli groups: a history with a created, filled and scored group. -/
example : ∃ m', runMixture 3 BB.ops (smallValueScorer 3 (fun g v => .ok (g.scoreValue (BB.real 1 1) v)))
      ⟨[BB.Group.init], ()⟩ [.init, .addGroup, .add 1 true] = .ok m' ∧ m'.groups = [⟨0, 0⟩, ⟨1, 0⟩] ∧
    ScoresLike 3 (smallValueScorer 3 (fun g v => .ok (g.scoreValue (BB.real 1 1) v))) m' true
      (fun g => g.scoreValue (BB.real 1 1) true) := by
  obtain ⟨m', h1, h2, h3⟩ := C35_small 3 BB.ops (fun g v => .ok (g.scoreValue (BB.real 1 1) v))
    ⟨[BB.Group.init], ()⟩ [.addGroup, .add 1 true] [⟨0, 0⟩, ⟨1, 0⟩] (by decide)
  exact ⟨m', h1, h2, h3 true _ (fun _ _ => rfl)⟩

/-- **C43, probabilities.** `sample_from_probs` on probabilities that sum to 1 selects each index
with its probability. -/
theorem C43_probs {σ : Type} (rng : ℝ → Rng XR σ) (s s' : σ) (l : List ℝ)
    (hl : ∀ x ∈ l, 0 ≤ x) (hsum : l.sum = 1) (hu : ∀ u, Draws (rng u) s (XR.fin u) s') (i : Nat)
    (hi : i < l.length) :
    volume {u : ℝ | 0 ≤ u ∧ u < 1 ∧
      sampleFromProbs (rng u) s (l.map XR.fin) = .ok (i, s')} = ENNReal.ofReal l[i] := by
  have h := C43_probability rng s s' l hl (by rw [hsum]; norm_num) hu i hi
  rw [hsum, div_one] at h
  rw [← h]
  simp [sampleFromProbs, XR.lit_eq]

example : ([1/4, 3/4] : List ℝ).sum = 1 := by norm_num

end Dist
