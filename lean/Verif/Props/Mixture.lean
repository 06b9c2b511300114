import Verif.Lemmas.Caches
import Verif.Lemmas.DDCache
import Verif.Props.BNB

/-! # C35: cached value scores of feature mixtures

A mixture with any groups and any cache contents is initialised and then put through any
legal history (`groupsAfter ... = some gs'`).  The run succeeds, ends with the groups
`gs'`, and scores every value like the groups do. -/

namespace Dist

open Spec FloatOps FloatNotation

/-- **C35 (Beta-Bernoulli).** Bit for bit. -/
theorem C35_bb {F : Type} [FloatOps F] (lvl : Nat) (sh : BB.Shared F)
    (m : MixtureSlave (BB.Cache F) BB.Group) (h : List (MixOp Bool)) (gs' : List BB.Group)
    (hg : groupsAfter BB.ops m.groups h = some gs') :
    ∃ m', runMixture lvl BB.ops (BB.valueScorer lvl sh) m (.init :: h) = .ok m' ∧
      m'.groups = gs' ∧
      ∀ v, ScoresLike lvl (BB.valueScorer lvl sh) m' v (fun g => g.scoreValue sh v) :=
  mixture_scores (BB.laws lvl sh) _ (BB.mirrors_scores lvl sh) m (fun _ _ => trivial) h gs' hg

/-- **C35 (Gamma-Poisson).** Bit for bit. -/
theorem C35_gp {F : Type} [FloatOps F] (lvl : Nat) (sh : GP.Shared F)
    (m : MixtureSlave (GP.Cache F) (GP.Group F)) (h : List (MixOp UInt32))
    (gs' : List (GP.Group F)) (hg : groupsAfter GP.ops m.groups h = some gs') :
    ∃ m', runMixture lvl GP.ops (GP.valueScorer lvl sh) m (.init :: h) = .ok m' ∧
      m'.groups = gs' ∧
      ∀ v, ScoresLike lvl (GP.valueScorer lvl sh) m' v (fun g => g.scoreValue sh v) :=
  mixture_scores (GP.laws lvl sh) _ (GP.mirrors_scores lvl sh) m (fun _ _ => trivial) h gs' hg

/-- **C35 (Normal-Inverse-ChiSq).** Bit for bit. -/
theorem C35_nich {F : Type} [FloatOps F] (lvl : Nat) (sh : NICH.Shared F)
    (m : MixtureSlave (NICH.Cache F) (NICH.Group F)) (h : List (MixOp F))
    (gs' : List (NICH.Group F)) (hg : groupsAfter NICH.ops m.groups h = some gs') :
    ∃ m', runMixture lvl NICH.ops (NICH.valueScorer lvl sh) m (.init :: h) = .ok m' ∧
      m'.groups = gs' ∧
      ∀ v, ScoresLike lvl (NICH.valueScorer lvl sh) m' v (fun g => g.scoreValue sh v) :=
  mixture_scores (NICH.laws lvl sh) _ (NICH.mirrors_scores lvl sh) m (fun _ _ => trivial) h gs' hg

/-- **C35 (Beta-Negative-Binomial), against the scorer.** Bit for bit, given only that
float addition commutes. -/
theorem C35_bnb_scorer {F : Type} [FloatOps F] (hcomm : ∀ a b : F, a + b = b + a) (lvl : Nat)
    (sh : BNB.Shared F) (m : MixtureSlave (BNB.Cache F) BNB.Group) (h : List (MixOp UInt32))
    (gs' : List BNB.Group) (hg : groupsAfter BNB.ops m.groups h = some gs') :
    ∃ m', runMixture lvl BNB.ops (BNB.valueScorer lvl sh) m (.init :: h) = .ok m' ∧
      m'.groups = gs' ∧
      ∀ v, ScoresLike lvl (BNB.valueScorer lvl sh) m' v
        (fun g => (BNB.Scorer.init sh g).eval v) :=
  mixture_scores (BNB.laws lvl sh) _ (BNB.mirrors_scores hcomm lvl sh) m (fun _ _ => trivial)
    h gs' hg

/-- **C35 (Beta-Negative-Binomial).** In exact arithmetic: the group's own `score_value`
adds the same terms in another order. -/
theorem C35_bnb (lvl : Nat) (a b : ℝ) (ha : 0 < a) (hb : 0 < b) (r : UInt32)
    (m : MixtureSlave (BNB.Cache XR) BNB.Group) (h : List (MixOp UInt32))
    (gs' : List BNB.Group) (hg : groupsAfter BNB.ops m.groups h = some gs') :
    ∃ m', runMixture lvl BNB.ops (BNB.valueScorer lvl (BNB.real a b r)) m (.init :: h) = .ok m' ∧
      m'.groups = gs' ∧
      ∀ v, ScoresLike lvl (BNB.valueScorer lvl (BNB.real a b r)) m' v
        (fun g => g.scoreValue (BNB.real a b r) v) := by
  have hcomm : ∀ x y : XR, x + y = y + x := by
    intro x y
    cases x <;> cases y <;> simp [add_comm]
  obtain ⟨m', e, hm, hs⟩ := C35_bnb_scorer hcomm lvl (BNB.real a b r) m h gs' hg
  refine ⟨m', e, hm, fun v => ?_⟩
  have := hs v
  simp only [C34_bnb a b ha hb r] at this
  exact this

/-- **C35 (Dirichlet-Discrete), bit for bit.** The cached score of value `v` in group `g`
is `log(alpha_v + count_v) - log(alpha_sum + count_sum)`.  All groups must have the
dimension of the hyperparameters, as `Group::validate` (dd.hpp:196-198) checks. -/
theorem C35_dd_bits {F : Type} [FloatOps F] (lvl : Nat) (sh : DD.Shared F)
    (m : MixtureSlave (DD.Cache F) DD.Group)
    (hd : ∀ g ∈ m.groups, g.counts.length = sh.alphas.length)
    (h : List (MixOp Int)) (gs' : List DD.Group)
    (hg : groupsAfter (DD.ops lvl sh.alphas.length) m.groups h = some gs') :
    ∃ m', runMixture lvl (DD.ops lvl sh.alphas.length) (DD.valueScorer lvl sh) m (.init :: h) =
        .ok m' ∧
      m'.groups = gs' ∧
      ∀ (v : Nat) (alpha : F), sh.alphas[v]? = some alpha →
        ScoresLike lvl (DD.valueScorer lvl sh) m' v (fun g =>
          log (alpha + ofInt (g.counts.getD v 0)) -
            log (sh.alphas.foldl (· + ·) (ofInt 0) + ofInt g.countSum)) :=
  mixture_scores (DD.laws lvl sh) _ (fun m hR v a ha => DD.mirrors_scores lvl sh m hR v a ha)
    m hd h gs' hg

/-- The exact score of a Dirichlet-Discrete group as a total function: what
`score_value` returns. -/
noncomputable def DD.scoreOf (lvl : Nat) (sh : DD.Shared XR) (v : Nat) (g : DD.Group) : XR :=
  match g.scoreValue lvl sh v with
  | .ok x => x
  | _ => .nan

/-- **C35 (Dirichlet-Discrete).** In exact arithmetic, for positive hyperparameters: if
all groups reached hold nonnegative counts that add up to their totals, the cached
scores are the groups' own. -/
theorem C35_dd (lvl dim : Nat) (a : Fin dim → ℝ) (ha : ∀ i, 0 < a i)
    (m : MixtureSlave (DD.Cache XR) DD.Group) (hd : ∀ g ∈ m.groups, g.counts.length = dim)
    (h : List (MixOp Int)) (gs' : List DD.Group)
    (hg : groupsAfter (DD.ops lvl dim) m.groups h = some gs')
    (hgs : ∀ g ∈ gs', ∃ c : Fin dim → Nat, g = ⟨∑ i, (c i : Int), List.ofFn fun i => (c i : Int)⟩) :
    ∃ m', runMixture lvl (DD.ops lvl dim) (DD.valueScorer lvl (DD.real a)) m (.init :: h) =
        .ok m' ∧
      m'.groups = gs' ∧
      ∀ v : Fin dim, (∀ g ∈ gs', g.scoreValue lvl (DD.real a) (v : Nat) =
          .ok (DD.scoreOf lvl (DD.real a) v g)) ∧
        ScoresLike lvl (DD.valueScorer lvl (DD.real a)) m' (v : Nat)
          (DD.scoreOf lvl (DD.real a) v) := by
  have hlen : (DD.real a).alphas.length = dim := by simp [DD.real]
  obtain ⟨m', e, hm, hs⟩ := C35_dd_bits lvl (DD.real a) m (by rw [hlen]; exact hd) h gs'
    (by rw [hlen]; exact hg)
  rw [hlen] at e
  refine ⟨m', e, hm, fun v => ?_⟩
  have hpos : ∀ (c : Fin dim → Nat) (i : Fin dim), 0 < a i + ((c i : Int) : ℝ) := fun c i => by
    have := ha i; push_cast; positivity
  have hval : ∀ g ∈ gs', ∃ x, g.scoreValue lvl (DD.real a) (v : Nat) = .ok x := by
    intro g hgm
    obtain ⟨c, rfl⟩ := hgs g hgm
    exact ⟨_, DD.scoreValue_eq lvl a (fun i => (c i : Int)) _ (hpos c) v⟩
  have hof : ∀ g ∈ gs', g.scoreValue lvl (DD.real a) (v : Nat) =
      .ok (DD.scoreOf lvl (DD.real a) v g) := by
    intro g hgm
    obtain ⟨x, hx⟩ := hval g hgm
    simp [DD.scoreOf, hx]
  refine ⟨hof, ?_⟩
  have hav : (DD.real a).alphas[(v : Nat)]? = some (.fin (a v)) := by
    simp [DD.real]
  have heq : ∀ g ∈ gs', log (XR.fin (a v) + ofInt (g.counts.getD v 0)) -
      log ((DD.real a).alphas.foldl (· + ·) (ofInt 0) + ofInt g.countSum) =
      DD.scoreOf lvl (DD.real a) v g := by
    intro g hgm
    have h1 := hof g hgm
    obtain ⟨c, rfl⟩ := hgs g hgm
    have h2 := DD.scoreValue_eq lvl a (fun i => (c i : Int)) (∑ i, (c i : Int)) (hpos c) v
    have h3 : (DD.mk (∑ i, (c i : Int)) fun i => (c i : Int)).scoreValue lvl (DD.real a) (v : Nat)
        = .ok (DD.scoreOf lvl (DD.real a) v
          ⟨∑ i, (c i : Int), List.ofFn fun i => (c i : Int)⟩) := h1
    rw [h2] at h3
    simp only [Res.ok.injEq] at h3
    rw [← h3]
    have hA : 0 < ∑ i, a i := Finset.sum_pos (fun i _ => ha i) ⟨v, Finset.mem_univ _⟩
    have hcv := hpos c v
    have hcs : (0 : ℝ) ≤ ∑ i, ((c i : Int) : ℝ) := Finset.sum_nonneg fun i _ => by positivity
    have hfold : (DD.real a).alphas.foldl (· + ·) (ofInt 0) = XR.fin (∑ i, a i) := by
      rw [DD.real, XR.ofInt_eq, DD.foldl_fin]; simp
    have hget : (List.ofFn fun i => (c i : Int)).getD (v : Nat) 0 = (c v : Int) := by
      rw [List.getD_eq_getElem?_getD, List.getElem?_eq_getElem (by simp)]; simp
    rw [hfold]
    dsimp only
    rw [hget]
    simp only [XR.ofInt_eq, XR.fin_add]
    rw [XR.log_fin hcv, XR.log_fin (by push_cast at hcs ⊢; linarith), XR.fin_sub,
      Finset.sum_add_distrib, Real.log_div hcv.ne' (by push_cast at hcs ⊢; linarith)]
    push_cast; rfl
  have hsv := hs v _ hav
  constructor
  · intro i g hi
    rw [hsv.1 i g hi]; exact congrArg Res.ok (heq g (hm ▸ List.mem_of_getElem? hi))
  · intro accum hacc
    rw [hsv.2 accum hacc]
    congr 1
    apply List.ext_getElem
    · simp
    · intro i h1 h2
      simp only [List.getElem_zipWith]
      congr 1
      exact heq _ (hm ▸ List.getElem_mem _)

/-- **C35, finding (Dirichlet-Discrete).** `add_group` on a fresh mixture before `init`
is undefined for all hyperparameters: it indexes the empty `scores_` (or reads the
uninitialised `alpha_sum_` if the dimension is 0).  The other models allow it. -/
theorem C35_dd_uninitialised {F : Type} [FloatOps F] (lvl : Nat) (sh : DD.Shared F) :
    (⟨[], DD.Cache.raw⟩ : MixtureSlave (DD.Cache F) DD.Group).addGroup lvl
      (DD.ops lvl sh.alphas.length) (DD.valueScorer lvl sh) = .ub := by
  obtain ⟨alphas⟩ := sh
  cases alphas <;>
    simp [MixtureSlave.addGroup, SlaveGroups.addGroup, packedAdd, DD.valueScorer, DD.Cache.raw,
      DD.forValues, SlaveGroups.groupAt, distAssert_of, getAt, DD.updateGroup, DD.readInit]

/-- A legal history that adds a group, fills it, moves a value and drops a group. -/
example : groupsAfter BB.ops [⟨1, 0⟩, ⟨0, 2⟩]
    [.addGroup, .add 2 true, .remove 0 true, .removeGroup 0, .init] =
      some [⟨1, 0⟩, ⟨0, 2⟩] := by decide

end Dist
