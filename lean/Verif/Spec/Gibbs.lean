import Mathlib.Analysis.SpecialFunctions.Exp
import Mathlib.Order.Partition.Finpartition
import Verif.Base.XR
import Verif.Model.BB
import Verif.Model.BNB
import Verif.Model.DD
import Verif.Model.DPD
import Verif.Model.GP
import Verif.Model.Gibbs
import Verif.Model.NICH
import Verif.Spec.Features
import Verif.Spec.IdealRng

/-! # What the inference loops are meant to compute

Clusterings of the items, their posterior weight in terms of the scores of the library, and
the full conditional of one item. -/

namespace Dist.Spec

open Finset

variable {ι R S G V : Type} [DecidableEq ι]

/-- The clusters given by a dictionary of assignments: items with the same entry go together. -/
def clusters [Fintype ι] (a : ι → Option Nat) : Finset (Finset ι) :=
  (univ.filter fun i => a i ≠ none).image fun i => univ.filter fun j => a j = a i

/-- Put item `i` in the cluster `b`, or in a new cluster if `b` is empty. -/
def put (i : ι) (b : Finset ι) (C : Finset (Finset ι)) : Finset (Finset ι) :=
  insert (insert i b) (C.erase b)

/-- Take item `i` out of its cluster. -/
def without (i : ι) (C : Finset (Finset ι)) : Finset (Finset ι) :=
  (C.image fun b => b.erase i).erase ∅

/-- The number a score stands for. -/
noncomputable def value : Res XR → ℝ
  | .ok (.fin x) => x
  | _ => 0

/-- `score_data` of a new group holding the values `M`. -/
noncomputable def dataScore (f : FeatureModel R S G V XR) (M : Multiset V) : ℝ :=
  value (do
    let g ← addAll f.ops f.ops.init M.toList
    f.scoreData g)

/-- The logarithm of the posterior of a clustering, up to a constant: `score_counts` of the
cluster sizes plus, for every feature and every cluster, `score_data` of the values of the
cluster. -/
noncomputable def logPosterior (m : PitmanYor XR) (fs : List (FeatureModel R S G V XR))
    (rows : ι → R) (C : Finset (Finset ι)) : ℝ :=
  value (.ok (m.scoreCounts (C.toList.map card))) +
    ∑ b ∈ C, (fs.map fun f => dataScore f (b.val.map fun i => f.col (rows i))).sum

/-- The posterior probability of a clustering of the items `A`. -/
noncomputable def posterior (m : PitmanYor XR) (fs : List (FeatureModel R S G V XR))
    (rows : ι → R) {A : Finset ι} (P : Finpartition A) : ℝ :=
  Real.exp (logPosterior m fs rows P.parts) /
    ∑ Q : Finpartition A, Real.exp (logPosterior m fs rows Q.parts)

/-- The probability of the clustering `Q` given that all items but `i` are clustered as in
`P`. -/
noncomputable def fullConditional (m : PitmanYor XR) (fs : List (FeatureModel R S G V XR))
    (rows : ι → R) {A : Finset ι} (i : ι) (P Q : Finpartition A) : ℝ :=
  if without i Q.parts = without i P.parts then
    Real.exp (logPosterior m fs rows Q.parts) /
      ∑ Q' : Finpartition A with without i Q'.parts = without i P.parts,
        Real.exp (logPosterior m fs rows Q'.parts)
  else 0

/-! ### Features of the library -/

/-- A Beta-Bernoulli feature with hyperparameters `alpha`, `beta`. -/
noncomputable def bbFeature (lvl : Nat) (x : ℝ × ℝ × (R → Bool)) :
    FeatureModel R (BB.Cache XR) BB.Group Bool XR :=
  ⟨x.2.2, BB.ops, BB.valueScorer lvl ⟨.fin x.1, .fin x.2.1⟩, ⟨[], []⟩,
    fun g => .ok (g.scoreData ⟨.fin x.1, .fin x.2.1⟩)⟩

/-- A Gamma-Poisson feature with hyperparameters `alpha`, `inv_beta`. -/
noncomputable def gpFeature (lvl : Nat) (x : ℝ × ℝ × (R → UInt32)) :
    FeatureModel R (GP.Cache XR) (GP.Group XR) UInt32 XR :=
  ⟨x.2.2, GP.ops, GP.valueScorer lvl ⟨.fin x.1, .fin x.2.1⟩, ⟨[], [], []⟩,
    fun g => .ok (g.scoreData ⟨.fin x.1, .fin x.2.1⟩)⟩

/-- A Beta-Negative-Binomial feature with hyperparameters `alpha`, `beta`, `r`. -/
noncomputable def bnbFeature (lvl : Nat) (x : ℝ × ℝ × UInt32 × (R → UInt32)) :
    FeatureModel R (BNB.Cache XR) BNB.Group UInt32 XR :=
  ⟨x.2.2.2, BNB.ops, BNB.valueScorer lvl ⟨.fin x.1, .fin x.2.1, x.2.2.1⟩, ⟨[], [], []⟩,
    fun g => .ok (g.scoreData ⟨.fin x.1, .fin x.2.1, x.2.2.1⟩)⟩

/-- A Normal-Inverse-ChiSq feature with hyperparameters `mu`, `kappa`, `sigmasq`, `nu`.  Its
values are real numbers. -/
noncomputable def nichFeature (lvl : Nat) (x : ℝ × ℝ × ℝ × ℝ × (R → ℝ)) :
    FeatureModel R (NICH.Cache XR) (NICH.Group XR) ℝ XR :=
  let sh : NICH.Shared XR := ⟨.fin x.1, .fin x.2.1, .fin x.2.2.1, .fin x.2.2.2.1⟩
  let vs := NICH.valueScorer lvl sh
  ⟨x.2.2.2.2, ⟨NICH.Group.init, fun g v => g.addValue (.fin v), fun g v => g.removeValue (.fin v)⟩,
    ⟨vs.resize, vs.addGroup, vs.removeGroup, vs.updateGroup,
      fun s i g v => vs.addValue s i g (.fin v), fun s i g v => vs.removeValue s i g (.fin v),
      vs.updateAll, fun s gs i v => vs.scoreValueGroup s gs i (.fin v),
      fun s gs v accum => vs.scoreValue s gs (.fin v) accum⟩,
    ⟨[], [], [], []⟩, fun g => .ok (g.scoreData sh)⟩

/-- A Dirichlet-Discrete feature with hyperparameters `alphas`.  Its values are the numbers below
the dimension.  Its scorer is the one left by `init` on a mixture without groups: one that was
never initialised has no room for the dimensions (`C66_dd_uninitialised`). -/
noncomputable def ddFeature (lvl : Nat) {dim : Nat} (x : (Fin dim → ℝ) × (R → Fin dim)) :
    FeatureModel R (DD.Cache XR) DD.Group (Fin dim) XR :=
  let sh : DD.Shared XR := ⟨List.ofFn fun i => .fin (x.1 i)⟩
  let vs := DD.valueScorer lvl sh
  ⟨x.2, ⟨DD.Group.init dim, fun g v => g.addValue lvl v.val, fun g v => g.removeValue lvl v.val⟩,
    ⟨vs.resize, vs.addGroup, vs.removeGroup, vs.updateGroup,
      fun s i g v => vs.addValue s i g v.val, fun s i g v => vs.removeValue s i g v.val,
      vs.updateAll, fun s gs i v => vs.scoreValueGroup s gs i v.val,
      fun s gs v accum => vs.scoreValue s gs v.val accum⟩,
    ⟨some (.fin (∑ i, x.1 i)), List.replicate dim [], []⟩, fun g => g.scoreData sh⟩

/-- A Dirichlet-Process-Discrete feature with the shared state `x.1`, which stays as it is.  Its
values are taken from the set `K`.  `x.2.1` tells the order in which `score_data` visits the table
of a group. -/
noncomputable def dpdFeature (lvl : Nat) {K : Finset UInt32}
    (x : DPD.Shared ℝ × (DPD.Group → List UInt32) × (R → {v // v ∈ K})) :
    FeatureModel R (DPD.Cache XR) DPD.Group {v // v ∈ K} XR :=
  let sh : DPD.Shared XR := ⟨.fin x.1.gamma, .fin x.1.alpha, .fin x.1.beta0,
    x.1.betas.mapValues fun _ b => .fin b, x.1.counts⟩
  let vs := DPD.valueScorer lvl sh
  ⟨x.2.2, ⟨SparseCounter.raw.clear, fun g v => DPD.Group.addValue lvl sh g v.val,
      fun g v => DPD.Group.removeValue lvl sh g v.val⟩,
    ⟨vs.resize, vs.addGroup, vs.removeGroup, vs.updateGroup,
      fun s i g v => vs.addValue s i g v.val, fun s i g v => vs.removeValue s i g v.val,
      vs.updateAll, fun s gs i v => vs.scoreValueGroup s gs i v.val,
      fun s gs v accum => vs.scoreValue s gs v.val accum⟩,
    DPD.Cache.raw, fun g => DPD.Group.scoreData lvl sh g (x.2.1 g)⟩

/-- The features of a mixture: any number of features of one model of the library, with any
positive hyperparameters.  The values of a counting feature add up to less than `2^32`; those of a
Dirichlet-Process-Discrete feature are known to its shared state, which does not know `OTHER`. -/
inductive LibraryFeatures {ι R : Type} [Fintype ι] (lvl : Nat) (rows : ι → R) :
    {S G V : Type} → List (FeatureModel R S G V XR) → Prop
  | bb (l : List (ℝ × ℝ × (R → Bool))) : (∀ x ∈ l, 0 < x.1 ∧ 0 < x.2.1) →
      LibraryFeatures lvl rows (l.map (bbFeature lvl))
  | gp (l : List (ℝ × ℝ × (R → UInt32))) :
      (∀ x ∈ l, 0 < x.1 ∧ 0 < x.2.1 ∧ ∑ i, (x.2.2 (rows i)).toNat < 4294967296) →
      LibraryFeatures lvl rows (l.map (gpFeature lvl))
  | bnb (l : List (ℝ × ℝ × UInt32 × (R → UInt32))) :
      (∀ x ∈ l, 0 < x.1 ∧ 0 < x.2.1 ∧ ∑ i, (x.2.2.2 (rows i)).toNat < 4294967296) →
      LibraryFeatures lvl rows (l.map (bnbFeature lvl))
  | nich (l : List (ℝ × ℝ × ℝ × ℝ × (R → ℝ))) :
      (∀ x ∈ l, 0 < x.2.1 ∧ 0 < x.2.2.1 ∧ 0 < x.2.2.2.1) →
      LibraryFeatures lvl rows (l.map (nichFeature lvl))
  | dd {dim : Nat} (l : List ((Fin dim → ℝ) × (R → Fin dim))) : 0 < dim →
      (∀ x ∈ l, ∀ i, 0 < x.1 i) → LibraryFeatures lvl rows (l.map (ddFeature lvl))
  | dpd {K : Finset UInt32}
      (l : List (DPD.Shared ℝ × (DPD.Group → List UInt32) × (R → {v // v ∈ K}))) :
      (∀ x ∈ l, 0 < x.1.alpha ∧ (∀ v b, x.1.betas.lookup v = some b → 0 < b) ∧
        K ⊆ x.1.betas.keys ∧ DPD.other ∉ x.1.betas.keys ∧
        ∀ g : DPD.Group, g.map.Enum (x.2.1 g)) →
      LibraryFeatures lvl rows (l.map (dpdFeature lvl))

/-- A way of drawing an index with probability proportional to the exponential of its score,
which leaves a fresh state. -/
def SoftmaxDraw {σ : Type} [MeasurableSpace σ] (P : MeasureTheory.Measure σ)
    (draw : List XR → σ → Res (Nat × σ)) : Prop :=
  ∀ l : List ℝ, l ≠ [] →
    (∀ s p s', draw (l.map XR.fin) s = .ok (p, s') → p < l.length) ∧
    ∀ (p : Nat) (hp : p < l.length) (B : Set σ), MeasurableSet B →
      MeasurableSet {s | ∃ s' ∈ B, draw (l.map XR.fin) s = .ok (p, s')} ∧
      P {s | ∃ s' ∈ B, draw (l.map XR.fin) s = .ok (p, s')} =
        ENNReal.ofReal (Real.exp l[p] / (l.map Real.exp).sum) * P B

/-- A way of drawing an index that always gives one. -/
def TotalDraw {σ : Type} (draw : List XR → σ → Res (Nat × σ)) : Prop :=
  ∀ l : List ℝ, l ≠ [] → ∀ s, ∃ p s', draw (l.map XR.fin) s = .ok (p, s') ∧ p < l.length

/-- The states of an inference loop: a mixture with the features `fs` is constructed and
initialised, then items are placed, taken out and resampled, with any groups drawn.  The
number is how many groups may have been created. -/
inductive Reached {F : Type} [FloatOps F] [Fintype ι] (lvl : Nat) (m : PitmanYor F)
    (fs : List (FeatureModel R S G V F)) (rows : ι → R) : Inference ι R S G V F → Nat → Prop
  | init {n w} : (FullMixture.raw fs).init lvl m n = .ok w →
      Reached lvl m fs rows ⟨w, fun _ => none⟩ n
  | place {st k i p scored st'} : Reached lvl m fs rows st k → st.assignments i = none →
      st.place lvl m (fun _ s => .ok (p, s)) scored rows i () = .ok (st', ()) →
      Reached lvl m fs rows st' (k + 1)
  | takeOut {st k i st'} : Reached lvl m fs rows st k → st.takeOut lvl m rows i = .ok st' →
      Reached lvl m fs rows st' k
  | resample {st k i p st'} : Reached lvl m fs rows st k →
      st.resample lvl m (fun _ s => .ok (p, s)) rows i () = .ok (st', ()) →
      Reached lvl m fs rows st' (k + 1)

end Dist.Spec
