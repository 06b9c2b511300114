import Verif.Model.Clustering
import Verif.Model.IdTracker
import Verif.Model.Mixture

/-! # Inference with the library (examples/mixture/main.py)

The class `ImageModel.Mixture` with its cached clustering and feature mixtures, the Python
sampler it calls and the three kinds of move of its inference loops: resampling an item
(`compress_gibbs`, `compress_seq_gibbs`), placing a new item (`compress_sequential`,
`compress_annealing`) and taking an item out (`compress_annealing`).  The example has two
features of one model; here there is any number of features of one model, each with its
own hyperparameters.  Items are the elements of a type `ι` and `rows` gives their data;
the `dict` of assignments is a function, `none` where it has no entry. -/

namespace Dist

open FloatOps FloatNotation

/-! ## The Python sampler -/

namespace Dbg

variable {F σ : Type} [FloatOps F]

/-- `scores_to_probs` (distributions/util.py:33-38).  `max()` of an empty array raises.
The order of numpy's summation is not modelled: it is left to right here. -/
def scoresToProbs : List F → Res (List F)
  | [] => .fail
  | x :: xs =>
    let m := xs.foldl (fun a b => if lt a b then b else a) x
    let probs := (x :: xs).map fun y => exp (y - m)
    let total := probs.foldl (· + ·) (ofInt 0)
    .ok (probs.map fun p => p / total)

/-- One dart of `sample_discrete` (dbg/random.py:83-86): the first index at which the
dart is used up, if any. -/
def dartLoop : List F → Nat → F → Option Nat
  | [], _, _ => none
  | p :: ps, i, t =>
    let t := t - p
    if le t (ofInt 0) then some i else dartLoop ps (i + 1) t

/-- The attempts of `sample_discrete` (dbg/random.py:81-96): after the last one a
`ValueError` is raised.  `numpy.random.rand` is the uniform draw of `rng`. -/
def attempts (rng : Rng F σ) (probs : List F) (total : F) : Nat → σ → Res (Nat × σ)
  | 0, _ => .fail
  | n + 1, s =>
    let (u, s) := rng.unif01 s
    match dartLoop probs 0 (u * total) with
    | some i => .ok (i, s)
    | none => attempts rng probs total n s

/-- `sample_discrete(probs, total)` (dbg/random.py:72-96). -/
def sampleDiscrete (rng : Rng F σ) (s : σ) (probs : List F) (total : F) : Res (Nat × σ) :=
  attempts rng probs total 10 s

/-- `sample_discrete_log(scores)` (dbg/random.py:63-65). -/
def sampleDiscreteLog (rng : Rng F σ) (s : σ) (scores : List F) : Res (Nat × σ) := do
  let probs ← scoresToProbs scores
  sampleDiscrete rng s probs (lit 1 1)

end Dbg

/-! ## The mixture -/

/-- One feature: the column of the data row it reads, its model's group operations, its
model's cached value scorer with the state it is constructed in, and its model's
`score_data`, which the loops do not call (examples/mixture/main.py:65-70, 77-78). -/
structure FeatureModel (R S G V F : Type) where
  col : R → V
  ops : GroupOps G V
  vs : ValueScorerOps S G V F
  fresh : S
  scoreData : G → Res F

/-- `ImageModel.Mixture` (examples/mixture/main.py:74-79). -/
structure FullMixture (R S G V F : Type) where
  clustering : PitmanYor.Cached F
  features : List (FeatureModel R S G V F × MixtureSlave S G)
  tracker : IdTracker

namespace FullMixture

variable {R S G V F σ ι : Type} [FloatOps F]

/-- `ImageModel.Mixture()` (examples/mixture/main.py:75-79). -/
def raw (fs : List (FeatureModel R S G V F)) : FullMixture R S G V F :=
  ⟨⟨.raw [], []⟩, fs.map fun f => (f, ⟨[], f.fresh⟩), .raw⟩

/-- `len(mixture)` (examples/mixture/main.py:81-82). -/
def size (w : FullMixture R S G V F) : Nat := w.clustering.driver.counts.length

/-- `n` times `add_group` on one feature mixture (examples/mixture/main.py:93-95). -/
def addGroups (lvl : Nat) (f : FeatureModel R S G V F) :
    Nat → MixtureSlave S G → Res (MixtureSlave S G)
  | 0, m => .ok m
  | n + 1, m => do
    let m ← m.addGroup lvl f.ops f.vs
    addGroups lvl f n m

/-- `init(model, empty_group_count)` (examples/mixture/main.py:84-97).  `clear()` empties the groups and leaves
the scorer; the calls on the features are independent, so they are taken feature by feature. -/
def init (lvl : Nat) (m : PitmanYor F) (w : FullMixture R S G V F) (n : Nat) :
    Res (FullMixture R S G V F) := do
  distAssert0 (1 ≤ n)
  let c ← PitmanYor.Cached.init lvl m ⟨.raw (List.replicate n 0), w.clustering.shifted⟩
  distAssert0 (c.driver.counts.length = n)
  let t ← w.tracker.init n
  let fs ← w.features.mapM fun f => do
    let s ← addGroups lvl f.1 n ⟨[], f.2.scorer⟩
    let s ← s.init f.1.vs
    return (f.1, s)
  return ⟨c, fs, t⟩

/-- The features of `score_value` (examples/mixture/main.py:102-103), added up in `scores`. -/
def scoreFeatures (lvl : Nat) (r : R) :
    List (FeatureModel R S G V F × MixtureSlave S G) → List F → Res (List F)
  | [], scores => .ok scores
  | f :: fs, scores => do
    let scores ← f.2.scoreValue lvl f.1.vs (f.1.col r) scores
    scoreFeatures lvl r fs scores

/-- `scores.resize(len(mixture))` and `score_value(model, xy, scores)` (examples/mixture/main.py:99-103,
203-204): the scores of all groups. -/
def scoreValue (lvl : Nat) (m : PitmanYor F) (w : FullMixture R S G V F) (r : R) :
    Res (List F) := do
  let scores ← w.clustering.scoreValue lvl m w.size
  scoreFeatures lvl r w.features scores

/-- `add_value(model, groupid, xy)` (examples/mixture/main.py:105-113). -/
def addValue (lvl : Nat) (m : PitmanYor F) (w : FullMixture R S G V F) (groupid : Nat) (r : R) :
    Res (FullMixture R S G V F) := do
  let (c, groupAdded) ← w.clustering.addValue lvl m groupid 1
  let fs ← w.features.mapM fun f => do
    let s ← f.2.addValue lvl f.1.ops f.1.vs groupid (f.1.col r)
    return (f.1, s)
  if groupAdded then
    let fs ← fs.mapM fun f => do
      let s ← f.2.addGroup lvl f.1.ops f.1.vs
      return (f.1, s)
    let t ← w.tracker.addGroup
    return ⟨c, fs, t⟩
  else
    return ⟨c, fs, w.tracker⟩

/-- `remove_value(model, groupid, xy)` (examples/mixture/main.py:115-125). -/
def removeValue (lvl : Nat) (m : PitmanYor F) (w : FullMixture R S G V F) (groupid : Nat)
    (r : R) : Res (FullMixture R S G V F) := do
  let (c, groupRemoved) ← w.clustering.removeValue lvl m groupid 1
  let fs ← w.features.mapM fun f => do
    let s ← f.2.removeValue lvl f.1.ops f.1.vs groupid (f.1.col r)
    return (f.1, s)
  if groupRemoved then
    let fs ← fs.mapM fun f => do
      let s ← f.2.removeGroup lvl f.1.vs groupid
      return (f.1, s)
    let t ← w.tracker.removeGroup lvl groupid
    return ⟨c, fs, t⟩
  else
    return ⟨c, fs, w.tracker⟩

end FullMixture

/-! ## The inference loops -/

/-- The variables of an inference loop: `mixture` and `assignments`. -/
structure Inference (ι R S G V F : Type) where
  mixture : FullMixture R S G V F
  assignments : ι → Option Nat

namespace Inference

variable {R S G V F σ ι : Type} [FloatOps F] [DecidableEq ι]

/-- `assignments[i]`: a missing key raises. -/
def lookup (st : Inference ι R S G V F) (i : ι) : Res Nat :=
  match st.assignments i with
  | some g => .ok g
  | none => .fail

/-- `assignments[i] = g`. -/
def assign (a : ι → Option Nat) (i : ι) (g : Option Nat) : ι → Option Nat :=
  fun j => if j = i then g else a j

/-- Place a new item (examples/mixture/main.py:266-270, 332-336): score it, draw a group with `draw`, add it
and note its group.  `scored = false` scores with the clustering alone, which is how
`compress_gibbs` starts (examples/mixture/main.py:228-232). -/
def place (lvl : Nat) (m : PitmanYor F) (draw : List F → σ → Res (Nat × σ)) (scored : Bool)
    (rows : ι → R) (st : Inference ι R S G V F) (i : ι) (s : σ) :
    Res (Inference ι R S G V F × σ) := do
  let scores ← (if scored then st.mixture.scoreValue lvl m (rows i)
    else st.mixture.clustering.scoreValue lvl m st.mixture.size : Res (List F))
  let (groupid, s) ← draw scores s
  let w ← st.mixture.addValue lvl m groupid (rows i)
  let g ← w.tracker.packedToGlobalId lvl groupid
  return (⟨w, assign st.assignments i (some g)⟩, s)

/-- Take an item out (examples/mixture/main.py:338-340); its entry is popped. -/
def takeOut (lvl : Nat) (m : PitmanYor F) (rows : ι → R) (st : Inference ι R S G V F) (i : ι) :
    Res (Inference ι R S G V F) := do
  let g ← st.lookup i
  let groupid ← st.mixture.tracker.globalToPackedId lvl g
  let w ← st.mixture.removeValue lvl m groupid (rows i)
  return ⟨w, assign st.assignments i none⟩

/-- Resample one item (examples/mixture/main.py:238-244, 276-282): the body of the Gibbs loops. -/
def resample (lvl : Nat) (m : PitmanYor F) (draw : List F → σ → Res (Nat × σ))
    (rows : ι → R) (st : Inference ι R S G V F) (i : ι) (s : σ) :
    Res (Inference ι R S G V F × σ) := do
  let g ← st.lookup i
  let groupid ← st.mixture.tracker.globalToPackedId lvl g
  let w ← st.mixture.removeValue lvl m groupid (rows i)
  let scores ← w.scoreValue lvl m (rows i)
  let (groupid, s) ← draw scores s
  let w ← w.addValue lvl m groupid (rows i)
  let g ← w.tracker.packedToGlobalId lvl groupid
  return (⟨w, assign st.assignments i (some g)⟩, s)

/-- The loop `for i, xy in enumerate(…)` around the resampling of one item (examples/mixture/main.py:237),
over any list of items. -/
def resampleAll (lvl : Nat) (m : PitmanYor F) (draw : List F → σ → Res (Nat × σ))
    (rows : ι → R) : List ι → Inference ι R S G V F → σ → Res (Inference ι R S G V F × σ)
  | [], st, s => .ok (st, s)
  | i :: is, st, s => do
    let (st, s) ← resample lvl m draw rows st i s
    resampleAll lvl m draw rows is st s

/-- `for _ in xrange(passes)` (examples/mixture/main.py:236-244). -/
def passes (lvl : Nat) (m : PitmanYor F) (draw : List F → σ → Res (Nat × σ))
    (rows : ι → R) (items : List ι) :
    Nat → Inference ι R S G V F → σ → Res (Inference ι R S G V F × σ)
  | 0, st, s => .ok (st, s)
  | n + 1, st, s => do
    let (st, s) ← resampleAll lvl m draw rows items st s
    passes lvl m draw rows items n st s

/-- The initialisation loops (examples/mixture/main.py:227-232 unscored, 265-270 scored). -/
def placeAll (lvl : Nat) (m : PitmanYor F) (draw : List F → σ → Res (Nat × σ)) (scored : Bool)
    (rows : ι → R) : List ι → Inference ι R S G V F → σ → Res (Inference ι R S G V F × σ)
  | [], st, s => .ok (st, s)
  | i :: is, st, s => do
    let (st, s) ← place lvl m draw scored rows st i s
    placeAll lvl m draw scored rows is st s

/-- `compress_gibbs(passes)` (examples/mixture/main.py:213-248) without its input and output: the state it
ends in.  `items` are the numbers of the samples in the order of the file; `n` is
`empty_group_count`. -/
def compressGibbs (lvl : Nat) (m : PitmanYor F) (draw : List F → σ → Res (Nat × σ))
    (rows : ι → R) (fs : List (FeatureModel R S G V F)) (n : Nat) (items : List ι)
    (passCount : Nat) (s : σ) : Res (Inference ι R S G V F × σ) := do
  let w ← (FullMixture.raw fs).init lvl m n
  let (st, s) ← placeAll lvl m draw false rows items ⟨w, fun _ => none⟩ s
  passes lvl m draw rows items passCount st s

/-- `compress_seq_gibbs(passes)` (examples/mixture/main.py:251-286) without its input and output. -/
def compressSeqGibbs (lvl : Nat) (m : PitmanYor F) (draw : List F → σ → Res (Nat × σ))
    (rows : ι → R) (fs : List (FeatureModel R S G V F)) (n : Nat) (items : List ι)
    (passCount : Nat) (s : σ) : Res (Inference ι R S G V F × σ) := do
  distAssert0 (1 ≤ passCount)
  let w ← (FullMixture.raw fs).init lvl m n
  let (st, s) ← placeAll lvl m draw true rows items ⟨w, fun _ => none⟩ s
  passes lvl m draw rows items (passCount - 1) st s

end Inference

/-! ## Subsample annealing -/

/-- The variables of the loop of `compress_annealing` (examples/mixture/main.py:310-340): the
`state` of `annealing_schedule`, how many items the two `json_loop_load` generators have given,
and the variables of the inference loops.  `state` is an exact integer: its values are
whole numbers of size at most `passes`, which doubles hold exactly up to `2^53`. -/
structure Annealing (ι R S G V F : Type) where
  state : Int
  added : Nat
  removed : Nat
  inference : Inference ι R S G V F

namespace Annealing

variable {R S G V F σ ι : Type} [FloatOps F] [DecidableEq ι]

/-- `json_loop_load(SAMPLES)` (examples/mixture/main.py:289-292): the item it gives after
`t` items.  With no samples it never gives any. -/
def loopLoad (items : List ι) (t : Nat) : Option ι := items[t % items.length]?

/-- One round of the loop of `compress_annealing` (examples/mixture/main.py:328-340) with the
next action of `annealing_schedule` (examples/mixture/main.py:295-307).  `none` is `break`.
A generator that never gives an item is a round that changes nothing. -/
def step (lvl : Nat) (m : PitmanYor F) (draw : List F → σ → Res (Nat × σ)) (rows : ι → R)
    (items : List ι) (passes : Nat) (x : Annealing ι R S G V F) (s : σ) :
    Res (Option (Annealing ι R S G V F × σ)) :=
  if x.state ≥ 0 then
    match loopLoad items x.added with
    | none => .ok (some (x, s))
    | some i =>
      if x.inference.assignments i ≠ none then .ok none
      else do
        let (st, s) ← x.inference.place lvl m draw true rows i s
        return some (⟨x.state - ((passes : Int) - 1), x.added + 1, x.removed, st⟩, s)
  else
    match loopLoad items x.removed with
    | none => .ok (some (x, s))
    | some i => do
      let st ← x.inference.takeOut lvl m rows i
      return some (⟨x.state + passes, x.added, x.removed + 1, st⟩, s)

/-- At most `fuel` rounds of the loop: the variables at the `break`, or `none` if it is not
reached. -/
def loop (lvl : Nat) (m : PitmanYor F) (draw : List F → σ → Res (Nat × σ)) (rows : ι → R)
    (items : List ι) (passes : Nat) :
    Nat → Annealing ι R S G V F → σ → Res (Option (Annealing ι R S G V F × σ))
  | 0, _, _ => .ok none
  | fuel + 1, x, s => do
    match ← step lvl m draw rows items passes x s with
    | none => return some (x, s)
    | some (x, s) => loop lvl m draw rows items passes fuel x s

/-- `compress_annealing(passes)` (examples/mixture/main.py:310-344) without its input and output,
run for at most `fuel` rounds; `n` is `empty_group_count`. -/
def compressAnnealing (lvl : Nat) (m : PitmanYor F) (draw : List F → σ → Res (Nat × σ))
    (rows : ι → R) (fs : List (FeatureModel R S G V F)) (n : Nat) (items : List ι)
    (passes : Nat) (fuel : Nat) (s : σ) : Res (Option (Annealing ι R S G V F × σ)) := do
  distAssert0 (1 ≤ passes)
  let w ← (FullMixture.raw fs).init lvl m n
  loop lvl m draw rows items passes fuel ⟨passes, 0, 0, ⟨w, fun _ => none⟩⟩ s

end Annealing

end Dist
