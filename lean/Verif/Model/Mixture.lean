import Verif.Model.Slave
import Verif.Model.Random

/-! # `MixtureSlave` (include/distributions/mixture.hpp:227-450)

The template joining the groups of a feature mixture with a cached value scorer and a
data scorer.  The template parameters `ValueScorer` and `DataScorer` are records of
functions.  The `rng` argument of the scorers is never used by any of them. -/

namespace Dist

open FloatOps FloatNotation

/-- The static interface `MixtureSlave` requires of its `ValueScorer` parameter, for a
fixed `Shared` (mixture.hpp:270-298 gives the defaults).  `S` is the scorer's state. -/
structure ValueScorerOps (S G V F : Type) where
  resize : S → Nat → Res S
  addGroup : S → Res S
  removeGroup : S → Nat → Res S
  updateGroup : S → Nat → G → Res S
  addValue : S → Nat → G → V → Res S
  removeValue : S → Nat → G → V → Res S
  updateAll : S → List G → Res S
  scoreValueGroup : S → List G → Nat → V → Res F
  /-- `scores_accum` in, `scores_accum` out -/
  scoreValue : S → List G → V → List F → Res (List F)

/-- A feature mixture: the groups and the state of the value scorer. -/
structure MixtureSlave (S G : Type) where
  groups : List G
  scorer : S

namespace MixtureSlave

variable {S G V F : Type}

/-- `MixtureSlave::init` (mixture.hpp:354-359). -/
def init (vs : ValueScorerOps S G V F) (m : MixtureSlave S G) : Res (MixtureSlave S G) := do
  let s ← vs.resize m.scorer m.groups.length
  let s ← vs.updateAll s m.groups
  return ⟨m.groups, s⟩

/-- `MixtureSlave::add_group` (mixture.hpp:361-368). -/
def addGroup (lvl : Nat) (ops : GroupOps G V) (vs : ValueScorerOps S G V F)
    (m : MixtureSlave S G) : Res (MixtureSlave S G) := do
  let groupid := m.groups.length
  let gs := SlaveGroups.addGroup ops m.groups
  let s ← vs.addGroup m.scorer
  let g ← SlaveGroups.groupAt lvl gs groupid
  let s ← vs.updateGroup s groupid g
  return ⟨gs, s⟩

/-- `MixtureSlave::remove_group` (mixture.hpp:370-375). -/
def removeGroup (lvl : Nat) (vs : ValueScorerOps S G V F) (m : MixtureSlave S G)
    (groupid : Nat) : Res (MixtureSlave S G) := do
  let gs ← SlaveGroups.removeGroup lvl m.groups groupid
  let s ← vs.removeGroup m.scorer groupid
  return ⟨gs, s⟩

/-- `MixtureSlave::add_value` (mixture.hpp:377-384). -/
def addValue (lvl : Nat) (ops : GroupOps G V) (vs : ValueScorerOps S G V F)
    (m : MixtureSlave S G) (groupid : Nat) (v : V) : Res (MixtureSlave S G) := do
  let gs ← SlaveGroups.addValue lvl ops m.groups groupid v
  let g ← SlaveGroups.groupAt lvl gs groupid
  let s ← vs.addValue m.scorer groupid g v
  return ⟨gs, s⟩

/-- `MixtureSlave::remove_value` (mixture.hpp:386-398). -/
def removeValue (lvl : Nat) (ops : GroupOps G V) (vs : ValueScorerOps S G V F)
    (m : MixtureSlave S G) (groupid : Nat) (v : V) : Res (MixtureSlave S G) := do
  let gs ← SlaveGroups.removeValue lvl ops m.groups groupid v
  let g ← SlaveGroups.groupAt lvl gs groupid
  let s ← vs.removeValue m.scorer groupid g v
  return ⟨gs, s⟩

/-- `MixtureSlave::score_value_group` (mixture.hpp:400-414). -/
def scoreValueGroup (lvl : Nat) (vs : ValueScorerOps S G V F) (m : MixtureSlave S G)
    (groupid : Nat) (v : V) : Res F := do
  distAssert lvl 2 (groupid < m.groups.length)
  vs.scoreValueGroup m.scorer m.groups groupid v

/-- `MixtureSlave::score_value` (mixture.hpp:416-425). -/
def scoreValue (lvl : Nat) (vs : ValueScorerOps S G V F) (m : MixtureSlave S G)
    (v : V) (accum : List F) : Res (List F) := do
  distAssert lvl 2 (accum.length = m.groups.length)
  vs.scoreValue m.scorer m.groups v accum

end MixtureSlave

/-! ## Loops over the groups shared by all scorers -/

/-- `for (i = 0; i < size; ++i) scores_accum[i] += f(i)` with `size = scores_accum.size()`;
reading past the end of a cached vector inside `f` is undefined. -/
def accumulate {F : Type} [FloatOps F] (f : Nat → Res F) : Nat → List F → Res (List F)
  | _, [] => .ok []
  | i, a :: as => do
    let x ← f i
    let as ← accumulate f (i + 1) as
    return (a + x) :: as

/-- `vector_add_subtract(scores_accum, in1, in2)` (src/vector_math.cc:160-168): reads
`scores_accum.size()` entries of both inputs. -/
def vectorAddSubtract {F : Type} [FloatOps F] (accum in1 in2 : List F) : Res (List F) :=
  accumulate (fun i => do
    let x ← getAt in1 i
    let y ← getAt in2 i
    return x - y) 0 accum

/-- `vector_add(scores_accum, in)` (src/vector_math.cc:132-139). -/
def vectorAdd {F : Type} [FloatOps F] (accum inp : List F) : Res (List F) :=
  accumulate (fun i => getAt inp i) 0 accum

/-- `v.resize(n, x)`: cut or extend with copies of `x` (value-initialised floats are 0). -/
def resizeWith {F : Type} (v : List F) (n : Nat) (x : F) : List F :=
  v.take n ++ List.replicate (n - v.length) x

/-! ## Fallback scorers -/

/-- `SmallMixtureSlaveDataScorer::score_data` (mixture.hpp:258-267). -/
def smallScoreData {F G : Type} [FloatOps F] (scoreData : G → Res F) (gs : List G) : Res F :=
  gs.foldlM (fun score g => do
    let x ← scoreData g
    return score + x) (ofInt 0)

/-- `MixtureSlaveDataScorerMixin::score_data_grid` (mixture.hpp:238-247): entry `i` of
the output is `score_data` under the `i`-th hyperparameter. -/
def scoreDataGrid {F H G : Type} (scoreData : H → List G → Res F) (shareds : List H)
    (gs : List G) (out : List F) : Res (List F) := do
  distAssert0 (shareds.length = out.length)
  shareds.mapM fun h => scoreData h gs

/-- Loop of `SmallMixtureSlaveValueScorer::score_value` (mixture.hpp:333-336): over the
groups, writing `scores_accum[i]`. -/
def smallScoreLoop {F G : Type} [FloatOps F] (score : G → Res F) : List G → List F → Res (List F)
  | [], as => .ok as
  | _ :: _, [] => .ub
  | g :: gs, a :: as => do
    let x ← score g
    let as ← smallScoreLoop score gs as
    return (a + x) :: as

/-- `SmallMixtureSlaveValueScorer` (mixture.hpp:300-338), which inherits the empty
bookkeeping functions of the mixin (mixture.hpp:277-297). -/
def smallValueScorer {F G V : Type} [FloatOps F] (lvl : Nat) (score : G → V → Res F) :
    ValueScorerOps Unit G V F where
  resize _ _ := .ok ()
  addGroup _ := .ok ()
  removeGroup _ _ := .ok ()
  updateGroup _ _ _ := .ok ()
  addValue _ _ _ _ := .ok ()
  removeValue _ _ _ _ := .ok ()
  updateAll _ _ := .ok ()
  scoreValueGroup _ gs groupid v := do
    distAssert lvl 2 (groupid < gs.length)
    let g ← getAt gs groupid
    score g v
  scoreValue _ gs v accum := do
    distAssert lvl 2 (accum.length = gs.length)
    smallScoreLoop (fun g => score g v) gs accum

end Dist
