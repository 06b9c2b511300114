import Verif.Model.Mixture

/-! # Dirichlet-Discrete (include/distributions/models/dd.hpp)

The arrays `alphas[max_dim]`, `counts[max_dim]` are modelled by their initialised part,
lists of length `dim`.  Reading or incrementing an entry at or beyond `dim` (an
uninitialised `int` if below `max_dim`, outside the array otherwise), or a negative
one, is undefined behaviour. -/

namespace Dist.DD

open FloatOps FloatNotation

/-- `Shared` (dd.hpp:57-86); `dim` is the length. -/
structure Shared (F : Type) where
  alphas : List F

/-- `Group` (dd.hpp:89-199); `dim` is the length of `counts`. -/
structure Group where
  countSum : Int
  counts : List Int
deriving DecidableEq, Repr

/-- `a[i]` with an `int` index. -/
def readAt {α : Type} (l : List α) (i : Int) : Res α :=
  if 0 ≤ i then getAt l i.toNat else .ub

/-- `a[i] = x` with an `int` index. -/
def writeAt {α : Type} (l : List α) (i : Int) (x : α) : Res (List α) :=
  if 0 ≤ i then setAt l i.toNat x else .ub

namespace Group

/-- `Group::init` (dd.hpp:113-121). -/
def init (dim : Nat) : Group := ⟨0, List.replicate dim 0⟩

/-- `Group::add_value` (dd.hpp:123-130). -/
def addValue (lvl : Nat) (g : Group) (value : Int) : Res Group := do
  distAssert lvl 1 (value < g.counts.length)
  let s ← i32 (g.countSum + 1)
  let c ← readAt g.counts value
  let c ← i32 (c + 1)
  let cs ← writeAt g.counts value c
  return ⟨s, cs⟩

/-- `Group::add_repeated_value` (dd.hpp:132-140). -/
def addRepeatedValue (lvl : Nat) (g : Group) (value count : Int) : Res Group := do
  distAssert lvl 1 (value < g.counts.length)
  let s ← i32 (g.countSum + count)
  let c ← readAt g.counts value
  let c ← i32 (c + count)
  let cs ← writeAt g.counts value c
  return ⟨s, cs⟩

/-- `Group::remove_value` (dd.hpp:142-149). -/
def removeValue (lvl : Nat) (g : Group) (value : Int) : Res Group := do
  distAssert lvl 1 (value < g.counts.length)
  let s ← i32 (g.countSum - 1)
  let c ← readAt g.counts value
  let c ← i32 (c - 1)
  let cs ← writeAt g.counts value c
  return ⟨s, cs⟩

/-- Loop of `merge` over `value < dim` (dd.hpp:155-157). -/
def mergeLoop : List Int → List Int → Res (List Int)
  | [], _ => .ok []
  | _ :: _, [] => .ub
  | a :: as, b :: bs => do
    let x ← i32 (a + b)
    let xs ← mergeLoop as bs
    return x :: xs

/-- `Group::merge` (dd.hpp:151-158): the counts only, not `count_sum`. -/
def merge (g source : Group) : Res Group := do
  let cs ← mergeLoop g.counts source.counts
  return ⟨g.countSum, cs⟩

/-- `Group::validate` (dd.hpp:196-198). -/
def validate {F : Type} (sh : Shared F) (g : Group) : Res Unit :=
  distAssert0 (g.counts.length = sh.alphas.length)

end Group

variable {F : Type} [FloatOps F]

/-- Loop of `score_data` over `value < dim` (dd.hpp:175-180): `alphas`, `counts` from
the current value on, and the accumulated score and alpha sum. -/
def scoreLoop : List F → List Int → F → F → Res (F × F)
  | _, [], score, alphaSum => .ok (score, alphaSum)
  | [], _ :: _, _, _ => .ub
  | alpha :: as, c :: cs, score, alphaSum =>
    scoreLoop as cs (score + (lgamma (alpha + ofInt c) - lgamma alpha)) (alphaSum + alpha)

/-- `Group::score_data` (dd.hpp:169-186). -/
def Group.scoreData (sh : Shared F) (g : Group) : Res F := do
  let (score, alphaSum) ← scoreLoop sh.alphas g.counts (ofInt 0) (ofInt 0)
  return score + (lgamma alphaSum - lgamma (alphaSum + ofInt g.countSum))

/-- `Scorer` (dd.hpp:222-245). -/
structure Scorer (F : Type) where
  alphaSum : F
  alphas : List F

/-- Loop computing `shared.alphas[value] + group.counts[value]` for `value < shared.dim`
(dd.hpp:230-235, and dd.hpp:208-210 in the sampler). -/
def posterior : List F → List Int → Res (List F)
  | [], _ => .ok []
  | _ :: _, [] => .ub
  | a :: as, c :: cs => do
    let xs ← posterior as cs
    return (a + ofInt c) :: xs

/-- `Scorer::init` (dd.hpp:226-236). -/
def Scorer.init (sh : Shared F) (g : Group) : Res (Scorer F) := do
  let alphas ← posterior sh.alphas g.counts
  return ⟨alphas.foldl (· + ·) (ofInt 0), alphas⟩

/-- `Scorer::eval` (dd.hpp:238-244); the scorer's array has `shared.dim` entries. -/
def Scorer.eval (lvl : Nat) (sh : Shared F) (s : Scorer F) (value : Int) : Res F := do
  distAssert lvl 1 (value < sh.alphas.length)
  let a ← readAt s.alphas value
  return log (a / s.alphaSum)

/-- `Group::score_value` (dd.hpp:160-167). -/
def Group.scoreValue (lvl : Nat) (sh : Shared F) (g : Group) (value : Int) : Res F := do
  let s ← Scorer.init sh g
  s.eval lvl sh value

/-- `Group::sample_value` (dd.hpp:188-194) with `Sampler` (dd.hpp:201-220). -/
def Group.sampleValue {σ : Type} (rng : Rng F σ) (s : σ) (sh : Shared F) (g : Group) :
    Res (Nat × σ) := do
  let ps ← posterior sh.alphas g.counts
  let (ps, s) := sampleDirichlet rng s ps
  sampleDiscrete rng s ps

/-! ## `MixtureDataScorer` (dd.hpp:247-344) -/

/-- The mutable members `alpha_sum_`, `shared_part_`, `scores_` (dd.hpp:341-343), the
last entries of the two vectors kept apart. -/
structure DataCache (F : Type) where
  alphaSum : F
  sharedPart : List F
  sharedBack : F
  scores : List F
  scoresBack : F

/-- Inner loop over `i < dim` for one group (dd.hpp:305-309): new `scores_[i]`. -/
def initLoop : List F → List Int → List F → List F → Res (List F)
  | [], _, _, _ => .ok []
  | a :: as, c :: cs, p :: ps, x :: xs => do
    let rest ← initLoop as cs ps xs
    return (x + (lgamma (a + ofInt c) - p)) :: rest
  | _ :: _, _, _, _ => .ub

/-- Loop over the groups (dd.hpp:303-313). -/
def initGroups (alphas : List F) (alphaSum : F) (sharedPart : List F) (sharedBack : F) :
    List Group → List F → F → Res (List F × F)
  | [], scores, back => .ok (scores, back)
  | g :: gs, scores, back =>
    if g.countSum ≠ 0 then do
      let scores ← initLoop alphas g.counts sharedPart scores
      let back := back + (sharedBack - lgamma (alphaSum + ofInt g.countSum))
      initGroups alphas alphaSum sharedPart sharedBack gs scores back
    else initGroups alphas alphaSum sharedPart sharedBack gs scores back

/-- `_init` (dd.hpp:287-314). -/
def dataInit (sh : Shared F) (gs : List Group) : Res (DataCache F) := do
  let alphaSum := sh.alphas.foldl (· + ·) (ofInt 0)
  let sharedPart := sh.alphas.map lgamma
  let sharedBack := lgamma alphaSum
  let (scores, back) ← initGroups sh.alphas alphaSum sharedPart sharedBack gs
    (List.replicate sh.alphas.length (ofInt 0)) (ofInt 0)
  return ⟨alphaSum, sharedPart, sharedBack, scores, back⟩

/-- `_eval` (dd.hpp:316-318). -/
def dataEval (c : DataCache F) : F := vectorSum (c.scores ++ [c.scoresBack])

/-- `MixtureDataScorer::score_data` (dd.hpp:250-256). -/
def scoreData (sh : Shared F) (gs : List Group) : Res F := do
  let c ← dataInit sh gs
  return dataEval c

/-- Loop over the groups in `_update` (dd.hpp:333-338). -/
def updateLoop (value : Nat) (newAlpha part back alphaSum : F) :
    List Group → F → F → Res (F × F)
  | [], x, y => .ok (x, y)
  | g :: gs, x, y => do
    let c ← getAt g.counts value
    updateLoop value newAlpha part back alphaSum gs
      (x + (lgamma (newAlpha + ofInt c) - part))
      (y + (back - lgamma (alphaSum + ofInt g.countSum)))

/-- `_update(value, old_alpha, new_alpha, groups)` (dd.hpp:320-339).  `alpha_sum_` is
a `double`; both precisions are `F` here. -/
def dataUpdate (c : DataCache F) (value : Nat) (oldAlpha newAlpha : F) (gs : List Group) :
    Res (DataCache F) := do
  let part := lgamma newAlpha
  let sharedPart ← setAt c.sharedPart value part
  let alphaSum := c.alphaSum + (newAlpha - oldAlpha)
  let back := lgamma alphaSum
  let (x, y) ← updateLoop value newAlpha part back alphaSum gs (ofInt 0) (ofInt 0)
  let scores ← setAt c.scores value x
  return ⟨alphaSum, sharedPart, back, scores, y⟩

/-- Loop over `value < dim` for one grid step (dd.hpp:274-280), from position `value`
of the old and new alphas on.  `new_alpha != old_alpha` is `!eqf`. -/
def gridStep (gs : List Group) : Nat → List F → List F → DataCache F → Res (DataCache F)
  | _, [], _, c => .ok c
  | _, _ :: _, [], _ => .ub
  | value, o :: os, n :: ns, c => do
    let c ← (if eqf n o then .ok c else dataUpdate c value o n gs : Res (DataCache F))
    gridStep gs (value + 1) os ns c

/-- Loop over the remaining grid points (dd.hpp:271-282), `dim` the dimension of the
first one. -/
def gridLoop (dim : Nat) (gs : List Group) : Shared F → List (Shared F) → DataCache F →
    Res (List F)
  | _, [], _ => .ok []
  | prev, sh :: shs, c => do
    let c ← gridStep gs 0 (prev.alphas.take dim) sh.alphas c
    let rest ← gridLoop dim gs sh shs c
    return dataEval c :: rest

/-- `MixtureDataScorer::score_data_grid` (dd.hpp:259-284); `out` is `scores_out`.  All
grid points are expected to have the dimension of the first; a shorter one is read past
its initialised part, which `gridStep` reports (for its own and the following step). -/
def scoreDataGrid (shareds : List (Shared F)) (gs : List Group) (out : List F) :
    Res (List F) := do
  distAssert0 (shareds.length = out.length)
  match shareds with
  | [] => return []
  | sh :: shs => do
    let c ← dataInit sh gs
    let rest ← gridLoop sh.alphas.length gs sh shs c
    return dataEval c :: rest

/-! ## `MixtureValueScorer` (dd.hpp:346-472) -/

/-- Members `alpha_sum_`, `scores_`, `scores_shift_` (dd.hpp:469-471).  `alpha_sum_` is
uninitialised until `update_all`. -/
structure Cache (F : Type) where
  alphaSum : Option F
  scores : List (List F)
  shift : List F

/-- A default-constructed scorer. -/
def Cache.raw : Cache F := ⟨none, [], []⟩

/-- Read an uninitialised-or-not member. -/
def readInit {α : Type} : Option α → Res α
  | some a => .ok a
  | none => .ub

/-- `for (value = 0; value < shared.dim; ++value) scores_[value] = f(value, scores_[value])`:
entries at and beyond `shared.dim` stay; fewer than `shared.dim` vectors is undefined. -/
def forValues (f : Nat → List F → Res (List F)) : Nat → Nat → List (List F) → Res (List (List F))
  | 0, _, ss => .ok ss
  | _ + 1, _, [] => .ub
  | n + 1, v, s :: ss => do
    let s ← f v s
    let ss ← forValues f n (v + 1) ss
    return s :: ss

/-- `update_group` (dd.hpp:369-379). -/
def updateGroup (sh : Shared F) (c : Cache F) (groupid : Nat) (g : Group) : Res (Cache F) := do
  let asum ← readInit c.alphaSum
  let shift ← setAt c.shift groupid (log (asum + ofInt g.countSum))
  let scores ← forValues (fun v s => do
      let a ← getAt sh.alphas v
      let n ← getAt g.counts v
      setAt s groupid (log (a + ofInt n))) sh.alphas.length 0 c.scores
  return ⟨c.alphaSum, scores, shift⟩

/-- `_update_group_value` (dd.hpp:458-467). -/
def updateGroupValue (lvl : Nat) (sh : Shared F) (c : Cache F) (groupid : Nat) (g : Group)
    (value : Int) : Res (Cache F) := do
  distAssert lvl 1 (value < sh.alphas.length)
  let s ← readAt c.scores value
  let a ← readAt sh.alphas value
  let n ← readAt g.counts value
  let s ← setAt s groupid (log (a + ofInt n))
  let scores ← writeAt c.scores value s
  let asum ← readInit c.alphaSum
  let shift ← setAt c.shift groupid (log (asum + ofInt g.countSum))
  return ⟨c.alphaSum, scores, shift⟩

/-- One group of the double loop of `update_all` (dd.hpp:409-416), before the logs are
taken. -/
def updateAllLoop (sh : Shared F) (asum : F) : Nat → List Group → List (List F) → List F →
    Res (List (List F) × List F)
  | _, [], scores, shift => .ok (scores, shift)
  | groupid, g :: gs, scores, shift => do
    let scores ← forValues (fun v s => do
        let a ← getAt sh.alphas v
        let n ← getAt g.counts v
        setAt s groupid (a + ofInt n)) sh.alphas.length 0 scores
    let shift ← setAt shift groupid (asum + ofInt g.countSum)
    updateAllLoop sh asum (groupid + 1) gs scores shift

/-- `vector_log(n, v)` (src/vector_math.cc:241-255): the first `n` entries. -/
def vectorLog (n : Nat) (v : List F) : Res (List F) :=
  if n ≤ v.length then .ok ((v.take n).map log ++ v.drop n) else .ub

/-- `update_all` (dd.hpp:399-421). -/
def updateAll (sh : Shared F) (c : Cache F) (gs : List Group) : Res (Cache F) := do
  let asum := sh.alphas.foldl (· + ·) (ofInt 0)
  let (scores, shift) ← updateAllLoop sh asum 0 gs c.scores c.shift
  let shift ← vectorLog gs.length shift
  let scores ← forValues (fun _ s => vectorLog gs.length s) sh.alphas.length 0 scores
  return ⟨some asum, scores, shift⟩

/-- `MixtureValueScorer` (dd.hpp:346-472). -/
def valueScorer (lvl : Nat) (sh : Shared F) : ValueScorerOps (Cache F) Group Int F where
  -- dd.hpp:347-353
  resize c size := .ok ⟨c.alphaSum,
    (resizeWith c.scores sh.alphas.length []).map fun s => resizeWith s size (ofInt 0),
    resizeWith c.shift size (ofInt 0)⟩
  -- dd.hpp:355-360
  addGroup c := do
    let shift := packedAdd c.shift (ofInt 0)
    let scores ← forValues (fun _ s => .ok (packedAdd s (ofInt 0))) sh.alphas.length 0 c.scores
    return ⟨c.alphaSum, scores, shift⟩
  -- dd.hpp:362-367
  removeGroup c groupid := do
    let shift ← packedRemove lvl c.shift groupid
    let scores ← forValues (fun _ s => packedRemove lvl s groupid) sh.alphas.length 0 c.scores
    return ⟨c.alphaSum, scores, shift⟩
  updateGroup := updateGroup sh
  -- dd.hpp:381-388
  addValue := updateGroupValue lvl sh
  -- dd.hpp:390-397
  removeValue := updateGroupValue lvl sh
  updateAll := updateAll sh
  -- dd.hpp:423-431
  scoreValueGroup c _ groupid value := do
    distAssert lvl 1 (value < sh.alphas.length)
    let s ← readAt c.scores value
    let x ← getAt s groupid
    let y ← getAt c.shift groupid
    return x - y
  -- dd.hpp:433-445
  scoreValue c _ value accum := do
    distAssert lvl 1 (value < sh.alphas.length)
    let s ← readAt c.scores value
    vectorAddSubtract accum s c.shift

/-- The group operations as used by `MixtureSlave`. -/
def ops (lvl dim : Nat) : GroupOps Group Int :=
  ⟨Group.init dim, Group.addValue lvl, Group.removeValue lvl⟩

end Dist.DD
