import Verif.Base.FMapLoop
import Verif.Model.Sparse
import Verif.Model.Mixture

/-! # Dirichlet-Process-Discrete (include/distributions/models/dpd.hpp)

Hash tables are `FMap`s.  Loops over a table whose iterations are independent of each
other are `mapEntries`/`mapValues`; loops that accumulate take the visiting order `ks`. -/

namespace Dist.DPD

open FloatOps FloatNotation

/-- `OTHER()` (dpd.hpp:55). -/
def other : UInt32 := 0xFFFFFFFF

/-- `MIN_BETA()` (dpd.hpp:56). -/
def minBeta {F : Type} [FloatOps F] : F := lit 1 1000000

/-- `Shared` (dpd.hpp:59-64). -/
structure Shared (F : Type) where
  gamma : F
  alpha : F
  beta0 : F
  betas : FMap UInt32 F
  counts : SparseCounter UInt32

/-- `Group` (dpd.hpp:157-158). -/
abbrev Group := SparseCounter UInt32

variable {F σ : Type} [FloatOps F]

namespace Shared

/-- `std::max(a, b)`: `(a < b) ? b : a`. -/
def maxf (a b : F) : F := if lt a b then b else a

/-- `std::min(a, b)`: `(b < a) ? b : a`. -/
def minf (a b : F) : F := if lt b a then b else a

/-- `Shared::add_value` (dpd.hpp:66-74). -/
def addValue (lvl : Nat) (rng : Rng F σ) (sh : Shared F) (value : UInt32) (s : σ) :
    Res (Shared F × σ) := do
  distAssert lvl 1 (value ≠ other)
  let (n, counts) ← sh.counts.add value 1
  if n = 1 then
    distAssert0 (lt (ofInt 0) sh.beta0 = true)
    let (p, s) ← sampleBetaSafe rng s (lit 1 1) sh.gamma minBeta
    let beta := sh.beta0 * p
    let beta0 := maxf minBeta (sh.beta0 - beta)
    let betas ← Sparse.add lvl sh.betas value beta
    return (⟨sh.gamma, sh.alpha, beta0, betas, counts⟩, s)
  else
    return ({ sh with counts := counts }, s)

/-- `Shared::remove_value` (dpd.hpp:76-81). -/
def removeValue (lvl : Nat) (sh : Shared F) (value : UInt32) : Res (Shared F) := do
  distAssert lvl 1 (value ≠ other)
  let (n, counts) ← sh.counts.remove value
  if n = 0 then
    let (beta, betas) ← Sparse.pop lvl sh.betas value
    return ⟨sh.gamma, sh.alpha, minf (lit 1 1) (sh.beta0 + beta), betas, counts⟩
  else
    return { sh with counts := counts }

/-- First loop of `realize` (dpd.hpp:87-90), over the keys in visiting order: the
largest of 0 and all `1 + key` in `uint32_t` arithmetic. -/
def firstNew (ks : List UInt32) : UInt32 :=
  ks.foldl (fun m k => if m < 1 + k then 1 + k else m) 0

/-- The `while` loop of `realize` (dpd.hpp:92-94), run for at most `fuel` iterations;
`none` means it is still running. -/
def realizeLoop (lvl : Nat) (rng : Rng F σ) : Nat → Shared F → UInt32 → σ →
    Option (Res (Shared F × UInt32 × σ))
  | fuel, sh, newValue, s =>
    if sh.betas.size < 10000 - 1 ∧ lt (lit 1 10000) sh.beta0 = true then
      match fuel with
      | 0 => none
      | fuel + 1 =>
        match sh.addValue lvl rng newValue s with
        | .ok (sh, s) => realizeLoop lvl rng fuel sh (newValue + 1) s
        | .fail => some .fail
        | .ub => some .ub
    else some (.ok (sh, newValue, s))

/-- The tail of `realize` (dpd.hpp:96-100). -/
def realizeLast (lvl : Nat) (rng : Rng F σ) (sh : Shared F) (newValue : UInt32) (s : σ) :
    Res (Shared F × σ) := do
  if lt (ofInt 0) sh.beta0 = true then
    let (sh, s) ← sh.addValue lvl rng newValue s
    let b ← Sparse.get lvl sh.betas newValue
    let betas ← Sparse.set lvl sh.betas newValue (b + sh.beta0)
    return ({ sh with betas := betas, beta0 := ofInt 0 }, s)
  else return (sh, s)

/-- `Shared::realize` (dpd.hpp:83-101) with at most `fuel` iterations of its loop; `ks`
is the visiting order of `betas`. -/
def realize (lvl : Nat) (rng : Rng F σ) (fuel : Nat) (ks : List UInt32) (sh : Shared F) (s : σ) :
    Option (Res (Shared F × σ)) :=
  match realizeLoop lvl rng fuel sh (firstNew ks) s with
  | none => none
  | some r => some (do
    let (sh, newValue, s) ← r
    realizeLast lvl rng sh newValue s)

end Shared

namespace Group

/-- `Group::init` (dpd.hpp:182-186). -/
def init (_g : Group) : Group := SparseCounter.clear _g

/-- `Group::add_repeated_value` (dpd.hpp:197-205). -/
def addRepeatedValue (lvl : Nat) (sh : Shared F) (g : Group) (value : UInt32) (count : Int) :
    Res Group := do
  distAssert lvl 1 (value ≠ other)
  distAssert lvl 1 (sh.betas.contains value = true)
  let (_, c) ← SparseCounter.add g value count
  return c

/-- `Group::add_value` (dpd.hpp:188-195). -/
def addValue (lvl : Nat) (sh : Shared F) (g : Group) (value : UInt32) : Res Group := do
  distAssert lvl 1 (value ≠ other)
  distAssert lvl 1 (sh.betas.contains value = true)
  let (_, c) ← SparseCounter.add g value 1
  return c

/-- `Group::remove_value` (dpd.hpp:207-214). -/
def removeValue (lvl : Nat) (sh : Shared F) (g : Group) (value : UInt32) : Res Group := do
  distAssert lvl 1 (value ≠ other)
  distAssert lvl 1 (sh.betas.contains value = true)
  let (_, c) ← SparseCounter.remove g value
  return c

/-- `Group::merge` (dpd.hpp:216-221); `ks` is the visiting order of `source`. -/
def merge (g source : Group) (ks : List UInt32) : Res Group := SparseCounter.merge g source ks

/-- `Group::score_value` (dpd.hpp:223-233). -/
def scoreValue (lvl : Nat) (sh : Shared F) (g : Group) (value : UInt32) : Res F := do
  let numer ← (if value = other then .ok (sh.alpha * sh.beta0)
    else do
      let b ← Sparse.get lvl sh.betas value
      return sh.alpha * b + ofInt (SparseCounter.getCount g value) : Res F)
  let t ← SparseCounter.getTotal g
  return log (numer / (sh.alpha + ofInt t))

/-- Conversion `int` to `size_t`: `const size_t total = counts.get_total()`. -/
def toSize (t : Int) : Int := t % 18446744073709551616

/-- Loop of `score_data` (dpd.hpp:242-247) over the entries in visiting order. -/
def scoreLoop (lvl : Nat) (sh : Shared F) : List (UInt32 × Int) → F → Res F
  | [], score => .ok score
  | (value, n) :: es, score => do
    let b ← Sparse.get lvl sh.betas value
    let prior := sh.alpha * b
    scoreLoop lvl sh es (score + (lgamma (prior + ofInt n) - lgamma prior))

/-- `Group::score_data` (dpd.hpp:235-252); `ks` is the visiting order of the counts. -/
def scoreData (lvl : Nat) (sh : Shared F) (g : Group) (ks : List UInt32) : Res F := do
  let t ← SparseCounter.getTotal g
  let total := toSize t
  let score ← scoreLoop lvl sh (g.map.entries ks) (ofInt 0)
  return score + (lgamma sh.alpha - lgamma (sh.alpha + ofInt total))

/-- `Group::validate` (dpd.hpp:262-271). -/
def validate (sh : Shared F) (g : Group) : Res Unit :=
  distAssert0 (∀ k ∈ g.map.keys, SparseCounter.getCount g k ≠ 0 → sh.counts.getCount k ≠ 0)

end Group

/-- First loop and tail of `Sampler::init` (dpd.hpp:286-296): values and unnormalised
probabilities, `ks` the visiting order of the betas. -/
def samplerTable (sh : Shared F) (g : Group) (ks : List UInt32) : List (UInt32 × F) :=
  (sh.betas.entries ks).map (fun e => (e.1, e.2 * sh.alpha + ofInt (SparseCounter.getCount g e.1)))
    ++ (if lt (ofInt 0) sh.beta0 then [(other, sh.beta0 * sh.alpha)] else [])

/-- `Group::sample_value` (dpd.hpp:254-260) with `Sampler` (dpd.hpp:274-307). -/
def Group.sampleValue (rng : Rng F σ) (s : σ) (sh : Shared F) (g : Group) (ks : List UInt32) :
    Res (UInt32 × σ) := do
  let table := samplerTable sh g ks
  let (ps, s) := sampleDirichlet rng s (table.map Prod.snd)
  let (i, s) ← sampleDiscrete rng s ps
  let v ← getAt (table.map Prod.fst) i
  return (v, s)

/-! ## `Scorer` (dpd.hpp:309-342) -/

/-- Loop adding the scaled prior weights (dpd.hpp:321-323). -/
def addBetas (lvl : Nat) (scale : F) : List (UInt32 × F) → FMap UInt32 F → Res (FMap UInt32 F)
  | [], m => .ok m
  | (v, b) :: es, m => do
    let m ← Sparse.add lvl m v (b * scale)
    addBetas lvl scale es m

/-- Loop adding the scaled counts (dpd.hpp:326-328). -/
def addCounts (lvl : Nat) (scale : F) : List (UInt32 × Int) → FMap UInt32 F → Res (FMap UInt32 F)
  | [], m => .ok m
  | (v, n) :: es, m => do
    let x ← Sparse.get lvl m v
    let m ← Sparse.set lvl m v (x + scale * ofInt n)
    addCounts lvl scale es m

/-- `Scorer::init` (dpd.hpp:312-334); `kb`, `kc` are the visiting orders of the betas and
of the counts. -/
def Scorer.init (lvl : Nat) (sh : Shared F) (g : Group) (kb kc : List UInt32) :
    Res (FMap UInt32 F) := do
  let t ← SparseCounter.getTotal g
  let total := Group.toSize t
  let betaScale := sh.alpha / (sh.alpha + ofInt total)
  let m ← Sparse.add lvl FMap.empty other (betaScale * sh.beta0)
  let m ← addBetas lvl betaScale (sh.betas.entries kb) m
  let countsScale := lit 1 1 / (sh.alpha + ofInt total)
  let m ← addCounts lvl countsScale (g.map.entries kc) m
  return m.mapValues fun _ x => log x

/-- `Scorer::eval` (dpd.hpp:336-341). -/
def Scorer.eval (lvl : Nat) (scores : FMap UInt32 F) (value : UInt32) : Res F :=
  Sparse.get lvl scores value

/-! ## `MixtureDataScorer` (dpd.hpp:344-374) -/

/-- Inner loop of `score_data` (dpd.hpp:361-366). -/
def dataLoop (lvl : Nat) (sh : Shared F) (part : FMap UInt32 F) :
    List (UInt32 × Int) → F → Res F
  | [], score => .ok score
  | (value, n) :: es, score => do
    let b ← Sparse.get lvl sh.betas value
    let prior := b * sh.alpha
    let p ← Sparse.get lvl part value
    dataLoop lvl sh part es (score + (lgamma (prior + ofInt n) - p))

/-- Outer loop of `score_data` (dpd.hpp:359-370); every group comes with the visiting
order of its counts. -/
def dataGroups (lvl : Nat) (sh : Shared F) (part : FMap UInt32 F) (sharedTotal : F) :
    List (Group × List UInt32) → F → Res F
  | [], score => .ok score
  | (g, ks) :: gs, score => do
    let t ← SparseCounter.getTotal g
    if t ≠ 0 then
      let score ← dataLoop lvl sh part (g.map.entries ks) score
      dataGroups lvl sh part sharedTotal gs
        (score + (sharedTotal - lgamma (sh.alpha + ofInt t)))
    else dataGroups lvl sh part sharedTotal gs score

/-- `MixtureDataScorer::score_data` (dpd.hpp:346-373).  The table `shared_part` is filled
from the betas, each key once. -/
def scoreData (lvl : Nat) (sh : Shared F) (gs : List (Group × List UInt32)) : Res F :=
  dataGroups lvl sh (sh.betas.mapValues fun _ b => lgamma (sh.alpha * b)) (lgamma sh.alpha) gs
    (ofInt 0)

/-! ## `MixtureValueScorer` (dpd.hpp:376-578) -/

/-- `CountAndScores` (dpd.hpp:571-575). -/
structure Entry (F : Type) where
  refCount : UInt32
  scores : List F

/-- Members `scores_`, `scores_shift_` (dpd.hpp:576-577). -/
structure Cache (F : Type) where
  scores : FMap UInt32 (Entry F)
  shift : List F

/-- A default-constructed entry. -/
def Entry.fresh : Entry F := ⟨0, []⟩

/-- A default-constructed scorer. -/
def Cache.raw : Cache F := ⟨.empty, []⟩

/-- The checks of `validate` (dpd.hpp:545-556). -/
def Valid (sh : Shared F) (c : Cache F) (groupCount : Nat) : Prop :=
  c.scores.size ≤ sh.betas.size ∧ c.shift.length = groupCount ∧
    ∀ v ∈ c.scores.keys, sh.betas.contains v = true ∧
      ((c.scores.lookup v).all fun e => e.scores.length == groupCount) = true

instance (sh : Shared F) (c : Cache F) (n : Nat) : Decidable (Valid sh c n) := by
  unfold Valid; infer_instance

/-- `_validate` (dpd.hpp:565-569). -/
def validate (lvl : Nat) (sh : Shared F) (c : Cache F) (groupCount : Nat) : Res Unit :=
  distAssert lvl 3 (Valid sh c groupCount)

/-- First loop of `resize` (dpd.hpp:379-384): every known value gets an entry of the right
length with reference count 1. -/
def resizeRows (betas : FMap UInt32 F) (size : Nat) (m : FMap UInt32 (Entry F)) :
    FMap UInt32 (Entry F) where
  lookup v := if betas.contains v then
      some ⟨1, resizeWith ((m.lookup v).getD Entry.fresh).scores size (ofInt 0)⟩
    else m.lookup v
  keys := betas.keys ∪ m.keys
  mem_keys v := by
    rw [Finset.mem_union, betas.mem_keys, m.mem_keys]
    by_cases h : (betas.lookup v).isSome = true <;> simp [FMap.contains, h]

/-- `resize` (dpd.hpp:377-396). -/
def resize (lvl : Nat) (sh : Shared F) (c : Cache F) (size : Nat) : Res (Cache F) := do
  let shift := resizeWith c.shift size (ofInt 0)
  let m := resizeRows sh.betas size c.scores
  let m := if m.size ≠ sh.betas.size then m.filterKeys sh.betas.contains else m
  validate lvl sh ⟨m, shift⟩ size
  return ⟨m, shift⟩

/-- `add_group` (dpd.hpp:398-405). -/
def addGroup (lvl : Nat) (sh : Shared F) (c : Cache F) : Res (Cache F) := do
  let m ← c.scores.mapEntries (fun v e => do
    let b ← Sparse.get lvl sh.betas v
    return { e with scores := packedAdd e.scores (log (sh.alpha * b)) }) Entry.fresh
  return ⟨m, packedAdd c.shift (log sh.alpha)⟩

/-- `remove_group` (dpd.hpp:407-412). -/
def removeGroup (lvl : Nat) (c : Cache F) (groupid : Nat) : Res (Cache F) := do
  let m ← c.scores.mapEntries (fun _ e => do
    let xs ← packedRemove lvl e.scores groupid
    return { e with scores := xs }) Entry.fresh
  let shift ← packedRemove lvl c.shift groupid
  return ⟨m, shift⟩

/-- `scores_shift_[groupid] = fast_log(alpha + group.counts.get_total())`
(dpd.hpp:427, 447-448, 467-468). -/
def setShift (sh : Shared F) (shift : List F) (groupid : Nat) (g : Group) : Res (List F) := do
  let t ← SparseCounter.getTotal g
  setAt shift groupid (log (sh.alpha + ofInt t))

/-- `entry.scores[groupid] = fast_log(alpha * betas.get(value) + count)`
(dpd.hpp:424-425, 444-446, 463-465). -/
def setEntry (lvl : Nat) (sh : Shared F) (xs : List F) (groupid : Nat) (g : Group)
    (value : UInt32) : Res (List F) := do
  let b ← Sparse.get lvl sh.betas value
  setAt xs groupid (log (sh.alpha * b + ofInt (SparseCounter.getCount g value)))

/-- `update_group` (dpd.hpp:414-428). -/
def updateGroup (lvl : Nat) (sh : Shared F) (c : Cache F) (groupid : Nat) (g : Group) :
    Res (Cache F) := do
  let m ← c.scores.mapEntries (fun v e => do
    let xs ← setEntry lvl sh e.scores groupid g v
    return { e with scores := xs }) Entry.fresh
  let shift ← setShift sh c.shift groupid g
  return ⟨m, shift⟩

/-- `add_value` (dpd.hpp:430-449). -/
def addValue (lvl : Nat) (sh : Shared F) (c : Cache F) (groupid : Nat) (g : Group)
    (value : UInt32) : Res (Cache F) := do
  distAssert lvl 1 (value ≠ other)
  let (e, m) := Sparse.getOrAdd c.scores value Entry.fresh
  let ref := e.refCount + 1
  let xs ← (if ref = 1 then do
      let b ← Sparse.get lvl sh.betas value
      return resizeWith e.scores c.shift.length (log (sh.alpha * b))
    else .ok e.scores : Res (List F))
  let xs ← setEntry lvl sh xs groupid g value
  let shift ← setShift sh c.shift groupid g
  return ⟨m.set value ⟨ref, xs⟩, shift⟩

/-- `remove_value` (dpd.hpp:451-469). -/
def removeValue (lvl : Nat) (sh : Shared F) (c : Cache F) (groupid : Nat) (g : Group)
    (value : UInt32) : Res (Cache F) := do
  distAssert lvl 1 (value ≠ other)
  let e ← Sparse.get lvl c.scores value
  let ref := e.refCount - 1
  let m ← (if ref = 0 then Sparse.remove lvl c.scores value
    else do
      let xs ← setEntry lvl sh e.scores groupid g value
      return c.scores.set value ⟨ref, xs⟩ : Res (FMap UInt32 (Entry F)))
  let shift ← setShift sh c.shift groupid g
  return ⟨m, shift⟩

/-- `for (groupid < group_count) xs[groupid] = f(groups[groupid])` followed by
`vector_log(group_count, xs)`, for given values of `f`. -/
def overwriteLog (xs ys : List F) : Res (List F) :=
  if ys.length ≤ xs.length then .ok (ys.map log ++ xs.drop ys.length) else .ub

/-- `entry.ref_count += count` in `uint32_t` arithmetic (dpd.hpp:486). -/
def refCounts (gs : List Group) (value : UInt32) : UInt32 :=
  gs.foldl (fun n g => n + UInt32.ofInt (SparseCounter.getCount g value)) 0

/-- `update_all` (dpd.hpp:471-497). -/
def updateAll (lvl : Nat) (sh : Shared F) (c : Cache F) (gs : List Group) : Res (Cache F) := do
  validate lvl sh c gs.length
  let m ← c.scores.mapEntries (fun v e => do
    let b ← Sparse.get lvl sh.betas v
    let xs ← overwriteLog e.scores
      (gs.map fun g => sh.alpha * b + ofInt (SparseCounter.getCount g v))
    return ⟨refCounts gs v, xs⟩) Entry.fresh
  let ts ← gs.mapM SparseCounter.getTotal
  let shift ← overwriteLog c.shift (ts.map fun t => sh.alpha + ofInt t)
  return ⟨m, shift⟩

/-- The weight of a value without a cached row (dpd.hpp:510-512, 533-535). -/
def uncachedBeta (lvl : Nat) (sh : Shared F) (value : UInt32) : Res F :=
  if value = other then .ok sh.beta0 else Sparse.get lvl sh.betas value

/-- `score_value_group` (dpd.hpp:499-515). -/
def scoreValueGroup (lvl : Nat) (sh : Shared F) (c : Cache F) (gs : List Group) (groupid : Nat)
    (value : UInt32) : Res F := do
  validate lvl sh c gs.length
  match c.scores.lookup value with
  | some e => do
    let x ← getAt e.scores groupid
    let y ← getAt c.shift groupid
    return x - y
  | none => do
    let b ← uncachedBeta lvl sh value
    let y ← getAt c.shift groupid
    return log (sh.alpha * b) - y

/-- `score_value` (dpd.hpp:517-543), with `vector_add_subtract`
(src/vector_math.cc:160-178). -/
def scoreValue (lvl : Nat) (sh : Shared F) (c : Cache F) (gs : List Group) (value : UInt32)
    (accum : List F) : Res (List F) := do
  validate lvl sh c gs.length
  match c.scores.lookup value with
  | some e => vectorAddSubtract accum e.scores c.shift
  | none => do
    let b ← uncachedBeta lvl sh value
    accumulate (fun i => do
      let y ← getAt c.shift i
      return log (sh.alpha * b) - y) 0 accum

/-- `MixtureValueScorer` (dpd.hpp:376-578). -/
def valueScorer (lvl : Nat) (sh : Shared F) : ValueScorerOps (Cache F) Group UInt32 F where
  resize := resize lvl sh
  addGroup := addGroup lvl sh
  removeGroup := removeGroup lvl
  updateGroup := updateGroup lvl sh
  addValue := addValue lvl sh
  removeValue := removeValue lvl sh
  updateAll := updateAll lvl sh
  scoreValueGroup := scoreValueGroup lvl sh
  scoreValue := scoreValue lvl sh

/-- The group operations as used by `MixtureSlave`. -/
def ops (lvl : Nat) (sh : Shared F) : GroupOps Group UInt32 :=
  ⟨SparseCounter.raw.clear, Group.addValue lvl sh, Group.removeValue lvl sh⟩

end Dist.DPD
