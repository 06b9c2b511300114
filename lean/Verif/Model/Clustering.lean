import Verif.Model.Driver
import Verif.Model.Packed
import Verif.Model.Random

/-! # Clustering models (include/distributions/clustering.hpp, src/clustering.cc)

`count_t` is `int32_t` (src/clustering.cc:289).  Conversions of integers to `float`
are `ofInt`.  Intermediate `double`s (the accumulator of `score_counts`) are not
distinguished from `float`. -/

namespace Dist

open FloatOps FloatNotation

/-! ## count_assignments -/

/-- `counts.resize(n, 0)` for `n ≥ counts.size()`. -/
def padTo (counts : List Int) (n : Nat) : List Int :=
  counts ++ List.replicate (n - counts.length) 0

/-- One iteration of `count_assignments` (clustering.cc:46-52).  `gid` is converted to
`size_t`: `-1` becomes `2^64-1`, for which `gid + 1` wraps to 0 and the increment is
out of range; other negative ids ask `resize` for more than `max_size` elements. -/
def countStep (counts : List Int) (gid : Int) : Res (List Int) :=
  if gid = -1 then .ub
  else if gid < 0 then .fail
  else do
    let g := gid.toNat
    let counts := if g ≥ counts.length then padTo counts (g + 1) else counts
    let c ← getAt counts g
    let c ← i32 (c + 1)
    setAt counts g c

/-- The loop of `count_assignments`. -/
def countLoop : List Int → List Int → Res (List Int)
  | counts, [] => .ok counts
  | counts, g :: gs => do
    let counts ← countStep counts g
    countLoop counts gs

/-- `count_assignments(assignments)` (clustering.cc:37-63).  `gids` lists the group
ids of the assignment map in its iteration order. -/
def countAssignments (lvl : Nat) (gids : List Int) : Res (List Int) := do
  let counts ← countLoop [] gids
  distAssert lvl 2 (counts = [] ∨ ∀ c ∈ counts, 0 < c)
  return counts

/-! ## Pitman-Yor -/

/-- `struct PitmanYor` (clustering.hpp:58-60). -/
structure PitmanYor (F : Type) where
  alpha : F
  d : F

namespace PitmanYor

variable {F σ : Type} [FloatOps F]

/-- `score_add_value` (clustering.hpp:81-104). -/
def scoreAddValue (m : PitmanYor F) (groupSize nonempty sampleSize empty : Int) : F :=
  if groupSize = 0 then
    let numer := m.alpha + m.d * ofInt nonempty
    let denom := (ofInt sampleSize + m.alpha) * ofInt empty
    log (numer / denom)
  else
    log ((ofInt groupSize - m.d) / (ofInt sampleSize + m.alpha))

/-- `score_remove_value` (clustering.hpp:106-123).  The decrements cannot overflow
for arguments above `INT_MIN`; that case is excluded by `i32`. -/
def scoreRemoveValue (m : PitmanYor F) (groupSize nonempty sampleSize empty : Int) : Res F := do
  let groupSize ← i32 (groupSize - 1)
  let nonempty ← (if groupSize = 0 then i32 (nonempty - 1) else .ok nonempty : Res _)
  let sampleSize ← i32 (sampleSize - 1)
  return -scoreAddValue m groupSize nonempty sampleSize empty

/-- `fast_log_ratio` (clustering.cc:144-146). -/
def logRatio (numer denom : F) : F := log (numer / denom)

/-- `fast_lgamma_ratio` (clustering.cc:148-150). -/
def lgammaRatio (start : F) (count : Nat) : F := lgamma (start + ofInt count) - lgamma start

/-- The loop of `score_counts` (clustering.cc:159-180).  Counts are non-negative
(they are converted to `size_t`). -/
def scoreLoop (m : PitmanYor F) : List Nat → F → Nat → Nat → F
  | [], score, _, _ => score
  | count :: counts, score, sampleSize, nonempty =>
    if count = 0 then scoreLoop m counts score sampleSize nonempty
    else
      let score :=
        if count = 1 then
          score + logRatio (m.alpha + m.d * ofInt nonempty) (m.alpha + ofInt sampleSize)
        else if count = 2 then
          score + logRatio ((m.alpha + m.d * ofInt nonempty) * (ofInt 1 - m.d))
            ((m.alpha + ofInt sampleSize) * (m.alpha + ofInt sampleSize + ofInt 1))
        else
          score + log (m.alpha + m.d * ofInt nonempty)
            + lgammaRatio (ofInt 1 - m.d) (count - 1)
            - lgammaRatio (m.alpha + ofInt sampleSize) count
      scoreLoop m counts score (sampleSize + count) (nonempty + 1)

/-- `score_counts(counts)` (clustering.cc:152-183). -/
def scoreCounts (m : PitmanYor F) (counts : List Nat) : F := scoreLoop m counts (ofInt 0) 0 0

/-- The main loop of `sample_assignments` (clustering.cc:111-138): `n` entries remain,
`i` is the index of the next one; returns the entries from `i` on. -/
def sampleLoop (m : PitmanYor F) (rng : Rng F σ) :
    Nat → Nat → List F → Nat → σ → Res (List Nat × σ)
  | 0, _, _, _, s => .ok ([], s)
  | n + 1, i, likelihoods, tableCount, s => do
    let total := ofInt i + m.alpha
    let (assign, s) ← sampleFromLikelihoods rng s likelihoods total
    if assign = tableCount then
      let likelihoods := likelihoods ++ [m.alpha + m.d * ofInt (tableCount + 1 : Nat)]
      let likelihoods ← setAt likelihoods assign (ofInt 1 - m.d)
      let (rest, s) ← sampleLoop m rng n (i + 1) likelihoods (tableCount + 1) s
      return (assign :: rest, s)
    else
      let l ← getAt likelihoods assign
      let likelihoods ← setAt likelihoods assign (l + lit 1 1)
      let (rest, s) ← sampleLoop m rng n (i + 1) likelihoods tableCount s
      return (assign :: rest, s)

/-- `sample_assignments(size, rng)` (clustering.cc:69-142).  A negative size is
rejected by the vector constructor (an exception).  The assertion is unconditional. -/
def sampleAssignments (m : PitmanYor F) (rng : Rng F σ) (size : Int) (s : σ) :
    Res (List Nat × σ) := do
  distAssert0 (lt (ofInt size) (ofInt size + lit 1 1 : F) = true)
  if size < 0 then .fail
  else
    let likelihoods := [m.alpha]
    if size = 0 then return ([], s)
    else
      let likelihoods := likelihoods ++ [m.alpha + m.d * ofInt 1]
      let likelihoods ← setAt likelihoods 0 (ofInt 1 - m.d)
      let (rest, s) ← sampleLoop m rng (size.toNat - 1) 1 likelihoods 1 s
      return (0 :: rest, s)

/-! ### `PitmanYor::CachedMixture` (clustering.hpp:126-234) -/

/-- State (clustering.hpp:232-233). -/
structure Cached (F : Type) where
  driver : Driver
  shifted : List F

namespace Cached

/-- `_update_nonempty_group` (clustering.hpp:215-219). -/
def updateNonempty (lvl : Nat) (m : PitmanYor F) (c : Cached F) (groupid : Nat) :
    Res (Cached F) := do
  let groupSize ← getAt c.driver.counts groupid
  distAssert lvl 2 (groupSize ≠ 0)
  let shifted ← setAt c.shifted groupid (log (ofInt groupSize - m.d))
  return ⟨c.driver, shifted⟩

/-- `_update_empty_groups` (clustering.hpp:221-230).  The loop stores the same value
at every empty id, so its result does not depend on the iteration order of the set;
it is written position by position. -/
def updateEmpty (m : PitmanYor F) (c : Cached F) : Res (Cached F) :=
  let emptyCount := c.driver.emptyIds.card
  let nonemptyCount := c.driver.counts.length - emptyCount
  let numer := m.alpha + m.d * ofInt nonemptyCount
  let shiftedScore := log (numer / ofInt emptyCount)
  if ∀ i ∈ c.driver.emptyIds, i < c.shifted.length then
    .ok ⟨c.driver, c.shifted.mapIdx fun i x => if i ∈ c.driver.emptyIds then shiftedScore else x⟩
  else .ub

/-- The loop of `init` (clustering.hpp:155-159) over group ids `i, i+1, …, n-1`. -/
def initLoop (lvl : Nat) (m : PitmanYor F) : Nat → Nat → Cached F → Res (Cached F)
  | 0, _, c => .ok c
  | n + 1, i, c => do
    let size ← getAt c.driver.counts i
    let c ← (if size ≠ 0 then updateNonempty lvl m c i else .ok c : Res _)
    initLoop lvl m n (i + 1) c

/-- `vector::resize(n)` on a float vector. -/
def resize (xs : List F) (n : Nat) : List F :=
  xs.take n ++ List.replicate (n - xs.length) (ofInt 0)

/-- `init` (clustering.hpp:151-161). -/
def init (lvl : Nat) (m : PitmanYor F) (c : Cached F) : Res (Cached F) := do
  let d ← c.driver.init lvl
  let c : Cached F := ⟨d, resize c.shifted d.counts.length⟩
  let c ← initLoop lvl m d.counts.length 0 c
  updateEmpty m c

/-- `add_value` (clustering.hpp:163-176). -/
def addValue (lvl : Nat) (m : PitmanYor F) (c : Cached F) (groupid : Nat) (count : Int) :
    Res (Cached F × Bool) := do
  let (d, addGroup) ← c.driver.addValue lvl groupid count
  let c : Cached F := ⟨d, c.shifted⟩
  let c ← (if addGroup then updateEmpty m ⟨d, packedAdd c.shifted (ofInt 0)⟩ else .ok c : Res _)
  let c ← updateNonempty lvl m c groupid
  return (c, addGroup)

/-- `remove_value` (clustering.hpp:178-193). -/
def removeValue (lvl : Nat) (m : PitmanYor F) (c : Cached F) (groupid : Nat) (count : Int) :
    Res (Cached F × Bool) := do
  let (d, removeGroup) ← c.driver.removeValue lvl groupid count
  if removeGroup then
    let shifted ← packedRemove lvl c.shifted groupid
    let c ← updateEmpty m ⟨d, shifted⟩
    return (c, removeGroup)
  else
    let c ← updateNonempty lvl m ⟨d, c.shifted⟩ groupid
    return (c, removeGroup)

/-- `score_value(model, scores)` (clustering.hpp:195-208): the vector written to
`scores`, whose length is `scoresLen`. -/
def scoreValue (lvl : Nat) (m : PitmanYor F) (c : Cached F) (scoresLen : Nat) :
    Res (List F) := do
  distAssert lvl 1 (scoresLen = c.driver.counts.length)
  let size := c.driver.counts.length
  let n ← c.driver.getSampleSize
  let shift := -log (ofInt n + m.alpha)
  if scoresLen < size ∨ c.shifted.length < size then .ub
  else return (c.shifted.take size).map fun x => x + shift

end Cached

end PitmanYor

/-! ## Low-entropy model -/

/-- `struct LowEntropy` (clustering.hpp:245-246). -/
structure LowEntropy where
  datasetSize : Int

namespace LowEntropy

variable {F σ : Type} [FloatOps F]

/-- `_approximate_postpred_correction` (clustering.hpp:319-328); the argument is
converted to `float` by the caller. -/
def postpredCorrection (lvl : Nat) (m : LowEntropy) (sampleSize : F) : Res F := do
  distAssert lvl 2 (lt (ofInt 0) sampleSize = true)
  distAssert lvl 2 (lt sampleSize (ofInt m.datasetSize) = true)
  let exponent := lit 45 100 - lit 1 10 / sampleSize - lit 1 10 / ofInt m.datasetSize
  let scale := ofInt m.datasetSize / sampleSize
  return log scale * exponent

/-- `score_add_value` (clustering.hpp:264-292). -/
def scoreAddValue (lvl : Nat) (m : LowEntropy) (groupSize nonempty sampleSize empty : Int) :
    Res F := do
  distAssert lvl 1 (sampleSize < m.datasetSize)
  distAssert lvl 1 (0 < empty)
  distAssert lvl 1 (nonempty ≤ sampleSize)
  if groupSize = 0 then
    let score : F := -log (ofInt empty)
    let next ← i32 (sampleSize + 1)
    if next < m.datasetSize then
      let corr ← postpredCorrection lvl m (ofInt next)
      return score + corr
    else return score
  else
    let bigger : F := lit 1 1 + ofInt groupSize
    if groupSize > 10000 then
      return lit 1 1 + log bigger
    else
      return log (bigger / ofInt groupSize) * ofInt groupSize + log bigger

/-- `score_remove_value` (clustering.hpp:294-309).  Note that `sample_size` is passed
on unchanged. -/
def scoreRemoveValue (lvl : Nat) (m : LowEntropy) (groupSize nonempty sampleSize empty : Int) :
    Res F := do
  distAssert lvl 1 (0 < sampleSize)
  let groupSize ← i32 (groupSize - 1)
  let s ← scoreAddValue lvl m groupSize nonempty sampleSize empty
  return -s

/-- `log_partition_function_table` (clustering.cc:189-200), in units of `1e-8`. -/
def partitionTable : List Int := [
  0, 0, 160943791, 368887945, 607993320,
  870549682, 1151947398, 1449108422, 1759827611, 2082445752,
  2415668300, 2758456586, 3109958507, 3469462231, 3836364086,
  4210145572, 4590356476, 4976602176, 5368533918, 5765841234,
  6168245958, 6575497413, 6987368527, 7403652635, 7824160846,
  8248719834, 8677169993, 9109363859, 9545164780, 9984445762,
  10427088480, 10872982416, 11322024112, 11774116515, 12229168392,
  12687093829, 13147811772, 13611245629, 14077322911, 14545974907,
  15017136399, 15490745399, 15966742919, 16445072752, 16925681285,
  17408517319, 17893531914, 18380678238]

/-- `log_partition_function` (clustering.cc:203-215): a negative argument is below 48
and indexes before the table. -/
def logPartition (n : Int) : Res F :=
  if n < 48 then
    if n < 0 then .ub
    else do
      let v ← getAt partitionTable n.toNat
      return lit v 100000000
  else
    let coeff : F := lit 28269584 100000000
    let logZMax := ofInt n * log (ofInt n)
    .ok (logZMax * (lit 1 1 + coeff * pow (ofInt n) (lit (-75) 100)))

/-- `_approximate_dataprob_correction` (clustering.cc:221-226). -/
def dataprobCorrection (m : LowEntropy) (sampleSize : Int) : F :=
  let n : F := log (ofInt sampleSize)
  let N : F := log (ofInt m.datasetSize)
  lit 61 1000 * n * (n - N) * pow (n + N) (lit 75 100)

/-- The loop of `score_counts` (clustering.cc:232-238). -/
def countsLoop : List Int → F → Int → Res (F × Int)
  | [], score, n => .ok (score, n)
  | c :: cs, score, n => do
    let n ← i32 (n + c)
    let score := if c > 1 then score + ofInt c * log (ofInt c) else score
    countsLoop cs score n

/-- `score_counts(counts)` (clustering.cc:228-248).  `counts.size() - 1` is unsigned
64-bit arithmetic. -/
def scoreCounts (lvl : Nat) (m : LowEntropy) (counts : List Int) : Res F := do
  let (score, n) ← countsLoop counts (ofInt 0) 0
  distAssert0 (n ≤ m.datasetSize)
  let score ← (if n ≠ m.datasetSize then do
      let logFactor ← postpredCorrection lvl m (ofInt n)
      let sizeMinus1 : Int :=
        if counts.isEmpty then 18446744073709551615 else counts.length - 1
      let score := score + logFactor * ofInt sizeMinus1
      return score + dataprobCorrection m n
    else .ok score : Res F)
  let z ← logPartition n
  return score - z

/-- The loop of `sample_assignments` (clustering.cc:262-280): `n` entries remain.
`bogus = 0` is passed for the unused arguments. -/
def sampleLoop (lvl : Nat) (m : LowEntropy) (rng : Rng F σ) :
    Nat → List Int → List F → Int → σ → Res (List Nat × σ)
  | 0, _, _, _, s => .ok ([], s)
  | n + 1, counts, likelihoods, size, s => do
    let le ← scoreAddValue lvl m 0 0 size 1
    let likelihoodEmpty := exp le
    let (counts, likelihoods) ← (if counts.getLast? = none ∨ counts.getLast? ≠ some 0 then
        .ok (counts ++ [0], likelihoods ++ [likelihoodEmpty])
      else do
        let likelihoods ← (if likelihoods.isEmpty then .ub
          else .ok (likelihoods.dropLast ++ [likelihoodEmpty]) : Res (List F))
        return (counts, likelihoods) : Res (List Int × List F))
    let (assign, s) ← sampleFromLikelihoodsSum rng s likelihoods
    let count ← getAt counts assign
    let count ← i32 (count + 1)
    let counts ← setAt counts assign count
    let size ← i32 (size + 1)
    let sc ← scoreAddValue lvl m count 0 0 1
    let likelihoods ← setAt likelihoods assign (exp sc)
    let (rest, s) ← sampleLoop lvl m rng n counts likelihoods size s
    return (assign :: rest, s)

/-- `sample_assignments(sample_size, rng)` (clustering.cc:250-283). -/
def sampleAssignments (lvl : Nat) (m : LowEntropy) (rng : Rng F σ) (sampleSize : Int) (s : σ) :
    Res (List Nat × σ) := do
  distAssert0 (sampleSize ≤ m.datasetSize)
  if sampleSize < 0 then .fail
  else sampleLoop lvl m rng sampleSize.toNat [] [] 0 s

end LowEntropy

end Dist
