import Verif.Model.Dbg
import Verif.Model.Gibbs

/-!
# The reference implementation of the low-entropy clustering

The rest of the class `LowEntropy` of `distributions/dbg/clustering.py`; `score_add_value` and
`_approximate_postpred_correction` are in `Verif.Model.Dbg`.  Sizes are Python integers, which do not
overflow.
-/

namespace Dist.Dbg.LowEntropy

open FloatOps FloatNotation

variable {F σ : Type} [FloatOps F]

/-- `score_remove_value` (distributions/dbg/clustering.py:212-233): `sample_size` is passed on
unchanged. -/
def scoreRemoveValue (datasetSize groupSize sampleSize empty : Int) : Res F :=
  if 0 < sampleSize then do
    let s ← scoreAddValue datasetSize (groupSize - 1) sampleSize empty
    return -s
  else .fail

/-- `log_partition_function_table` (distributions/dbg/clustering.py:260-271), in units of `1e-8`. -/
def partitionTable : List Int := [
  0, 0, 160943791, 368887945, 607993320,
  870549682, 1151947398, 1449108422, 1759827611, 2082445752,
  2415668300, 2758456586, 3109958507, 3469462231, 3836364086,
  4210145572, 4590356476, 4976602176, 5368533918, 5765841234,
  6168245958, 6575497413, 6987368527, 7403652635, 7824160846,
  8248719834, 8677169993, 9109363859, 9545164780, 9984445762,
  10427088480, 10872982416, 11322024112, 11774116515, 12229168392,
  12687093829, 13147811772, 13611245629, 14077322911, 14545974907,
  15017136399, 15490745399, 15966742919, 16445072752, 16925681285,
  17408517319, 17893531914, 18380678238]

/-- `log_partition_function` (distributions/dbg/clustering.py:239-257): a negative index of a Python
list counts from its end, and raises `IndexError` before its beginning. -/
def logPartition (n : Int) : Res F :=
  if n < 48 then
    let i := if n < 0 then n + partitionTable.length else n
    if i < 0 then .fail
    else match partitionTable[i.toNat]? with
      | some v => .ok (lit v 100000000)
      | none => .fail
  else do
    let l ← pyLog (ofInt n : F)
    let coeff : F := lit 28269584 100000000
    let logZMax := ofInt n * l
    return logZMax * (lit 1 1 + coeff * pow (ofInt n) (lit (-75) 100))

/-- `_approximate_dataprob_correction` (distributions/dbg/clustering.py:286-294). -/
def dataprobCorrection (datasetSize sampleSize : Int) : Res F := do
  let n : F ← pyLog (ofInt sampleSize : F)
  let N : F ← pyLog (ofInt datasetSize : F)
  return lit 61 1000 * n * (n - N) * pow (n + N) (lit 75 100)

/-- The loop of `score_counts` (distributions/dbg/clustering.py:157-160). -/
def countsLoop : List Int → F → Int → Res (F × Int)
  | [], score, n => .ok (score, n)
  | c :: cs, score, n =>
    if c > 1 then do
      let l ← pyLog (ofInt c : F)
      countsLoop cs (score + ofInt c * l) (n + c)
    else countsLoop cs score (n + c)

/-- `score_counts` (distributions/dbg/clustering.py:148-168). -/
def scoreCounts (datasetSize : Int) (counts : List Int) : Res F := do
  let (score, n) ← countsLoop counts (ofInt 0) 0
  if n ≤ datasetSize then
    let score ← (if n ≠ datasetSize then do
        let logFactor ← postpredCorrection datasetSize n
        let score := score + logFactor * ofInt (counts.length - 1)
        let c ← dataprobCorrection datasetSize n
        return score + c
      else .ok score : Res F)
    let z ← logPartition n
    return score - z
  else .fail

/-- The loop of `sample_assignments` (distributions/dbg/clustering.py:128-141): `n` entries remain. -/
def sampleLoop (datasetSize : Int) (rng : Rng F σ) :
    Nat → List Int → List F → Int → σ → Res (List Nat × σ)
  | 0, _, _, _, s => .ok ([], s)
  | n + 1, counts, scores, size, s => do
    let scoreEmpty ← scoreAddValue datasetSize 0 size 1
    let (counts, scores) ← (if counts.length = 0 ∨ counts.getLast? ≠ some 0 then
        .ok (counts ++ [0], scores ++ [scoreEmpty])
      else if scores.isEmpty then .fail
      else .ok (counts, scores.dropLast ++ [scoreEmpty]) : Res (List Int × List F))
    let (assign, s) ← sampleDiscreteLog rng s scores
    match counts[assign]? with
    | none => .fail
    | some count =>
      let sc ← scoreAddValue datasetSize (count + 1) 0 1
      if assign < scores.length then
        let (rest, s) ← sampleLoop datasetSize rng n (counts.set assign (count + 1))
          (scores.set assign sc) (size + 1) s
        return (assign :: rest, s)
      else .fail

/-- `sample_assignments` (distributions/dbg/clustering.py:111-143); `xrange` of a negative number is
empty. -/
def sampleAssignments (datasetSize : Int) (rng : Rng F σ) (sampleSize : Int) (s : σ) :
    Res (List Nat × σ) :=
  if sampleSize ≤ datasetSize then sampleLoop datasetSize rng sampleSize.toNat [] [] 0 s
  else .fail

end Dist.Dbg.LowEntropy
