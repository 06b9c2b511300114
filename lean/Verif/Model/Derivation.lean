import Mathlib.Analysis.SpecialFunctions.Exp
import Mathlib.Analysis.SpecialFunctions.Pow.Real
import Verif.Base.Res

/-!
# The derivation script behind the low-entropy tables

`derivations/clustering.py` counts the set partitions of `n` items by shape, and generates from these
counts the table that `src/clustering.cc` holds.  A shape is the sorted tuple of block sizes.

Simplified: the counts are doubles in the script and exact natural numbers here, probabilities and
logarithms are doubles there and exact reals here; results are not cached in files.  The order in which a
dict is iterated is left open: `GetCounts` allows any order at every step.
-/

namespace Dist.Derivation

/-- A Python tuple of block sizes. -/
abbrev Shape := List Nat

/-- A Python dict from shapes, as its list of items. -/
abbrev Dict (α : Type) := List (Shape × α)

/-- `large_counts[shape] += count` on a `defaultdict(lambda: 0.0)` (derivations/clustering.py:105-118). -/
def incr : Dict Nat → Shape → Nat → Dict Nat
  | [], k, c => [(k, 0 + c)]
  | (k', v) :: d, k, c => if k' = k then (k', v + c) :: d else (k', v) :: incr d k c

/-- `large_shape[i] += 1; large_shape.sort()` (derivations/clustering.py:114-117, 135-138). -/
def bump (s : Shape) (i : Nat) : Shape := (s.modify i (· + 1)).mergeSort (· ≤ ·)

/-- The loop body of `get_larger_counts` (derivations/clustering.py:106-118). -/
def larger (acc : Dict Nat) (p : Shape × Nat) : Dict Nat :=
  (List.range p.1.length).foldl (fun acc i => incr acc (bump p.1 i) p.2) (incr acc (1 :: p.1) p.2)

/-- `get_larger_counts` (derivations/clustering.py:104-120). -/
def getLargerCounts (small : Dict Nat) : Dict Nat := small.foldl larger []

/-- `d` is a result of `get_counts(n)` (derivations/clustering.py:145-169), for some order of iterating
the dicts. -/
inductive GetCounts : Nat → Dict Nat → Prop
  | zero : GetCounts 0 [([], 1)]
  | succ {n : Nat} {d d' : Dict Nat} : GetCounts n d → d'.Perm d → GetCounts (n + 1) (getLargerCounts d')

/-- `math.log` of an integer: `ValueError` unless positive. -/
noncomputable def mathLog (n : Nat) : Res ℝ := if 0 < n then .ok (Real.log n) else .fail

/-- `get_log_z` (derivations/clustering.py:176-177). -/
noncomputable def getLogz (shape : Shape) : Res ℝ := do
  let l ← shape.mapM fun n => (do let x ← mathLog n; return (n : ℝ) * x : Res ℝ)
  return l.sum

/-- `numpy.logaddexp.reduce`; minus infinity, which is no real number, for an empty list. -/
noncomputable def logaddexpReduce : List ℝ → Res ℝ
  | [] => .fail
  | l => .ok (Real.log (l.map Real.exp).sum)

/-- `get_log_z(shape) + math.log(count)` for all items (derivations/clustering.py:181-184, 189-190). -/
noncomputable def logWeights (counts : Dict Nat) : Res (Dict ℝ) :=
  counts.mapM fun p => (do
    let z ← getLogz p.1
    let c ← mathLog p.2
    return (p.1, z + c) : Res (Shape × ℝ))

/-- `get_log_Z` (derivations/clustering.py:180-184). -/
noncomputable def getLogZ (counts : Dict Nat) : Res ℝ := do
  let w ← logWeights counts
  logaddexpReduce (w.map Prod.snd)

/-- `get_probs`, given the counts (derivations/clustering.py:187-194). -/
noncomputable def getProbs (counts : Dict Nat) : Res (Dict ℝ) := do
  let w ← logWeights counts
  let logZ ← logaddexpReduce (w.map Prod.snd)
  return w.map fun p => (p.1, Real.exp (p.2 - logZ))

/-- A dict lookup: `KeyError` for a missing key. -/
def get {α : Type} (d : Dict α) (s : Shape) : Res α :=
  match d.lookup s with
  | some x => .ok x
  | none => .fail

/-- `large_probs[large_shape] / large_counts[large_shape]` (derivations/clustering.py:131, 139). -/
noncomputable def ratio (largeCounts : Dict Nat) (largeProbs : Dict ℝ) (s : Shape) : Res ℝ := do
  let p ← get largeProbs s
  let c ← get largeCounts s
  if c = 0 then .fail else return p / c

/-- `get_smaller_probs` (derivations/clustering.py:123-142). -/
noncomputable def getSmallerProbs (smallCounts largeCounts : Dict Nat) (largeProbs : Dict ℝ) : Res (Dict ℝ) :=
  if largeCounts.length ≠ largeProbs.length then .fail
  else smallCounts.mapM fun p => (do
    let r0 ← ratio largeCounts largeProbs (1 :: p.1)
    let rs ← (List.range p.1.length).mapM fun i => ratio largeCounts largeProbs (bump p.1 i)
    return (p.1, (p.2 : ℝ) * (rs.foldl (· + ·) (0 + r0))) : Res (Shape × ℝ))

/-- `get_subprobs(max_size - k, max_size)` (derivations/clustering.py:197-228), where `counts n` is what
`get_counts(n)` returned. -/
noncomputable def getSubprobs (counts : Nat → Dict Nat) (maxSize : Nat) : Nat → Res (Dict ℝ)
  | 0 => getProbs (counts maxSize)
  | k + 1 => do
    if maxSize < k + 1 then .fail
    else
      let large ← getSubprobs counts maxSize k
      getSmallerProbs (counts (maxSize - (k + 1))) (counts (maxSize - k)) large

/-- `get_pairwise` (derivations/clustering.py:284-289): no first item and a division by zero raise. -/
noncomputable def getPairwise (probs : Dict ℝ) : Res ℝ :=
  match probs with
  | [] => .fail
  | first :: _ =>
    let size := first.1.sum
    if size * (size - 1) = 0 then .fail
    else .ok ((probs.map fun p =>
      p.2 * ((p.1.map fun n => n * (n - 1)).sum : ℕ) / ((size * (size - 1) : ℕ) : ℝ)).sum)

/-- The entries of the table that `code` writes (derivations/clustering.py:681-684). -/
noncomputable def tableEntry (size : Nat) (counts : Dict Nat) : Res ℝ :=
  if size = 0 then .ok 0 else getLogZ counts

/-- The coefficient `code` writes for sizes beyond the table (derivations/clustering.py:685-686). -/
noncomputable def coefficient (size : Nat) (logZ : ℝ) : Res ℝ := do
  let z ← getLogz [size]
  if z = 0 then .fail else return (logZ / z - 1) * (size : ℝ) ^ (0.75 : ℝ)

/-- `approximate_postpred_correction` (derivations/clustering.py:324-326); a size of zero divides by zero. -/
noncomputable def approximatePostpredCorrection (subsampleSize datasetSize : Nat) : Res ℝ :=
  if subsampleSize = 0 ∨ datasetSize = 0 then .fail
  else
    let t := Real.log (1.0 * datasetSize / subsampleSize)
    .ok (t * (0.45 - 0.1 / subsampleSize - 0.1 / datasetSize))

/-- `ad_hoc_size_factor` (derivations/clustering.py:329-331). -/
noncomputable def adHocSizeFactor (subsampleSize datasetSize : Nat) : Res ℝ := do
  let c ← approximatePostpredCorrection subsampleSize datasetSize
  return Real.exp c

/-- `true_dataprob_correction`, given the counts (derivations/clustering.py:520-530). -/
noncomputable def trueDataprobCorrection (counts : Dict Nat) (subsampleSize datasetSize : Nat) : Res ℝ := do
  let naive ← getProbs counts
  let factor ← adHocSizeFactor subsampleSize datasetSize
  let Z := (naive.map fun p => p.2 * factor ^ ((p.1.length : Int) - 1)).sum
  if 0 < Z then return -Real.log Z else .fail

/-- `approximate_dataprob_correction` (derivations/clustering.py:533-536). -/
noncomputable def approximateDataprobCorrection (subsampleSize datasetSize : Nat) : Res ℝ := do
  let n ← mathLog subsampleSize
  let N ← mathLog datasetSize
  return 0.061 * n * (n - N) * (n + N) ^ (0.75 : ℝ)

/-- `-math.log(n * (n / (n - 1.0)) ** (n - 1.0))` (derivations/clustering.py:467): `n = 1` divides by zero. -/
noncomputable def postpredBaseline (n : Nat) : Res ℝ :=
  if n = 1 then .fail
  else
    let x := (n : ℝ) * ((n : ℝ) / (n - 1)) ^ ((n : ℝ) - 1)
    if 0 < x then .ok (-Real.log x) else .fail

/-- The body of the loop of `true_postpred_correction` over the small shapes
(derivations/clustering.py:443-470): the pairs `weight`, `correction` it accumulates. -/
noncomputable def postpredTerms (largeCounts : Dict Nat) (largeProbs : Dict ℝ) (p : Shape × ℝ) :
    Res (List (ℝ × ℝ)) := do
  let singletonProb ← ratio largeCounts largeProbs (1 :: p.1)
  let probs ← (List.range p.1.length).mapM fun i => (do
    let prob ← ratio largeCounts largeProbs (bump p.1 i)
    return (p.1.getD i 0 + 1, prob) : Res (Nat × ℝ))
  let total := (singletonProb :: probs.map Prod.snd).sum
  probs.mapM fun q => (do
    if total = 0 then .fail
    else
      let weight := p.2 * q.2 / total
      let baseline ← postpredBaseline q.1
      if q.2 = 0 ∨ singletonProb / q.2 ≤ 0 then .fail
      else return (weight, Real.log (singletonProb / q.2) - baseline) : Res (ℝ × ℝ))

/-- `true_postpred_correction` (derivations/clustering.py:432-472), where `counts n` is what `get_counts(n)`
returned; the assertions of `get_subprobs` fail for the other sizes. -/
noncomputable def truePostpredCorrection (counts : Nat → Dict Nat) (subsampleSize datasetSize : Nat) :
    Res ℝ := do
  if subsampleSize = 0 ∨ datasetSize < subsampleSize then .fail
  else
    let largeProbs ← getSubprobs counts datasetSize (datasetSize - subsampleSize)
    let smallProbs ← getSubprobs counts datasetSize (datasetSize - (subsampleSize - 1))
    let terms ← smallProbs.mapM (postpredTerms (counts subsampleSize) largeProbs)
    let numer := (terms.flatten.map fun t => t.1 * t.2).sum
    let denom := (terms.flatten.map Prod.fst).sum
    if 0 < denom then return numer / denom else return 1

end Dist.Derivation
