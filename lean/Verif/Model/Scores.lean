import Verif.Model.Random
import Verif.Model.VectorMath

/-! # Scores, probabilities and urns (include/distributions/random.hpp, src/random.cc) -/

namespace Dist

open FloatOps FloatNotation

variable {F σ : Type} [FloatOps F]

/-- `log_sum_exp(scores)` (src/random.cc:77-92). -/
def logSumExp (scores : List F) : Res F :=
  if scores.length = 0 then .ok (ofInt 0)
  else do
    let m ← VectorMath.max scores.length scores
    let total ← forLoop (fun i total => do
      let x ← getAt scores i
      return total + exp (x - m)) 0 scores.length (ofInt 0)
    return log total + m

/-- `scores_to_likelihoods(scores)` (src/random.cc:94-106): the overwritten vector and the
returned total.  `scores.data()` of an empty vector may not be dereferenced, but
`vector_max` does so. -/
def scoresToLikelihoods (scores : List F) : Res (List F × F) := do
  let m ← VectorMath.max scores.length scores
  forLoop (fun i (p : List F × F) => do
    let x ← getAt p.1 i
    let e := exp (x - m)
    let xs ← setAt p.1 i e
    return (xs, p.2 + e)) 0 scores.length (scores, ofInt 0)

/-- `scores_to_probs(scores)` (random.hpp:354-358). -/
def scoresToProbs (scores : List F) : Res (List F) := do
  let (ls, total) ← scoresToLikelihoods scores
  VectorMath.scale ls.length ls (lit 1 1 / total)

/-- `sample_from_scores_overwrite(rng, scores)` (random.hpp:360-366): the sample and the
overwritten scores. -/
def sampleFromScoresOverwrite (rng : Rng F σ) (s : σ) (scores : List F) :
    Res (Nat × List F × σ) := do
  let (ls, total) ← scoresToLikelihoods scores
  let (i, s) ← sampleFromLikelihoods rng s ls total
  return (i, ls, s)

/-- `sample_prob_from_scores_overwrite(rng, scores)` (random.hpp:368-376). -/
def sampleProbFromScoresOverwrite (rng : Rng F σ) (s : σ) (scores : List F) :
    Res (Nat × F × σ) := do
  let (ls, total) ← scoresToLikelihoods scores
  let (i, s) ← sampleFromLikelihoods rng s ls total
  let l ← getAt ls i
  return (i, l / total, s)

/-- `score_from_scores_overwrite(rng, sample, scores)` (src/random.cc:108-128), with
`SYNCHRONIZE_ENTROPY_FOR_UNIT_TESTING = 1` (common.hpp:136).  The logarithm is the
library's, here the same operation as `fast_log`; the returned vector is the overwritten
scores. -/
def scoreFromScoresOverwrite (rng : Rng F σ) (s : σ) (sample : Nat) (scores : List F) :
    Res (F × List F × σ) := do
  let m ← VectorMath.max scores.length scores
  let (xs, total) ← forLoop (fun i (p : List F × F) => do
    let x ← getAt p.1 i
    let x := x - m
    let xs ← setAt p.1 i x
    return (xs, p.2 + exp x)) 0 scores.length (scores, ofInt 0)
  let (_, s) := rng.unif01 s
  let x ← getAt xs sample
  return (x - log total, xs, s)

/-- `sample_from_scores(rng, scores)` (random.hpp:386-392): works on a copy. -/
def sampleFromScores (rng : Rng F σ) (s : σ) (scores : List F) : Res (Nat × σ) := do
  let (i, _, s) ← sampleFromScoresOverwrite rng s scores
  return (i, s)

/-- Conversion `size_t` to `int` of an argument of `sample_int` (modular, as on every
supported compiler). -/
def sizeToInt (n : Nat) : Int := (n : Int).bmod 4294967296

/-- Conversion `int` to `size_t`. -/
def intToSize (i : Int) : Nat := (i % 18446744073709551616).toNat

/-- `sample_from_urn(rng, urn)` (random.hpp:261-269). -/
def sampleFromUrn {T : Type} (rng : Rng F σ) (s : σ) (urn : List T) : Res (T × σ) := do
  distAssert0 (1 ≤ urn.length)
  let (f, s) := rng.int s 0 (sizeToInt (urn.length - 1))
  let f := intToSize f
  distAssert0 (f < urn.length)
  let x ← getAt urn f
  return (x, s)

/-- `sample_pair_from_urn(rng, urn)` (random.hpp:271-285). -/
def samplePairFromUrn {T : Type} (rng : Rng F σ) (s : σ) (urn : List T) : Res ((T × T) × σ) := do
  distAssert0 (2 ≤ urn.length)
  let (f1, s) := rng.int s 0 (sizeToInt (urn.length - 1))
  let (f2, s) := rng.int s 0 (sizeToInt (urn.length - 2))
  let f1 := intToSize f1
  let f2 := intToSize f2
  let f2 := if f1 ≤ f2 then (f2 + 1) % 18446744073709551616 else f2
  distAssert0 (f1 < urn.length)
  distAssert0 (f2 < urn.length)
  distAssert0 (f1 ≠ f2)
  let x ← getAt urn f1
  let y ← getAt urn f2
  return ((x, y), s)

end Dist
