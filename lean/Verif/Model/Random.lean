import Verif.Base.FloatOps
import Verif.Base.Res

/-! # Random sampling (include/distributions/random.hpp, src/random.cc)

The random number generator is an arbitrary state machine: `σ` is the state of the
engine and every primitive `std::` distribution is an unconstrained function of it.
Theorems that quantify over `Rng` hold for every stream of draws. -/

namespace Dist

open FloatOps FloatNotation

/-- Primitive draws (random.hpp:42-97). -/
structure Rng (F σ : Type) where
  /-- `sample_unif01` (random.hpp:47-50) -/
  unif01 : σ → F × σ
  /-- `sample_int(low, high)` (random.hpp:42-45) -/
  int : σ → Int → Int → Int × σ
  /-- `sample_gamma(alpha, beta)` (random.hpp:87-97) -/
  gamma : σ → F → F → F × σ
  /-- draw from `std::normal_distribution<float>(mean, stddev)` (random.hpp:57-66) -/
  normal : σ → F → F → F × σ
  /-- `sample_chisq(nu)` (random.hpp:68-75) -/
  chisq : σ → F → F × σ
  /-- `sample_poisson(mean)` (random.hpp:77-80) -/
  poisson : σ → F → Int × σ
  /-- `sample_negative_binomial(p, r)` (random.hpp:82-85) -/
  negBinomial : σ → F → Int → Int × σ

variable {F σ : Type} [FloatOps F]

/-- `sample_bernoulli(p)` (random.hpp:52-55). -/
def sampleBernoulli (rng : Rng F σ) (s : σ) (p : F) : Bool × σ :=
  let (u, s) := rng.unif01 s
  (lt u p, s)

/-- `sample_normal(mean, variance)` (random.hpp:62-66). -/
def sampleNormal (rng : Rng F σ) (s : σ) (mean variance : F) : F × σ :=
  rng.normal s mean (sqrt variance)

/-- `sample_beta(alpha, beta)` (random.hpp:99-108); `eqf` is the hardware `==`
(both comparisons false for NaN). -/
def sampleBeta (rng : Rng F σ) (s : σ) (alpha beta : F) : F × σ :=
  let (x, s) := rng.gamma s alpha (lit 1 1)
  let (y, s) := rng.gamma s beta (lit 1 1)
  if eqf x (ofInt 0) && eqf y (ofInt 0) then
    let (b, s) := sampleBernoulli rng s (alpha / (alpha + beta))
    (if b then lit 1 1 else lit 0 1, s)
  else (x / (x + y), s)

/-- `sample_beta_safe(alpha, beta, min_value)` (random.hpp:110-119). -/
def sampleBetaSafe (rng : Rng F σ) (s : σ) (alpha beta minValue : F) : Res (F × σ) := do
  distAssert0 (le (ofInt 0) minValue = true)
  distAssert0 (lt (ofInt 0) alpha = true)
  let (p, s) := sampleBeta rng s alpha beta
  return ((p + minValue) / (lit 1 1 + minValue), s)

/-- First loop of `sample_dirichlet` (src/random.cc:40-47): the unnormalised draws and
their running total. -/
def dirichletLoop (rng : Rng F σ) : List F → σ → F → List F × F × σ
  | [], s, total => ([], total, s)
  | a :: as, s, total =>
    if lt (ofInt 0) a then
      let (p, s) := rng.gamma s a (lit 1 1)
      let (ps, t, s) := dirichletLoop rng as s (total + p)
      (p :: ps, t, s)
    else
      let (ps, t, s) := dirichletLoop rng as s total
      (ofInt 0 :: ps, t, s)

/-- `sample_dirichlet(dim, alphas, probs)` (src/random.cc:35-52); `alphas` and `probs`
may be the same array. -/
def sampleDirichlet (rng : Rng F σ) (s : σ) (alphas : List F) : List F × σ :=
  let (ps, total, s) := dirichletLoop rng alphas s (lit 0 1)
  let scale := lit 1 1 / total
  (ps.map fun p => p * scale, s)

/-- First loop of `sample_dirichlet_safe` (src/random.cc:61-66). -/
def dirichletSafeLoop (rng : Rng F σ) (minValue : F) : List F → σ → F → Res (List F × F × σ)
  | [], s, total => .ok ([], total, s)
  | a :: as, s, total => do
    let alpha := a + minValue
    distAssert0 (lt (ofInt 0) alpha = true)
    let (p, s) := rng.gamma s alpha (lit 1 1)
    let (ps, t, s) ← dirichletSafeLoop rng minValue as s (total + p)
    return (p :: ps, t, s)

/-- `sample_dirichlet_safe(dim, alphas, probs, min_value)` (src/random.cc:54-72). -/
def sampleDirichletSafe (rng : Rng F σ) (s : σ) (alphas : List F) (minValue : F) :
    Res (List F × σ) := do
  distAssert0 (le (ofInt 0) minValue = true)
  let (ps, total, s) ← dirichletSafeLoop rng minValue alphas s (lit 0 1)
  let scale := lit 1 1 / total / (lit 1 1 + minValue * ofInt alphas.length)
  let shift := minValue / (lit 1 1 + minValue * ofInt alphas.length)
  return (ps.map fun p => p * scale + shift, s)

/-- `vector_sum` (src/vector_math.cc:85-93): left-to-right accumulation from 0. -/
def vectorSum (xs : List F) : F := xs.foldl (fun acc x => acc + x) (ofInt 0)

/-- Loop of `sample_from_likelihoods` (random.hpp:323-330), `i` the index of the head
of the remaining likelihoods, `size` their total number. -/
def likelihoodLoop (size : Nat) : List F → Nat → F → Nat
  | [], _, _ => size - 1
  | l :: ls, i, t =>
    let t := t - l
    if le t (ofInt 0) then i else likelihoodLoop size ls (i + 1) t

/-- `sample_from_likelihoods(rng, likelihoods, total)` (random.hpp:315-333).  The
assertion on the size is unconditional. -/
def sampleFromLikelihoods (rng : Rng F σ) (s : σ) (likelihoods : List F) (total : F) :
    Res (Nat × σ) := do
  distAssert0 (0 < likelihoods.length)
  let (u, s) := rng.unif01 s
  return (likelihoodLoop likelihoods.length likelihoods 0 (total * u), s)

/-- `sample_from_likelihoods(rng, likelihoods)` (random.hpp:335-341). -/
def sampleFromLikelihoodsSum (rng : Rng F σ) (s : σ) (likelihoods : List F) : Res (Nat × σ) :=
  sampleFromLikelihoods rng s likelihoods (vectorSum likelihoods)

/-- `sample_from_probs` (random.hpp:343-348). -/
def sampleFromProbs (rng : Rng F σ) (s : σ) (probs : List F) : Res (Nat × σ) :=
  sampleFromLikelihoods rng s probs (lit 1 1)

/-- Loop of `sample_discrete` (random.hpp:306-311) over the first `dim - 1` entries. -/
def discreteLoop (last : Nat) : List F → Nat → F → Nat
  | [], _, _ => last
  | p :: ps, i, t =>
    let t := t - p
    if lt t (ofInt 0) then i else discreteLoop last ps (i + 1) t

/-- `sample_discrete(rng, dim, probs)` (random.hpp:300-313), `dim = probs.length`. -/
def sampleDiscrete (rng : Rng F σ) (s : σ) (probs : List F) : Res (Nat × σ) := do
  distAssert0 (0 < probs.length)
  let (t, s) := rng.unif01 s
  return (discreteLoop (probs.length - 1) probs.dropLast 0 t, s)

end Dist
