import Mathlib.Analysis.SpecialFunctions.Gamma.Basic
import Mathlib.Analysis.SpecialFunctions.Log.Basic
import Verif.Base.Res

/-!
# The derivation scripts for the beta-binomial model and log gamma

`derivations/betabinomial.py` and `derivations/loggamma.py`, in exact arithmetic.  `scipy.special.betaln`
and `binom` are trusted to be the functions of that name; arguments where they are not finite numbers are
not modelled and give `.fail`.  Plots and printing are left out.
-/

namespace Dist.BetaBinom

/-- `binomln` (derivations/betabinomial.py:33-34). -/
noncomputable def binomln (n k : ℕ) : Res ℝ :=
  if k ≤ n then .ok (Real.log (n.choose k)) else .fail

/-- `scipy.special.betaln`. -/
noncomputable def betaln (a b : ℝ) : Res ℝ :=
  if 0 < a ∧ 0 < b then
    .ok (Real.log (Real.Gamma a) + Real.log (Real.Gamma b) - Real.log (Real.Gamma (a + b)))
  else .fail

/-- `Hypers` (derivations/betabinomial.py:56-66). -/
structure Hypers where
  alpha : ℝ
  beta : ℝ
  N : ℕ

/-- `SuffStats` (derivations/betabinomial.py:69-78). -/
structure SuffStats where
  heads : Int := 0
  tails : Int := 0
  binomlnAccum : ℝ := 0
  dpcount : Int := 0

/-- `add_dp` (derivations/betabinomial.py:81-86); nothing is undone when `binomln` fails, which is not
modelled. -/
noncomputable def addDp (k : ℕ) (hps : Hypers) (suffs : SuffStats) : Res SuffStats := do
  let b ← binomln hps.N k
  return {
    heads := suffs.heads + k
    tails := suffs.tails + ((hps.N : Int) - k)
    binomlnAccum := suffs.binomlnAccum + b
    dpcount := suffs.dpcount + 1 }

/-- `compute_post_pred` (derivations/betabinomial.py:89-94). -/
noncomputable def computePostPred (k : ℕ) (hps : Hypers) (suffs : SuffStats) : Res ℝ := do
  let a := hps.alpha + suffs.heads
  let b := hps.beta + suffs.tails
  let c ← binomln hps.N k
  let x ← betaln (a + k) (b + hps.N - k)
  let y ← betaln a b
  return c + x - y

/-- `compute_total_likelihood` (derivations/betabinomial.py:97-106). -/
noncomputable def computeTotalLikelihood (hps : Hypers) (suffs : SuffStats) : Res ℝ := do
  let a := hps.alpha + suffs.heads
  let b := hps.beta + suffs.tails
  let x ← betaln a b
  let y ← betaln hps.alpha hps.beta
  return x - y + suffs.binomlnAccum

/-- The loop over `ks` in `test_post_pred_equal_likelihood` (derivations/betabinomial.py:135-138). -/
noncomputable def predLoop (hps : Hypers) : List ℕ → ℝ → SuffStats → Res (ℝ × SuffStats)
  | [], predScore, ss => .ok (predScore, ss)
  | k :: ks, predScore, ss => do
    let p ← computePostPred k hps ss
    let ss ← addDp k hps ss
    predLoop hps ks (predScore + p) ss

/-- The draws of `numpy.random` the script makes; `σ` is the state of the generator. -/
structure Numpy (σ : Type) where
  beta : ℝ × ℝ → σ → ℝ × σ
  binomial : ℕ → ℝ × σ → ℕ × σ

variable {σ : Type}

/-- `simone` (derivations/betabinomial.py:37-42). -/
def simone (np : Numpy σ) (alpha beta : ℝ) (n : ℕ) : ℕ → σ → List ℕ × σ
  | 0, s => ([], s)
  | i + 1, s =>
    let theta := np.beta (alpha, beta) s
    let k := np.binomial n theta
    let ks := simone np alpha beta n i k.2
    (k.1 :: ks.1, ks.2)

/-- `np.random.beta(alpha, beta, size=ITERS)` (derivations/betabinomial.py:47). -/
def thetas (np : Numpy σ) (alpha beta : ℝ) : ℕ → σ → List ℝ × σ
  | 0, s => ([], s)
  | i + 1, s =>
    let theta := np.beta (alpha, beta) s
    let rest := thetas np alpha beta i theta.2
    (theta.1 :: rest.1, rest.2)

/-- The loop of `simtwo` (derivations/betabinomial.py:48-52); `counts` is an array of `uint32`. -/
def fillRows (np : Numpy σ) (n : ℕ) : List ℝ → σ → List (ℕ × ℕ) × σ
  | [], s => ([], s)
  | theta :: ts, s =>
    let j := np.binomial n (theta, s)
    let k := np.binomial n (theta, j.2)
    let rest := fillRows np n ts k.2
    ((j.1 % 2 ^ 32, k.1 % 2 ^ 32) :: rest.1, rest.2)

/-- `simtwo` (derivations/betabinomial.py:45-53). -/
def simtwo (np : Numpy σ) (alpha beta : ℝ) (n iters : ℕ) (s : σ) : List (ℕ × ℕ) × σ :=
  let ts := thetas np alpha beta iters s
  fillRows np n ts.1 ts.2

/-- The cell `numpy.histogram2d` with `bins = N + 1` gives a value of an axis whose smallest and largest
values are `lo` and `hi`: the last of the `N + 2` equally spaced edges not above the value, and the last cell
for `hi`.  An axis with one value only gets the edges from `lo - 1/2` to `hi + 1/2`. -/
def numpyCell (bins lo hi : ℕ) (x : ℕ) : ℕ :=
  let lo' : ℚ := if lo = hi then lo - 1 / 2 else lo
  let hi' : ℚ := if lo = hi then hi + 1 / 2 else hi
  if (x : ℚ) = hi' then bins - 1
  else ((List.range (bins + 1)).countP fun i : ℕ => decide (lo' + i * (hi' - lo') / bins ≤ x)) - 1

/-- `np.histogram2d(r[:, 0], r[:, 1], bins=N + 1)` (derivations/betabinomial.py:112): the number of samples
in a cell.  Without samples there is no smallest value and numpy raises. -/
def histogram2d (bins : ℕ) (samples : List (ℕ × ℕ)) : Res (ℕ → ℕ → ℕ) :=
  match (samples.map Prod.fst).min?, (samples.map Prod.fst).max?, (samples.map Prod.snd).min?,
    (samples.map Prod.snd).max? with
  | some lo₁, some hi₁, some lo₂, some hi₂ =>
    .ok fun i j => samples.countP fun p =>
      decide (numpyCell bins lo₁ hi₁ p.1 = i ∧ numpyCell bins lo₂ hi₂ p.2 = j)
  | _, _, _, _ => .fail

/-- `two_d_hist` (derivations/betabinomial.py:109-119) after the simulation: one is added to every cell. -/
noncomputable def twoDHist (N : ℕ) (samples : List (ℕ × ℕ)) : Res (ℕ → ℕ → ℝ) := do
  let h ← histogram2d (N + 1) samples
  return fun i j => Real.log ((h i j + 1 : ℕ) / samples.length)

end Dist.BetaBinom

namespace Dist.LogGammaNotes

/-- `gammaln_approx_fourth_order` (derivations/loggamma.py:81-91) for the row `a` of `coeff4` that
`int(np.floor(np.log2(x)))` selects; `lgamma` is `scipy.special.gammaln`. -/
noncomputable def gammalnApproxFourthOrder (lgamma : ℝ → ℝ) (a : ℕ → ℝ) (x : ℝ) : ℝ :=
  if x < 5 / 2 then lgamma x
  else a 4 + a 3 * x + a 2 * x ^ 2 + a 1 * x ^ 3 + a 0 * x ^ 4

/-- `gammaln_approx_fifth_order` (derivations/loggamma.py:94-105) for the row `a` of `coeff5`, which
line 52 computes as line 51 computes `coeff4`. -/
noncomputable def gammalnApproxFifthOrder (a : ℕ → ℝ) (x : ℝ) : ℝ :=
  a 5 + a 4 * x + a 3 * x ^ 2 + a 2 * x ^ 3 + a 1 * x ^ 4 + a 0 * x ^ 5

/-- `gammaln_gauss` (derivations/loggamma.py:144-148). -/
noncomputable def gammalnGauss (lgamma : ℝ → ℝ) (x : ℝ) : ℝ :=
  if x < 5 / 2 then lgamma x
  else
    let u := x - 1 / 2
    Real.log (2 * 3141592) / 2 + u * Real.log u - u

end Dist.LogGammaNotes
