import Verif.Model.Dbg

/-!
# The goodness-of-fit helpers

`distributions/util.py`, lines 41-212.  `scores_to_probs` of that file is in `Verif.Model.Gibbs`;
`print_histogram` is in `Verif.Model.Histogram`; the `plot` arguments only print.

Parameters: the survival function `scipy.stats.chi2.sf`, the conversion `int(x)` of a float, and
`int(round(n ** 0.333))`.  Python's `sorted` and `list.sort` are `List.mergeSort`.  `float('inf')`
as a returned p-value is `none`.  The dictionary of probabilities is the list of its items in the
order of iteration.
-/

namespace Dist

namespace Util

open FloatOps FloatNotation

variable {F : Type} [FloatOps F]

/-- What the functions below take from Python and scipy. -/
structure Scipy (F : Type) where
  /-- `scipy.stats.chi2.sf(x, dof)` -/
  sf : F → Int → F
  /-- `int(x)` -/
  trunc : F → Int
  /-- `int(round(n ** 0.333))` -/
  cubeRoot : Nat → Nat

/-- `score_to_empirical_kl(score, count)` (distributions/util.py:41-47). -/
def scoreToEmpiricalKl (score : F) (count : Int) : F :=
  -score / ofInt count - log (ofInt count)

/-- The loop of `multinomial_goodness_of_fit` (distributions/util.py:78-93): a `return` from inside
it (`inl`), or the values of `chi_squared` and `dof` after it. -/
def gofLoop (total : Int) : List (F × Int) → F → Int → Res (Option F ⊕ F × Int)
  | [], chi, dof => .ok (.inr (chi, dof))
  | (p, c) :: rest, chi, dof =>
    if eqf p (ofInt 1) then .ok (.inl (some (if c = total then ofInt 1 else ofInt 0)))
    else if !lt p (ofInt 1) then .fail
    else if lt (ofInt 0) p then
      let mean := ofInt total * p
      let variance := ofInt total * p * (ofInt 1 - p)
      if !lt (ofInt 1) variance then .fail
      else gofLoop total rest (chi + (ofInt c - mean) * (ofInt c - mean) / variance) (dof + 1)
    else if 0 < c then .ok (.inl none)
    else gofLoop total rest chi dof

/-- `multinomial_goodness_of_fit(probs, counts, total_count, truncated)`
(distributions/util.py:59-99). -/
def multinomialGof (sp : Scipy F) (probs : List F) (counts : List Int) (total : Int)
    (truncated : Bool) : Res (Option F) := do
  if probs.length ≠ counts.length then .fail
  else if !(truncated || decide (total = counts.sum)) then .fail
  else
    match ← gofLoop total (probs.zip counts) (ofInt 0) 0 with
    | .inl r => .ok r
    | .inr (chi, dof) => .ok (some (sp.sf chi (if truncated then dof else dof - 1)))

/-- `v[i] += 1` on a numpy array of integers: negative indices count from the end. -/
def npIncr (v : List Int) (i : Int) : Res (List Int) :=
  let j := if i < 0 then i + v.length else i
  if 0 ≤ j ∧ j < v.length then .ok (v.modify j.toNat (· + 1)) else .fail

/-- The loop of `unif01_goodness_of_fit` (distributions/util.py:112-113). -/
def binLoop (sp : Scipy F) (binCount : Nat) : List F → List Int → Res (List Int)
  | [], counts => .ok counts
  | x :: rest, counts => do
    let counts ← npIncr counts (sp.trunc (ofInt binCount * x))
    binLoop sp binCount rest counts

/-- `unif01_goodness_of_fit(samples)` (distributions/util.py:102-114).  `min()` of an empty array
raises; with a NaN among the samples the assertions fail. -/
def unif01Gof (sp : Scipy F) (samples : List F) : Res (Option F) := do
  if samples.isEmpty then .fail
  else if !samples.all (fun x => le (ofInt 0) x) then .fail
  else if !samples.all (fun x => le x (ofInt 1)) then .fail
  else
    let binCount := sp.cubeRoot samples.length
    if binCount < 7 then .fail
    else
      let probs := List.replicate binCount (ofInt 1 / ofInt binCount : F)
      let counts ← binLoop sp binCount samples (List.replicate binCount 0)
      multinomialGof sp probs counts samples.length false

/-- The order of Python's tuples of two floats, `a <= b`. -/
def pairLe (a b : F × F) : Bool := lt a.1 b.1 || (eqf a.1 b.1 && le a.2 b.2)

/-- The array `unif01_samples` (distributions/util.py:131-133) for the sorted pairs of a sample and
its density; `n` is `len(samples)`. -/
def gapTransform (n : Nat) : List (F × F) → List F
  | (x, p) :: (y, q) :: rest =>
    (ofInt 1 - exp (-ofInt n * (y - x) * sqrt (q * p))) :: gapTransform n ((y, q) :: rest)
  | _ => []

/-- `density_goodness_of_fit(samples, probs)` (distributions/util.py:117-134). -/
def densityGof (sp : Scipy F) (samples probs : List F) : Res (Option F) :=
  if samples.length ≠ probs.length then .fail
  else if ¬ 100 < samples.length then .fail
  else
    let pairs := (samples.zip probs).mergeSort pairLe
    unif01Gof sp (gapTransform samples.length pairs)

/-- The reversed order of Python's tuples of a float and an integer, `a >= b`. -/
def itemGe (a b : F × Int) : Bool := lt b.1 a.1 || (eqf a.1 b.1 && decide (b.2 ≤ a.2))

/-- `discrete_goodness_of_fit(samples, probs_dict, truncate_beyond)`
(distributions/util.py:137-164). -/
def discreteGof {α : Type} [DecidableEq α] (sp : Scipy F) (samples : List α)
    (probsDict : List (α × F)) (truncateBeyond : Nat) : Res (Option F) :=
  if ¬ 100 < samples.length then .fail
  else if !samples.all (fun x => (probsDict.map Prod.fst).contains x) then .fail
  else
    let items := probsDict.map fun e => (e.2, (samples.count e.1 : Int))
    let items := items.mergeSort itemGe
    let truncated := decide (truncateBeyond ≠ 0 ∧ truncateBeyond < items.length)
    let items := if truncated then items.take truncateBeyond else items
    multinomialGof sp (items.map Prod.fst) (items.map Prod.snd) samples.length truncated

/-- The loop of `bin_samples` (distributions/util.py:194-201): from the bins, each with the list of
the bins after it, the range and the count.  `bins[i][0]` of an empty bin raises; so does
`bins[i + 1][0]`, which is caught. -/
def binRanges : List (List F) → Res (List ((F × F) × Nat))
  | [] => .ok []
  | b :: rest => do
    match b.head?, b.getLast? with
    | some lo, some last =>
      let hi := match rest.head? with
        | some (x :: _) => x
        | _ => last
      let tail ← binRanges rest
      return ((lo, hi), b.length) :: tail
    | _, _ => .fail

/-- `bin_ranges[0][0] = support[0]; bin_ranges[-1][1] = support[1]`
(distributions/util.py:202-204). -/
def setSupport (support : Option (F × F)) (ranges : List (F × F)) : List (F × F) :=
  match support with
  | none => ranges
  | some (a, b) =>
    (ranges.modify 0 fun r => (a, r.2)).modify (ranges.length - 1) fun r => (r.1, b)

/-- `bin_samples(samples, k, support)` (distributions/util.py:167-205): `divmod(N, 0)` raises.
The counts and the ranges. -/
def binSamples (samples : List F) (k : Nat) (support : Option (F × F)) :
    Res (List Nat × List (F × F)) := do
  let samples := samples.mergeSort le
  let n := samples.length
  if k = 0 then .fail
  else
    let q := n / k
    let r := n % k
    let index := fun i => i * q + min r i
    let bins := (List.range k).map fun i =>
      (samples.drop (index i)).take (index (i + 1) - index i)
    let out ← binRanges bins
    return (out.map Prod.snd, setSupport support (out.map Prod.fst))

/-- The loop of `histogram` (distributions/util.py:210-211). -/
def histLoop : List Int → List Int → Res (List Int)
  | [], v => .ok v
  | s :: rest, v => do
    let v ← npIncr v s
    histLoop rest v

/-- `histogram(samples, bin_count)` (distributions/util.py:206-212): `max` of an empty array and an
array of negative size raise. -/
def histogram (samples : List Int) (binCount : Option Int) : Res (List Int) := do
  let n ← match binCount, samples.max? with
    | some n, _ => .ok n
    | none, some m => .ok (m + 1)
    | none, none => .fail
  if n < 0 then .fail
  else histLoop samples (List.replicate n.toNat 0)

end Util

end Dist
