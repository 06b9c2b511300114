import Verif.Model.Dbg
import Verif.Model.Gibbs
import Verif.Model.NIWSample
import Verif.Model.SampleGroup

/-!
# Sampling in the reference implementation

`distributions/dbg/random.py`, the `Sampler` classes and `sample_group` functions of
`distributions/dbg/models`, and `sample_invwishart` of `distributions/vendor/stats.py`.

The functions of numpy and scipy that draw random numbers are a parameter, like the `std::`
distributions of the C++ code (`Rng`); they raise on parameters outside their domain, which is not
modelled (the theorems have parameters inside).  `sample_discrete` and `sample_discrete_log` are in
`Verif.Model.Gibbs`; without its second argument `sample_discrete` takes `sum(probs)`, which is
`npSum`.
-/

namespace Dist

namespace Dbg

open FloatOps FloatNotation
open Dist.NIW (Vec Mat LinAlg)

/-- What numpy and scipy draw besides the draws the C++ code makes too
(distributions/dbg/random.py:30-38), and `nu == np.round(nu)` with the array size `nu`
(distributions/vendor/stats.py:167-168). -/
structure Numpy (F σ : Type) extends Rng F σ where
  /-- `numpy.random.beta(a, b)` -/
  beta : σ → F → F → F × σ
  /-- `numpy.random.dirichlet(alphas)` -/
  dirichlet : σ → List F → List F × σ
  /-- `scipy.stats.bernoulli.rvs(p)` -/
  bernoulli : σ → F → Bool × σ
  /-- `numpy.random.multivariate_normal(mean, cov)` -/
  mvNormal : {d : Nat} → σ → Vec F d → Mat F d → Vec F d × σ
  /-- `numpy.random.permutation(n)` -/
  permutation : σ → Nat → List Nat × σ
  /-- the number, if it is a whole one -/
  whole : F → Option Nat

/-- numpy's and scipy's linear algebra: `det`, `inv`, `cholesky`, `qr(x, 'r')` and
`solve_triangular(a, b, lower=True)`; `none` when they raise `LinAlgError`. -/
structure NumpyLinAlg (F : Type) extends LinAlg F where
  chol : {d : Nat} → Mat F d → Option (Mat F d)
  qrR : {m d : Nat} → (Fin m → Fin d → F) → Mat F d
  solveLower : {d : Nat} → Mat F d → Mat F d → Option (Mat F d)

variable {F σ : Type} [FloatOps F]

/-! ## distributions/dbg/random.py -/

/-- `sample_normal(mu, sigmasq)` (distributions/dbg/random.py:98-99): the second parameter of
`norm.rvs` is the standard deviation. -/
def sampleNormal (np : Numpy F σ) (s : σ) (mu sigmasq : F) : F × σ := np.normal s mu sigmasq

/-- `sample_student_t(dof, mu, Sigma)` (distributions/dbg/random.py:106-110). -/
def sampleStudentT {d : Nat} (np : Numpy F σ) (s : σ) (dof : F) (mu : Vec F d) (sigma : Mat F d) :
    Vec F d × σ :=
  let (x, s) := np.chisq s dof
  let (z, s) := np.mvNormal s (fun _ => ofInt 0) sigma
  (fun i => mu i + z i / sqrt x, s)

/-- `multivariate_normal(mean, cov, size)`: the rows of an array. -/
def mvNormals {d : Nat} (np : Numpy F σ) (mean : Vec F d) (cov : Mat F d) :
    (size : Nat) → σ → (Fin size → Vec F d) × σ
  | 0, s => (Fin.elim0, s)
  | n + 1, s =>
    let (X, s) := mvNormals np mean cov n s
    let (x, s) := np.mvNormal s mean cov
    (Fin.snoc (α := fun _ => Vec F d) X x, s)

/-- `sample_wishart_naive(nu, Lambda)` (distributions/dbg/random.py:134-142); `size=nu` is a whole
number. -/
def sampleWishartNaive {d : Nat} (np : Numpy F σ) (s : σ) (nu : Nat) (lambda : Mat F d) :
    Mat F d × σ :=
  let (X, s) := mvNormals np (fun _ => ofInt 0) lambda nu s
  (fun i j => Dist.NIW.dot (fun k => X k i) (fun k => X k j), s)

/-- The lower triangular matrix of `sample_wishart` and `sample_wishart_v2`
(distributions/dbg/random.py:149-152, 165-168) for the first `n` rows; `diag` draws a diagonal
entry. -/
def wishartFactor (np : Numpy F σ) (diag : Nat → σ → F × σ) : (n : Nat) → σ → Mat F n × σ
  | 0, s => (Fin.elim0, s)
  | n + 1, s =>
    let (M, s) := wishartFactor np diag n s
    let (r, s) := Dist.NIW.normals np.toRng n s
    let (c, s) := diag n s
    (fun i j => Fin.lastCases (Fin.lastCases c (fun _ => ofInt 0) i)
      (fun j => Fin.lastCases (r j) (fun i => M i j) i) j, s)

/-- `sample_wishart(nu, Lambda)` (distributions/dbg/random.py:145-153). -/
def sampleWishart {d : Nat} (la : NumpyLinAlg F) (np : Numpy F σ) (s : σ) (nu : F)
    (lambda : Mat F d) : Res (Mat F d × σ) :=
  match la.chol lambda with
  | none => .fail
  | some ch =>
    let (z, s) := wishartFactor np (fun _ s =>
      let (g, s) := np.gamma s (lit 1 2 * nu - ofInt d + lit 1 1) (lit 2 1)
      (sqrt g, s)) d s
    let a := Dist.NIW.matMul ch z
    .ok (Dist.NIW.matMul (Dist.NIW.matMul a fun i j => z j i) fun i j => ch j i, s)

/-- `sample_wishart_v2(nu, Lambda)` (distributions/dbg/random.py:156-169). -/
def sampleWishartV2 {d : Nat} (la : NumpyLinAlg F) (np : Numpy F σ) (s : σ) (nu : F)
    (lambda : Mat F d) : Res (Mat F d × σ) :=
  match la.chol lambda with
  | none => .fail
  | some ch =>
    let (T, s) := wishartFactor np (fun i s =>
      let (c, s) := np.chisq s (nu - ofInt i + lit 1 1)
      (sqrt c, s)) d s
    let a := Dist.NIW.matMul ch T
    .ok (Dist.NIW.matMul (Dist.NIW.matMul a fun i j => T j i) fun i j => ch j i, s)

/-- `np.random.randn(m, n)` (distributions/vendor/stats.py:168). -/
def randn (np : Numpy F σ) (n : Nat) : (m : Nat) → σ → (Fin m → Fin n → F) × σ
  | 0, s => (Fin.elim0, s)
  | m + 1, s =>
    let (M, s) := randn np n m s
    let (r, s) := Dist.NIW.normals np.toRng n s
    (Fin.snoc (α := fun _ => Fin n → F) M r, s)

/-- The entries above the diagonal, row by row (distributions/vendor/stats.py:171). -/
def uppers (np : Numpy F σ) : (n : Nat) → σ → Mat F n × σ
  | 0, s => (Fin.elim0, s)
  | n + 1, s =>
    let (r, s) := Dist.NIW.normals np.toRng n s
    let (M, s) := uppers np n s
    (fun i j => Fin.cases (ofInt 0) (fun j => Fin.cases (r j) (fun i => M i j) i) j, s)

/-- `sample_invwishart(S, nu)` (distributions/vendor/stats.py:160-174). -/
def sampleInvWishart {d : Nat} (la : NumpyLinAlg F) (np : Numpy F σ) (s : σ) (S : Mat F d)
    (nu : F) : Res (Mat F d × σ) :=
  match la.chol S with
  | none => .fail
  | some chol =>
    let (R, s) : Mat F d × σ := match (np.whole nu).filter fun m => m ≤ 81 + d with
      | some m =>
        let (x, s) := randn np d m s
        (la.qrR x, s)
      | none =>
        let (c, s) := Dist.NIW.chis np.toRng nu d s
        let (M, s) := uppers np d s
        (la.qrR fun i j => if i = j then c i else M i j, s)
    match la.solveLower (fun i j => R j i) (fun i j => chol j i) with
    | none => .fail
    | some Tt => .ok (Dist.NIW.matMul (fun i j => Tt j i) Tt, s)

/-- `sample_normal_inverse_wishart(mu0, lambda0, psi0, nu0)`
(distributions/dbg/random.py:177-184). -/
def sampleNormalInverseWishart {d : Nat} (la : NumpyLinAlg F) (np : Numpy F σ) (s : σ)
    (mu0 : Vec F d) (lambda0 : F) (psi0 : Mat F d) (nu0 : F) : Res ((Vec F d × Mat F d) × σ) := do
  if lt (ofInt 0) lambda0 = false then .fail
  else if lt (ofInt d - ofInt 1) nu0 = false then .fail
  else
    let (cov, s) ← sampleInvWishart la np s psi0 nu0
    let (mu, s) := np.mvNormal s mu0 fun i j => lit 1 1 / lambda0 * cov i j
    return ((mu, cov), s)

/-- The loops of `sample_partition_from_counts` (distributions/dbg/random.py:196-200): `order` is
what is left of the permutation. -/
def partitionLoop {α : Type} (items : List α) : List Nat → List Nat → Res (List (List α))
  | [], _ => .ok []
  | c :: cs, order => do
    let block ← (order.take c).mapM fun i => getAt items i
    let rest ← partitionLoop items cs (order.drop c)
    return block :: rest

/-- `sample_partition_from_counts(items, counts)` (distributions/dbg/random.py:187-201), for counts
that are not negative. -/
def samplePartition {α : Type} (np : Numpy F σ) (s : σ) (items : List α) (counts : List Nat) :
    Res (List (List α) × σ) := do
  if counts.sum ≠ items.length then .fail
  else
    let (order, s) := np.permutation s items.length
    let partition ← partitionLoop items counts order
    return (partition, s)

/-- The loop of `sample_stick` (distributions/dbg/random.py:208-213); `none` if it is still
running after `fuel` rounds. -/
def stickLoop (np : Numpy F σ) (gamma tol : F) : Nat → List F → F → σ → Option ((List F × F) × σ)
  | 0, betas, z, s => if lt tol (lit 1 1 - z) then none else some ((betas, z), s)
  | fuel + 1, betas, z, s =>
    if lt tol (lit 1 1 - z) then
      let (b, s) := np.beta s (lit 1 1) gamma
      let newBeta := (lit 1 1 - z) * b
      stickLoop np gamma tol fuel (betas ++ [newBeta]) (z + newBeta) s
    else some ((betas, z), s)

/-- `sample_stick(gamma, tol)` (distributions/dbg/random.py:204-214); the dictionary has the keys
0, 1, ... -/
def sampleStick (np : Numpy F σ) (s : σ) (gamma tol : F) (fuel : Nat) : Option (List F × σ) :=
  match stickLoop np gamma tol fuel [] (lit 0 1) s with
  | none => none
  | some ((betas, z), s) => some (betas.map fun b => b / z, s)

/-! ## `Sampler`, `sample_value` and `sample_group` of the models -/

/-- `Sampler.init` and `sample_value` (distributions/dbg/models/bb.py:127-130, 151-161). -/
def BB.Group.sampleValue (np : Numpy F σ) (s : σ) (sh : Dist.BB.Shared F) (g : Group) :
    Res (Bool × σ) :=
  let (p, s) := np.beta s (sh.alpha + ofInt g.heads) (sh.beta + ofInt g.tails)
  .ok (np.bernoulli s p)

/-- `sample_group` (distributions/dbg/models/bb.py:164-169). -/
def BB.sampleGroup (np : Numpy F σ) (s : σ) (sh : Dist.BB.Shared F) (size : Nat) :
    Res (List Bool × σ) :=
  let (p, s) := np.beta s (sh.alpha + ofInt Group.init.heads) (sh.beta + ofInt Group.init.tails)
  sampleLoop (fun s => .ok (np.bernoulli s p)) size s

/-- `sample_value` (distributions/dbg/models/bnb.py:139-142, 163-169). -/
def BNB.Group.sampleValue (np : Numpy F σ) (s : σ) (sh : Shared F) (g : Group) : Res (Int × σ) :=
  let post := sh.plusGroup g
  let (p, s) := np.beta s post.alpha post.beta
  .ok (np.negBinomial s p sh.r)

/-- `sample_group` (distributions/dbg/models/bnb.py:172-177). -/
def BNB.sampleGroup (np : Numpy F σ) (s : σ) (sh : Shared F) (size : Nat) : Res (List Int × σ) :=
  let post := sh.plusGroup Group.init
  let (p, s) := np.beta s post.alpha post.beta
  sampleLoop (fun s => .ok (np.negBinomial s p sh.r)) size s

/-- `group.counts + shared.alphas` (distributions/dbg/models/dd.py:145), for arrays of one shape. -/
def DD.posterior (alphas : List F) (counts : List Int) : Res (List F) :=
  if alphas.length = counts.length then
    .ok (List.zipWith (fun (c : Int) a => ofInt c + a) counts alphas)
  else .fail

/-- `sample_value` (distributions/dbg/models/dd.py:120-123, 140-148). -/
def DD.sampleValue (np : Numpy F σ) (s : σ) (alphas : List F) (counts : List Int) :
    Res (Nat × σ) := do
  let post ← posterior alphas counts
  let (ps, s) := np.dirichlet s post
  sampleDiscrete np.toRng s ps (npSum ps)

/-- `sample_group` (distributions/dbg/models/dd.py:151-156). -/
def DD.sampleGroup (np : Numpy F σ) (s : σ) (alphas : List F) (size : Nat) :
    Res (List Nat × σ) := do
  let post ← posterior alphas (init alphas.length)
  let (ps, s) := np.dirichlet s post
  sampleLoop (fun s => sampleDiscrete np.toRng s ps (npSum ps)) size s

/-- The lists of `Sampler.init` (distributions/dbg/models/dpd.py:268-277): values with their
weights; `ks` is the iteration order of `betas`. -/
def DPD.samplerTable (sh : Dist.DPD.Shared F) (g : Group) (ks : List UInt32) : List (UInt32 × F) :=
  (sh.betas.entries ks).map
      (fun e => (e.1, e.2 * sh.alpha + ofInt ((g.counts.lookup e.1).getD 0)))
    ++ (if lt (ofInt 0) sh.beta0 then [(Dist.DPD.other, sh.beta0 * sh.alpha)] else [])

/-- `Sampler.eval` (distributions/dbg/models/dpd.py:280-282). -/
def DPD.samplerEval (np : Numpy F σ) (values : List UInt32) (probs : List F) (s : σ) :
    Res (UInt32 × σ) := do
  let (i, s) ← sampleDiscrete np.toRng s probs (npSum probs)
  let v ← getAt values i
  return (v, s)

/-- `sample_value` (distributions/dbg/models/dpd.py:224-227, 266-282). -/
def DPD.Group.sampleValue (np : Numpy F σ) (s : σ) (sh : Dist.DPD.Shared F) (g : Group)
    (ks : List UInt32) : Res (UInt32 × σ) :=
  let table := samplerTable sh g ks
  let (ps, s) := np.dirichlet s (table.map Prod.snd)
  samplerEval np (table.map Prod.fst) ps s

/-- `sample_group` (distributions/dbg/models/dpd.py:285-290). -/
def DPD.sampleGroup (np : Numpy F σ) (s : σ) (sh : Dist.DPD.Shared F) (ks : List UInt32)
    (size : Nat) : Res (List UInt32 × σ) :=
  let table := samplerTable sh Group.init ks
  let (ps, s) := np.dirichlet s (table.map Prod.snd)
  sampleLoop (samplerEval np (table.map Prod.fst) ps) size s

/-- `Sampler.init` (distributions/dbg/models/gp.py:148-150). -/
def GP.samplerInit (np : Numpy F σ) (s : σ) (sh : Dist.GP.Shared F) (g : Group F) :
    Res (F × σ) := do
  let post := plusGroup sh g
  let scale ← pyDiv (lit 1 1) post.invBeta
  return np.gamma s post.alpha scale

/-- `sample_value` (distributions/dbg/models/gp.py:119-122, 152-153). -/
def GP.Group.sampleValue (np : Numpy F σ) (s : σ) (sh : Dist.GP.Shared F) (g : Group F) :
    Res (Int × σ) := do
  let (mean, s) ← samplerInit np s sh g
  return np.poisson s mean

/-- `sample_group` (distributions/dbg/models/gp.py:156-161). -/
def GP.sampleGroup (np : Numpy F σ) (s : σ) (sh : Dist.GP.Shared F) (size : Nat) :
    Res (List Int × σ) := do
  let (mean, s) ← samplerInit np s sh Group.init
  sampleLoop (fun s => .ok (np.poisson s mean)) size s

/-- `math.sqrt(x)`, which raises on negative numbers. -/
def pySqrt (x : F) : Res F := if lt x (ofInt 0) then .fail else .ok (sqrt x)

/-- `Sampler.init` (distributions/dbg/models/nich.py:220-230); the draw of `chi2.rvs` is a numpy
number. -/
def NICH.samplerInit (np : Numpy F σ) (s : σ) (sh : Dist.NICH.Shared F) (g : Dist.NICH.Group F) :
    Res ((F × F) × σ) := do
  let post ← plusGroup sh g
  let (c, s) := np.chisq s post.nu
  let sigmasq := post.nu * post.sigmasq / c
  let sigma ← pySqrt sigmasq
  let q ← pyDiv sigmasq post.kappa
  let sd ← pySqrt q
  let (mu, s) := sampleNormal np s post.mu sd
  return ((mu, sigma), s)

/-- `sample_value` (distributions/dbg/models/nich.py:191-194, 232-233). -/
def NICH.sampleValue (np : Numpy F σ) (s : σ) (sh : Dist.NICH.Shared F) (g : Dist.NICH.Group F) :
    Res (F × σ) := do
  let ((mu, sigma), s) ← samplerInit np s sh g
  return sampleNormal np s mu sigma

/-- `sample_group` (distributions/dbg/models/nich.py:236-241). -/
def NICH.sampleGroup (np : Numpy F σ) (s : σ) (sh : Dist.NICH.Shared F) (size : Nat) :
    Res (List F × σ) := do
  let ((mu, sigma), s) ← samplerInit np s sh init
  sampleLoop (fun s => .ok (sampleNormal np s mu sigma)) size s

/-- `Sampler.init` (distributions/dbg/models/niw.py:257-261). -/
def NIW.samplerInit {d : Nat} (la : NumpyLinAlg F) (np : Numpy F σ) (s : σ)
    (sh : Dist.NIW.Shared F d) (g : Dist.NIW.Group F d) : Res ((Vec F d × Mat F d) × σ) := do
  let post ← plusGroup sh g
  sampleNormalInverseWishart la np s post.mu post.kappa post.psi post.nu

/-- `sample_value` (distributions/dbg/models/niw.py:219-222, 263-264). -/
def NIW.sampleValue {d : Nat} (la : NumpyLinAlg F) (np : Numpy F σ) (s : σ)
    (sh : Dist.NIW.Shared F d) (g : Dist.NIW.Group F d) : Res (Vec F d × σ) := do
  let ((mu, sigma), s) ← samplerInit la np s sh g
  return np.mvNormal s mu sigma

/-- `sample_group` (distributions/dbg/models/niw.py:267-272). -/
def NIW.sampleGroup {d : Nat} (la : NumpyLinAlg F) (np : Numpy F σ) (s : σ)
    (sh : Dist.NIW.Shared F d) (size : Nat) : Res (List (Vec F d) × σ) := do
  let ((mu, sigma), s) ← samplerInit la np s sh init
  sampleLoop (fun s => .ok (np.mvNormal s mu sigma)) size s

end Dbg

end Dist
