import Mathlib.Data.Fin.Tuple.Basic
import Verif.Model.NIW
import Verif.Model.Random

/-! # Sampling from Normal-Inverse-Wishart groups

`include/distributions/random.hpp:187-259` and `Sampler` of
`include/distributions/models/niw.hpp:310-341`.  `Eigen::LLT` is a parameter like `inverse()` and
`determinant()`: it reports failure or gives the matrix `matrixL()`, zero above the diagonal.
`std::normal_distribution<float>` keeps a second value between calls; here every call is a draw of
its own. -/

namespace Dist

/-- A matrix with one more row `r`, and `zero` in the last column. -/
def snocMat {n : Nat} {F : Type} (zero : F) (M : Fin n → Fin n → F) (r : Fin n → F) :
    Fin (n + 1) → Fin (n + 1) → F := fun i j =>
  Fin.lastCases zero (fun j => Fin.lastCases (r j) (fun i => M i j) i) j

namespace NIW

open FloatOps FloatNotation

/-- Eigen's `determinant()`, `inverse()` and `LLT` (`none` when `info()` is not `Success`). -/
structure Eigen (F : Type) extends LinAlg F where
  llt : {d : Nat} → Mat F d → Option (Mat F d)

variable {F σ : Type} [FloatOps F] {d : Nat}

/-- `a * b`. -/
def matMul (a b : Mat F d) : Mat F d := fun i j => dot (a i) (fun k => b k j)

/-- Loop drawing a vector of standard normal variables, first entry first
(random.hpp:199-203; a row of `A`, random.hpp:229-231). -/
def normals (rng : Rng F σ) : (n : Nat) → σ → Vec F n × σ
  | 0, s => (Fin.elim0, s)
  | n + 1, s =>
    let (v, s) := normals rng n s
    let (x, s) := rng.normal s (ofInt 0) (ofInt 1)
    (Fin.snoc (α := fun _ => F) v x, s)

/-- `sample_multivariate_normal(mu, sigma, rng)` (random.hpp:187-206). -/
def sampleMvNormal (e : Eigen F) (rng : Rng F σ) (s : σ) (mu : Vec F d) (sigma : Mat F d) :
    Res (Vec F d × σ) :=
  match e.llt sigma with
  | none => .fail
  | some l =>
    let (z, s) := normals rng d s
    .ok (fun i => mu i + mulVec l z i, s)

/-- Diagonal loop of `sample_wishart` (random.hpp:223-225) for the first `n` entries. -/
def chis (rng : Rng F σ) (nu : F) : (n : Nat) → σ → Vec F n × σ
  | 0, s => (Fin.elim0, s)
  | n + 1, s =>
    let (v, s) := chis rng nu n s
    let (x, s) := rng.chisq s (nu - ofInt n)
    (Fin.snoc (α := fun _ => F) v (sqrt x), s)

/-- The loops below the diagonal of `sample_wishart` (random.hpp:227-232) for the first `n` rows,
in a matrix that is zero elsewhere. -/
def lowers (rng : Rng F σ) : (n : Nat) → σ → Mat F n × σ
  | 0, s => (Fin.elim0, s)
  | n + 1, s =>
    let (M, s) := lowers rng n s
    let (r, s) := normals rng n s
    (snocMat (ofInt 0) M r, s)

/-- `sample_wishart(nu, scale, rng)` (random.hpp:210-236). -/
def sampleWishart (e : Eigen F) (rng : Rng F σ) (s : σ) (nu : F) (scale : Mat F d) :
    Res (Mat F d × σ) :=
  match e.llt scale with
  | none => .fail
  | some l =>
    let (c, s) := chis rng nu d s
    let (M, s) := lowers rng d s
    let A : Mat F d := fun i j => if i = j then c i else M i j
    let X := matMul l A
    .ok (matMul X (fun i j => X j i), s)

/-- `sample_inverse_wishart(nu, psi, rng)` (random.hpp:239-247). -/
def sampleInverseWishart (e : Eigen F) (rng : Rng F σ) (s : σ) (nu : F) (psi : Mat F d) :
    Res (Mat F d × σ) := do
  let (sigmaInv, s) ← sampleWishart e rng s nu (e.inv psi)
  return (e.inv sigmaInv, s)

/-- `sample_normal_inverse_wishart(mu0, lambda, psi, nu, rng)` (random.hpp:249-259). -/
def sampleNormalInverseWishart (e : Eigen F) (rng : Rng F σ) (s : σ) (mu0 : Vec F d) (lambda : F)
    (psi : Mat F d) (nu : F) : Res ((Vec F d × Mat F d) × σ) := do
  let (w, s) ← sampleInverseWishart e rng s nu psi
  let cov : Mat F d := fun i j => lit 1 1 / lambda * w i j
  let (mu, s) ← sampleMvNormal e rng s mu0 cov
  return ((mu, cov), s)

/-- `Sampler::init(shared, group, rng)` (niw.hpp:325-334). -/
def Sampler.init (lvl : Nat) (e : Eigen F) (rng : Rng F σ) (s : σ) (sh : Shared F d)
    (g : Group F d) : Res ((Vec F d × Mat F d) × σ) := do
  let post ← sh.plusGroup lvl g
  sampleNormalInverseWishart e rng s post.mu post.kappa post.psi post.nu

/-- `Sampler::eval(shared, rng)` (niw.hpp:336-340). -/
def Sampler.eval (e : Eigen F) (rng : Rng F σ) (s : σ) (p : Vec F d × Mat F d) :
    Res (Vec F d × σ) :=
  sampleMvNormal e rng s p.1 p.2

/-- `Group::sample_value(shared, rng)` (niw.hpp:310-316). -/
def Group.sampleValue (lvl : Nat) (e : Eigen F) (rng : Rng F σ) (s : σ) (sh : Shared F d)
    (g : Group F d) : Res (Vec F d × σ) := do
  let (p, s) ← Sampler.init lvl e rng s sh g
  Sampler.eval e rng s p

end NIW

end Dist
