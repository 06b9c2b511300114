import Mathlib.Data.List.FinRange
import Verif.Model.Mixture

/-! # Normal-Inverse-Wishart (include/distributions/models/niw.hpp)

Vectors and matrices of dimension `d` are functions on `Fin d`; the run-time size checks of
the dynamic-size instantiation hold by typing.  Eigen's `determinant()` and `inverse()` are
parameters (`LinAlg`), their algorithms are not modelled.  Eigen evaluates sums and scalar
multiples elementwise. -/

namespace Dist.NIW

open FloatOps FloatNotation

abbrev Vec (F : Type) (d : Nat) := Fin d → F

abbrev Mat (F : Type) (d : Nat) := Fin d → Fin d → F

/-- Eigen's `determinant()` and `inverse()`. -/
structure LinAlg (F : Type) where
  det : {d : Nat} → Mat F d → F
  inv : {d : Nat} → Mat F d → Mat F d

variable {F : Type} [FloatOps F] {d : Nat}

/-- `v.dot(w)`. -/
def dot (v w : Vec F d) : F := (List.finRange d).foldl (fun acc i => acc + v i * w i) (ofInt 0)

/-- `m * v`. -/
def mulVec (m : Mat F d) (v : Vec F d) : Vec F d := fun i => dot (m i) v

/-- `v * w.transpose()`. -/
def outer (v w : Vec F d) : Mat F d := fun i j => v i * w j

/-- `Shared` (niw.hpp:76-80); the dimension is that of `mu`. -/
structure Shared (F : Type) (d : Nat) where
  mu : Vec F d
  kappa : F
  psi : Mat F d
  nu : F

/-- `Group` (niw.hpp:187-190). -/
structure Group (F : Type) (d : Nat) where
  count : Int
  sumX : Vec F d
  sumXXT : Mat F d

/-- `Shared::plus_group` (niw.hpp:82-103).  The assertion at level 3 says that the
dimension is positive. -/
def Shared.plusGroup (lvl : Nat) (sh : Shared F d) (g : Group F d) : Res (Shared F d) := do
  distAssert lvl 3 (0 < d)
  let n : F := ofInt g.count
  let xbar : Vec F d := if g.count ≠ 0 then fun i => g.sumX i / n else fun _ => ofInt 0
  let mu : Vec F d := fun i =>
    sh.kappa / (sh.kappa + n) * sh.mu i + n / (sh.kappa + n) * xbar i
  let diff : Vec F d := fun i => xbar i - sh.mu i
  let c : Mat F d := fun i j =>
    g.sumXXT i j - g.sumX i * xbar j - xbar i * g.sumX j + n * xbar i * xbar j
  let ddT := outer diff diff
  let psi : Mat F d := fun i j =>
    sh.psi i j + c i j + sh.kappa * n / (sh.kappa + n) * ddT i j
  return ⟨mu, sh.kappa + n, psi, sh.nu + n⟩

namespace Group

/-- `Group::init` (niw.hpp:236-245). -/
def init (lvl : Nat) : Res (Group F d) := do
  distAssert lvl 3 (0 < d)
  return ⟨0, fun _ => ofInt 0, fun _ _ => ofInt 0⟩

/-- `Group::add_value` (niw.hpp:247-255). -/
def addValue (g : Group F d) (value : Vec F d) : Res (Group F d) := do
  let count ← i32 (g.count + 1)
  return ⟨count, fun i => g.sumX i + value i, fun i j => g.sumXXT i j + value i * value j⟩

/-- `Group::add_repeated_value` (niw.hpp:257-266). -/
def addRepeatedValue (g : Group F d) (value : Vec F d) (count : Int) : Res (Group F d) := do
  let c ← i32 (g.count + count)
  return ⟨c, fun i => g.sumX i + ofInt count * value i,
    fun i j => g.sumXXT i j + ofInt count * (value i * value j)⟩

/-- `Group::remove_value` (niw.hpp:268-276). -/
def removeValue (g : Group F d) (value : Vec F d) : Res (Group F d) := do
  let count ← i32 (g.count - 1)
  return ⟨count, fun i => g.sumX i - value i, fun i j => g.sumXXT i j - value i * value j⟩

/-- `Group::merge` (niw.hpp:278-285). -/
def merge (g source : Group F d) : Res (Group F d) := do
  let count ← i32 (g.count + source.count)
  return ⟨count, fun i => g.sumX i + source.sumX i, fun i j => g.sumXXT i j + source.sumXXT i j⟩

end Group

/-- `lmultigamma(d, a)` (special.hpp:278-286).  `d * (d - 1)` is `unsigned` arithmetic; the
loop runs over `j = 1, ..., d`. -/
def lmultigamma (lvl : Nat) (d : Nat) (a : F) : Res F := do
  distAssert lvl 1 (0 < d)
  let term1 : F := lit 1 4 * ofInt ((d * (d - 1) % 4294967296 : Nat)) * logPi
  let term2 : F := (List.range d).foldl
    (fun t (j : Nat) => t + lgamma (a + lit 1 2 * ofInt (1 - ((j : Int) + 1)))) (ofInt 0)
  return term1 + term2

/-- `Group::score_data` (niw.hpp:296-308).  `count * shared.dim()` multiplies an `int` with
an `unsigned`, so it is reduced modulo `2^32`. -/
def Group.scoreData (lvl : Nat) (la : LinAlg F) (sh : Shared F d) (g : Group F d) : Res F := do
  let post ← sh.plusGroup lvl g
  let m1 ← lmultigamma lvl d (post.nu * lit 1 2)
  let m2 ← lmultigamma lvl d (sh.nu * lit 1 2)
  let countDim : F := ofInt ((g.count * d) % 4294967296)
  return m1 + sh.nu * lit 1 2 * log (la.det sh.psi) - countDim * lit 1 2 * logPi - m2
    - post.nu * lit 1 2 * log (la.det post.psi) + ofInt d * lit 1 2 * log (sh.kappa / post.kappa)

/-- `score_mv_student_t(v, nu, mu, sigma)` (random.hpp:160-185). -/
def scoreMvStudentT (la : LinAlg F) (v : Vec F d) (nu : F) (mu : Vec F d) (sigma : Mat F d) : F :=
  let two : F := lit 2 1
  let term1 := lgamma (nu / two + ofInt d / two) - lgamma (nu / two)
  let sigmaInv := la.inv sigma
  let term2 := lit (-1) 2 * log (la.det sigma) - ofInt d / two * (log nu + logPi)
  let diff : Vec F d := fun i => v i - mu i
  let term3 := lit (-1) 2 * (nu + ofInt d) *
    log (lit 1 1 + lit 1 1 / nu * dot diff (mulVec sigmaInv diff))
  term1 + term2 + term3

/-- `Scorer::eval` (niw.hpp:353-360) for the posterior `post` computed by `Scorer::init`
(niw.hpp:346-351). -/
def Scorer.eval (la : LinAlg F) (post : Shared F d) (value : Vec F d) : F :=
  let dof := post.nu - ofInt d + lit 1 1
  let sigma : Mat F d := fun i j => post.psi i j * (post.kappa + lit 1 1) / (post.kappa * dof)
  scoreMvStudentT la value dof post.mu sigma

/-- `Group::score_value` (niw.hpp:287-294). -/
def Group.scoreValue (lvl : Nat) (la : LinAlg F) (sh : Shared F d) (g : Group F d)
    (value : Vec F d) : Res F := do
  let post ← sh.plusGroup lvl g
  return Scorer.eval la post value

end Dist.NIW
