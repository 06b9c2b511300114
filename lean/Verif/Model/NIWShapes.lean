import Verif.Model.NIWSample
import Verif.Model.PyIo

/-!
# Sizes of vectors and matrices of the normal-inverse-Wishart model

`NormalInverseWishart<-1>` (include/distributions/models/niw.hpp), the instance behind the Python module, with
the sizes Eigen keeps at run time, and the conversions of distributions/_eigen.pyx.  `Model/NIW.lean` has one
dimension for everything, by typing; here every vector and matrix has its own size.

Eigen checks sizes with `eigen_assert`, which is `assert`: it aborts, unless `NDEBUG` is defined, as in the
release build (CMakeLists.txt:35); then the behaviour is undefined.  `checks` says whether it is compiled in.
An abort and an exception are both `fail`.
-/

namespace Dist.NIW.Dyn

open FloatOps FloatNotation

/-- An `Eigen::VectorXf`. -/
structure DVec (F : Type) where
  size : Nat
  coeff : Fin size → F

/-- An `Eigen::MatrixXf`. -/
structure DMat (F : Type) where
  rows : Nat
  cols : Nat
  coeff : Fin rows → Fin cols → F

/-- The outcome when the sizes of the operands differ. -/
def mismatch {α : Type} (checks : Bool) : Res α := if checks then .fail else .ub

variable {F : Type}

/-- Coefficientwise operations of two vectors, also `+=` and `-=`: the sizes have to agree. -/
def DVec.zip (checks : Bool) (f : F → F → F) (v w : DVec F) : Res (DVec F) :=
  if h : v.size = w.size then .ok ⟨v.size, fun i => f (v.coeff i) (w.coeff (i.cast h))⟩ else mismatch checks

/-- Coefficientwise operations of two matrices. -/
def DMat.zip (checks : Bool) (f : F → F → F) (m n : DMat F) : Res (DMat F) :=
  if h : m.rows = n.rows ∧ m.cols = n.cols then
    .ok ⟨m.rows, m.cols, fun i j => f (m.coeff i j) (n.coeff (i.cast h.1) (j.cast h.2))⟩
  else mismatch checks

/-- Coefficientwise function of one vector. -/
def DVec.map (f : F → F) (v : DVec F) : DVec F := ⟨v.size, fun i => f (v.coeff i)⟩

/-- Coefficientwise function of one matrix. -/
def DMat.map (f : F → F) (m : DMat F) : DMat F := ⟨m.rows, m.cols, fun i j => f (m.coeff i j)⟩

/-- `Vector::Zero(n)`. -/
def DVec.zero [FloatOps F] (n : Nat) : DVec F := ⟨n, fun _ => ofInt 0⟩

/-- `v * w.transpose()`. -/
def outer [FloatOps F] (v w : DVec F) : DMat F := ⟨v.size, w.size, fun i j => v.coeff i * w.coeff j⟩

/-- The matrix of a call that needs a square one (`determinant()`, `inverse()`). -/
def DMat.square (checks : Bool) (m : DMat F) : Res (Mat F m.rows) :=
  if h : m.rows = m.cols then .ok fun i j => m.coeff i (j.cast h) else mismatch checks

/-- The vector of a call that needs size `n`. -/
def DVec.sized (checks : Bool) (n : Nat) (v : DVec F) : Res (Vec F n) :=
  if h : n = v.size then .ok fun i => v.coeff (i.cast h) else mismatch checks

/-- `Shared` (niw.hpp:76-80). -/
structure Shared (F : Type) where
  mu : DVec F
  kappa : F
  psi : DMat F
  nu : F

/-- `dim()` (niw.hpp:158). -/
def Shared.dim (sh : Shared F) : Nat := sh.mu.size

/-- `Group` (niw.hpp:187-190). -/
structure Group (F : Type) where
  count : Int
  sumX : DVec F
  sumXXT : DMat F

variable [FloatOps F] {σ : Type}

/-- `Shared::plus_group` (niw.hpp:82-103), one Eigen expression per line. -/
def Shared.plusGroup (checks : Bool) (lvl : Nat) (sh : Shared F) (g : Group F) : Res (Shared F) := do
  distAssert lvl 3 (0 < sh.dim)
  let n : F := ofInt g.count
  let xbar := if g.count ≠ 0 then g.sumX.map (· / n) else DVec.zero sh.dim
  let mu ← DVec.zip checks (fun a b => a + b) (sh.mu.map fun x => sh.kappa / (sh.kappa + n) * x)
    (xbar.map fun x => n / (sh.kappa + n) * x)
  let diff ← DVec.zip checks (fun a b => a - b) xbar sh.mu
  let c ← DMat.zip checks (fun a b => a - b) g.sumXXT (outer g.sumX xbar)
  let c ← DMat.zip checks (fun a b => a - b) c (outer xbar g.sumX)
  let c ← DMat.zip checks (fun a b => a + b) c (outer (xbar.map fun x => n * x) xbar)
  let ddT := outer diff diff
  let psi ← DMat.zip checks (fun a b => a + b) sh.psi c
  let psi ← DMat.zip checks (fun a b => a + b) psi (ddT.map fun x => sh.kappa * n / (sh.kappa + n) * x)
  return ⟨mu, sh.kappa + n, psi, sh.nu + n⟩

namespace Group

/-- `Group::init` (niw.hpp:236-245). -/
def init (lvl : Nat) (sh : Shared F) : Res (Group F) := do
  distAssert lvl 3 (0 < sh.dim)
  return ⟨0, DVec.zero sh.dim, ⟨sh.dim, sh.dim, fun _ _ => ofInt 0⟩⟩

/-- `Group::add_value` (niw.hpp:247-255). -/
def addValue (checks : Bool) (lvl : Nat) (sh : Shared F) (g : Group F) (value : DVec F) : Res (Group F) := do
  distAssert lvl 3 (sh.dim = value.size)
  let count ← i32 (g.count + 1)
  let sumX ← DVec.zip checks (fun a b => a + b) g.sumX value
  let sumXXT ← DMat.zip checks (fun a b => a + b) g.sumXXT (outer value value)
  return ⟨count, sumX, sumXXT⟩

/-- `Group::add_repeated_value` (niw.hpp:257-266). -/
def addRepeatedValue (checks : Bool) (lvl : Nat) (sh : Shared F) (g : Group F) (value : DVec F) (count : Int) :
    Res (Group F) := do
  distAssert lvl 3 (sh.dim = value.size)
  let c ← i32 (g.count + count)
  let sumX ← DVec.zip checks (fun a b => a + b) g.sumX (value.map fun x => ofInt count * x)
  let sumXXT ← DMat.zip checks (fun a b => a + b) g.sumXXT ((outer value value).map fun x => ofInt count * x)
  return ⟨c, sumX, sumXXT⟩

/-- `Group::remove_value` (niw.hpp:268-276). -/
def removeValue (checks : Bool) (lvl : Nat) (sh : Shared F) (g : Group F) (value : DVec F) :
    Res (Group F) := do
  distAssert lvl 3 (sh.dim = value.size)
  let count ← i32 (g.count - 1)
  let sumX ← DVec.zip checks (fun a b => a - b) g.sumX value
  let sumXXT ← DMat.zip checks (fun a b => a - b) g.sumXXT (outer value value)
  return ⟨count, sumX, sumXXT⟩

/-- `Group::merge` (niw.hpp:278-285): no assertion of its own. -/
def merge (checks : Bool) (g source : Group F) : Res (Group F) := do
  let count ← i32 (g.count + source.count)
  let sumX ← DVec.zip checks (fun a b => a + b) g.sumX source.sumX
  let sumXXT ← DMat.zip checks (fun a b => a + b) g.sumXXT source.sumXXT
  return ⟨count, sumX, sumXXT⟩

end Group

/-- `Group::score_data` (niw.hpp:296-308). -/
def Group.scoreData (checks : Bool) (lvl : Nat) (la : LinAlg F) (sh : Shared F) (g : Group F) : Res F := do
  let post ← sh.plusGroup checks lvl g
  let m1 ← lmultigamma lvl sh.dim (post.nu * lit 1 2)
  let psi ← sh.psi.square checks
  let m2 ← lmultigamma lvl sh.dim (sh.nu * lit 1 2)
  let postPsi ← post.psi.square checks
  let countDim : F := ofInt ((g.count * sh.dim) % 4294967296)
  return m1 + sh.nu * lit 1 2 * log (la.det psi) - countDim * lit 1 2 * logPi - m2
    - post.nu * lit 1 2 * log (la.det postPsi) + ofInt sh.dim * lit 1 2 * log (sh.kappa / post.kappa)

/-- `score_mv_student_t(v, nu, mu, sigma)` (random.hpp:160-185). -/
def scoreMvStudentT (checks : Bool) (la : LinAlg F) (v : DVec F) (nu : F) (mu : DVec F) (sigma : DMat F) :
    Res F := do
  let two : F := lit 2 1
  let term1 := lgamma (nu / two + ofInt v.size / two) - lgamma (nu / two)
  let sigma' ← sigma.square checks
  let term2 := lit (-1) 2 * log (la.det sigma') - ofInt v.size / two * (log nu + logPi)
  let diff ← DVec.zip checks (fun a b => a - b) v mu
  let diff' ← diff.sized checks sigma.rows
  let term3 := lit (-1) 2 * (nu + ofInt v.size) *
    log (lit 1 1 + lit 1 1 / nu * dot diff' (mulVec (la.inv sigma') diff'))
  return term1 + term2 + term3

/-- `Scorer::eval` (niw.hpp:353-360) after `Scorer::init` (niw.hpp:346-351) computed `post`. -/
def Scorer.eval (checks : Bool) (la : LinAlg F) (sh post : Shared F) (value : DVec F) : Res F :=
  let dof := post.nu - ofInt sh.dim + lit 1 1
  let sigma := post.psi.map fun x => x * (post.kappa + lit 1 1) / (post.kappa * dof)
  scoreMvStudentT checks la value dof post.mu sigma

/-- `Group::score_value` (niw.hpp:287-294). -/
def Group.scoreValue (checks : Bool) (lvl : Nat) (la : LinAlg F) (sh : Shared F) (g : Group F)
    (value : DVec F) : Res F := do
  let post ← sh.plusGroup checks lvl g
  Scorer.eval checks la sh post value

/-- `sample_multivariate_normal(mu, sigma, rng)` (random.hpp:187-206): its own assertions are of level 0. -/
def sampleMvNormal (e : Eigen F) (rng : Rng F σ) (s : σ) (mu : DVec F) (sigma : DMat F) :
    Res (DVec F × σ) := do
  let sigma' ← sigma.square true
  let mu' ← mu.sized true sigma.rows
  let (x, s) ← NIW.sampleMvNormal e rng s mu' sigma'
  return (⟨sigma.rows, x⟩, s)

/-- `Sampler::init` (niw.hpp:325-334) and `Sampler::eval` (niw.hpp:336-340), in `Group::sample_value`
(niw.hpp:310-316).  In `sample_normal_inverse_wishart` (random.hpp:239-259) the first call that looks at a size
is `psi.inverse()`. -/
def Group.sampleValue (checks : Bool) (lvl : Nat) (e : Eigen F) (rng : Rng F σ) (s : σ) (sh : Shared F)
    (g : Group F) : Res (DVec F × σ) := do
  let post ← sh.plusGroup checks lvl g
  let psi ← post.psi.square checks
  let (w, s) ← NIW.sampleInverseWishart e rng s post.nu psi
  let cov : DMat F := ⟨post.psi.rows, post.psi.rows, fun i j => lit 1 1 / post.kappa * w i j⟩
  let (mu, s) ← sampleMvNormal e rng s post.mu cov
  sampleMvNormal e rng s mu cov

/-! ## Conversions between NumPy and Eigen (distributions/_eigen.pyx) -/

/-- A NumPy array of rank 1 or 2. -/
inductive Arr (D : Type) where
  | vec (v : DVec D)
  | mat (m : DMat D)

variable {D : Type}

/-- `to_eigen_vecf` (distributions/_eigen.pyx:33-37): `float(e)` of a row works for rows of one entry. -/
def toEigenVecf (c : Py.Conv D F) : Arr D → Res (DVec F)
  | .vec v => .ok ⟨v.size, fun i => c.narrow (v.coeff i)⟩
  | .mat m =>
    if h : m.cols = 1 then .ok ⟨m.rows, fun i => c.narrow (m.coeff i ⟨0, by omega⟩)⟩
    else if m.rows = 0 then .ok ⟨0, Fin.elim0⟩ else .fail

/-- `to_eigen_matf` (distributions/_eigen.pyx:39-44).  `x.shape[1]` of an array of rank 1 is outside of the C
array of its shape. -/
def toEigenMatf (c : Py.Conv D F) : Arr D → Res (DMat F)
  | .vec _ => .ub
  | .mat m => .ok ⟨m.rows, m.cols, fun i j => c.narrow (m.coeff i j)⟩

/-- `to_np_1darray` (distributions/_eigen.pyx:46-50). -/
def toNp1 (c : Py.Conv D F) (v : DVec F) : Arr D := .vec ⟨v.size, fun i => c.widen (v.coeff i)⟩

/-- `to_np_2darray` (distributions/_eigen.pyx:52-57). -/
def toNp2 (c : Py.Conv D F) (m : DMat F) : Arr D := .mat ⟨m.rows, m.cols, fun i j => c.widen (m.coeff i j)⟩

/-- The dictionary of a `Shared`. -/
structure SharedDict (D : Type) where
  mu : Arr D
  kappa : D
  psi : Arr D
  nu : D

/-- The dictionary of a `Group`. -/
structure GroupDict (D : Type) where
  count : Int
  sumX : Arr D
  sumXXT : Arr D

/-- `Shared.load` (distributions/lp/models/niw.pyx:105-111) into a new object. -/
def loadShared (c : Py.Conv D F) (raw : SharedDict D) : Res (Shared F) := do
  let mu ← toEigenVecf c raw.mu
  let psi ← toEigenMatf c raw.psi
  return ⟨mu, c.narrow raw.kappa, psi, c.narrow raw.nu⟩

/-- `Shared.dump` (distributions/lp/models/niw.pyx:113-119). -/
def dumpShared (c : Py.Conv D F) (sh : Shared F) : SharedDict D :=
  ⟨toNp1 c sh.mu, c.widen sh.kappa, toNp2 c sh.psi, c.widen sh.nu⟩

/-- `Group.load` (distributions/lp/models/niw.pyx:146-151) into a new object; a count outside of `int` raises
`OverflowError`. -/
def loadGroup (c : Py.Conv D F) (raw : GroupDict D) : Res (Group F) := do
  if InInt32 raw.count then
    let sumX ← toEigenVecf c raw.sumX
    let sumXXT ← toEigenMatf c raw.sumXXT
    return ⟨raw.count, sumX, sumXXT⟩
  else .fail

/-- `Group.dump` (distributions/lp/models/niw.pyx:153-158). -/
def dumpGroup (c : Py.Conv D F) (g : Group F) : GroupDict D :=
  ⟨g.count, toNp1 c g.sumX, toNp2 c g.sumXXT⟩

/-! ## Updates of a group -/

/-- A call that changes a group. -/
inductive Update (F : Type) where
  | add (value : DVec F)
  | addRepeated (value : DVec F) (count : Int)
  | remove (value : DVec F)
  | merge (source : Group F)

/-- The methods of `Group` (niw.hpp:247-285). -/
def Group.update (checks : Bool) (lvl : Nat) (sh : Shared F) (g : Group F) : Update F → Res (Group F)
  | .add v => g.addValue checks lvl sh v
  | .addRepeated v n => g.addRepeatedValue checks lvl sh v n
  | .remove v => g.removeValue checks lvl sh v
  | .merge g' => g.merge checks g'

/-- One call after the other. -/
def Group.updates (checks : Bool) (lvl : Nat) (sh : Shared F) : List (Update F) → Group F → Res (Group F)
  | [], g => .ok g
  | u :: us, g => do
    let g ← g.update checks lvl sh u
    updates checks lvl sh us g

end Dist.NIW.Dyn
