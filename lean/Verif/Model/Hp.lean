import Verif.Model.GroupApi

/-!
# The high-precision implementation (distributions/hp)

Three models written in Cython.  `.fail` is a Python exception.  Arguments declared `int` are
converted from Python integers and raise outside the range of `int`; arithmetic on `int` is C
arithmetic; C arrays are not bounds checked; `cdivision` is off, so dividing by a zero `double`
raises; `log` and `lgamma` are the C functions and never raise.  Extension types are allocated
with zero bytes.
-/

namespace Dist.Hp

open FloatOps FloatNotation

variable {F : Type} [FloatOps F]

/-- Conversion of an argument declared `int`. -/
def cInt (x : Int) : Res Int := if InInt32 x then .ok x else .fail

/-- `x / y` on `double` with `cdivision` off. -/
def cyDiv (x y : F) : Res F := if eqf y (ofInt 0) then .fail else .ok (x / y)

/-- `log_factorial(unsigned n)` (distributions/hp/special.pyx:31-32); `n + 1` is unsigned. -/
def logFactorial (n : UInt32) : F := lgamma (ofInt ((n + 1).toNat : Int))

/-- First loop of `std_random_dirichlet` (distributions/rng_cc.hpp:106-109): every entry is
drawn, whatever the sign of its parameter. -/
def dirichletLoop {σ : Type} (rng : Rng F σ) : List F → σ → F → List F × F × σ
  | [], s, total => ([], total, s)
  | a :: as, s, total =>
    let (p, s) := rng.gamma s a (lit 1 1)
    let (ps, t, s) := dirichletLoop rng as s (total + p)
    (p :: ps, t, s)

/-- `sample_dirichlet` (distributions/hp/random.pyx:76-77, distributions/rng_cc.hpp:99-115). -/
def sampleDirichlet {σ : Type} (rng : Rng F σ) (s : σ) (alphas : List F) : List F × σ :=
  let (ps, total, s) := dirichletLoop rng alphas s (lit 0 1)
  let scale := lit 1 1 / total
  (ps.map fun p => p * scale, s)

/-- `sample_discrete` (distributions/hp/random.pyx:72-73, distributions/rng_cc.hpp:85-97); with
`D = 0` the bound `D - 1` of the loop wraps around and it reads outside the array. -/
def sampleDiscrete {σ : Type} (rng : Rng F σ) (s : σ) (ps : List F) : Res (Nat × σ) :=
  if ps.length = 0 then .ub
  else
    let (t, s) := rng.unif01 s
    .ok (discreteLoop (ps.length - 1) ps.dropLast 0 t, s)

/-- `sample_normal` (distributions/hp/random.pyx:56-57, distributions/rng_cc.hpp:61-65). -/
def sampleNormal {σ : Type} (rng : Rng F σ) (s : σ) (mu sigmasq : F) : F × σ :=
  rng.normal s mu (sqrt sigmasq)

/-! ## Dirichlet-Discrete (distributions/hp/models/dd.pyx) -/

namespace DD

/-- `MAX_DIM` (distributions/hp/models/dd.pyx:35). -/
def maxDim : Nat := 256

/-- `_Shared` (distributions/hp/models/dd.pyx:58-60): the whole array, and `dim`. -/
structure Shared (F : Type) where
  alphas : List F
  dim : Nat

/-- `_Group` (distributions/hp/models/dd.pyx:81-83): the whole array, and `dim`. -/
structure Group where
  counts : List Int
  dim : Nat
deriving DecidableEq, Repr

/-- `__cinit__` (distributions/hp/models/dd.pyx:62-63). -/
def Shared.new : Shared F := ⟨List.replicate maxDim (ofInt 0), 0⟩

/-- `__cinit__` (distributions/hp/models/dd.pyx:85-86). -/
def Group.new : Group := ⟨List.replicate maxDim 0, 0⟩

/-- `for i in xrange(dim): a[i] = raw[i]` for `raw` no longer than the array. -/
def copyInto {α : Type} (a raw : List α) : List α := raw ++ a.drop raw.length

/-- `_Shared.load` (distributions/hp/models/dd.pyx:65-71): the object afterwards, and whether
the call returned.  `dim` is assigned before it is checked. -/
def Shared.load (sh : Shared F) (raw : List F) : Shared F × Bool :=
  if raw.length ≤ maxDim then (⟨copyInto sh.alphas raw, raw.length⟩, true)
  else (⟨sh.alphas, raw.length⟩, false)

/-- `_Shared.dump` (distributions/hp/models/dd.pyx:73-74). -/
def Shared.dump (sh : Shared F) : Res (List F) := (List.range sh.dim).mapM (getAt sh.alphas)

/-- `_Group.load` (distributions/hp/models/dd.pyx:142-148), for counts in the range of `int`. -/
def Group.load (g : Group) (raw : List Int) : Group × Bool :=
  if raw.length ≤ maxDim then (⟨copyInto g.counts raw, raw.length⟩, true)
  else (⟨g.counts, raw.length⟩, false)

/-- `_Group.dump` (distributions/hp/models/dd.pyx:150-151). -/
def Group.dump (g : Group) : Res (List Int) := (List.range g.dim).mapM (getAt g.counts)

/-- `_Group.init` (distributions/hp/models/dd.pyx:88-92). -/
def Group.init (g : Group) (sh : Shared F) : Res Group :=
  if sh.dim ≤ g.counts.length then .ok ⟨copyInto g.counts (List.replicate sh.dim 0), sh.dim⟩
  else .ub

/-- `_Group.add_repeated_value` (distributions/hp/models/dd.pyx:97-98). -/
def Group.addRepeatedValue (g : Group) (value count : Int) : Res Group := do
  let value ← cInt value
  let count ← cInt count
  let c ← Dist.DD.readAt g.counts value
  let c ← i32 (c + count)
  let cs ← Dist.DD.writeAt g.counts value c
  return ⟨cs, g.dim⟩

/-- `_Group.add_value` (distributions/hp/models/dd.pyx:94-95). -/
def Group.addValue (g : Group) (value : Int) : Res Group := do
  let value ← cInt value
  let c ← Dist.DD.readAt g.counts value
  let c ← i32 (c + 1)
  let cs ← Dist.DD.writeAt g.counts value c
  return ⟨cs, g.dim⟩

/-- `_Group.remove_value` (distributions/hp/models/dd.pyx:100-101). -/
def Group.removeValue (g : Group) (value : Int) : Res Group := do
  let value ← cInt value
  let c ← Dist.DD.readAt g.counts value
  let c ← i32 (c - 1)
  let cs ← Dist.DD.writeAt g.counts value c
  return ⟨cs, g.dim⟩

/-- Loop of `merge` over `i < dim` (distributions/hp/models/dd.pyx:105-106): the entries from the
current one on. -/
def mergeLoop : Nat → List Int → List Int → Res (List Int)
  | 0, as, _ => .ok as
  | n + 1, a :: as, b :: bs => do
    let x ← i32 (a + b)
    let xs ← mergeLoop n as bs
    return x :: xs
  | _ + 1, _, _ => .ub

/-- `_Group.merge` (distributions/hp/models/dd.pyx:103-106). -/
def Group.merge (g source : Group) : Res Group := do
  let cs ← mergeLoop g.dim g.counts source.counts
  return ⟨cs, g.dim⟩

/-- Loop computing `group.counts[i] + shared.alphas[i]` for `i < shared.dim`
(distributions/hp/models/dd.pyx:114-115 and 171-172). -/
def posterior : Nat → List F → List Int → Res (List F)
  | 0, _, _ => .ok []
  | n + 1, a :: as, c :: cs => do
    let xs ← posterior n as cs
    return (ofInt c + a) :: xs
  | _ + 1, _, _ => .ub

/-- `_Group.score_value` (distributions/hp/models/dd.pyx:108-116). -/
def Group.scoreValue (sh : Shared F) (g : Group) (value : Int) : Res F := do
  let value ← cInt value
  let ps ← posterior sh.dim sh.alphas g.counts
  let total := ps.foldl (· + ·) (lit 0 1)
  let c ← Dist.DD.readAt g.counts value
  let a ← Dist.DD.readAt sh.alphas value
  let q ← cyDiv (ofInt c + a) total
  return log q

/-- `count_sum` (distributions/hp/models/dd.pyx:126 and 130-131), an `int`. -/
def countSum : Nat → List Int → Int → Res Int
  | 0, _, s => .ok s
  | n + 1, c :: cs, s => do
    let s ← i32 (s + c)
    countSum n cs s
  | _ + 1, [], _ => .ub

/-- The third loop of `score_data` (distributions/hp/models/dd.pyx:132-134). -/
def scoreLoop : Nat → List F → List Int → F → Res F
  | 0, _, _, s => .ok s
  | n + 1, a :: as, c :: cs, s => scoreLoop n as cs (s + (lgamma (a + ofInt c) - lgamma a))
  | _ + 1, _, _, _ => .ub

/-- `_Group.score_data` (distributions/hp/models/dd.pyx:118-135); the loop over `alphas`
(lines 128-129) reads the first `dim` entries. -/
def Group.scoreData (sh : Shared F) (g : Group) : Res F := do
  let as ← if sh.dim ≤ sh.alphas.length then .ok (sh.alphas.take sh.dim) else .ub
  let alphaSum := as.foldl (· + ·) (lit 0 1)
  let cs ← countSum sh.dim g.counts 0
  let s ← scoreLoop sh.dim sh.alphas g.counts (lit 0 1)
  return s + lgamma alphaSum - lgamma (alphaSum + ofInt cs)

/-- `Sampler.init` without a group (distributions/hp/models/dd.pyx:163-169 and 173). -/
def samplerPrior {σ : Type} (rng : Rng F σ) (s : σ) (sh : Shared F) : Res (List F × σ) := do
  let as ← if sh.dim ≤ sh.alphas.length then .ok (sh.alphas.take sh.dim) else .ub
  return sampleDirichlet rng s as

/-- `Sampler.init` with a group (distributions/hp/models/dd.pyx:163-173). -/
def samplerInit {σ : Type} (rng : Rng F σ) (s : σ) (sh : Shared F) (g : Group) :
    Res (List F × σ) := do
  let ps ← posterior sh.dim sh.alphas g.counts
  return sampleDirichlet rng s ps

/-- `_Group.sample_value` (distributions/hp/models/dd.pyx:137-140 and 175-177). -/
def Group.sampleValue {σ : Type} (rng : Rng F σ) (s : σ) (sh : Shared F) (g : Group) :
    Res (Nat × σ) := do
  let (ps, s) ← samplerInit rng s sh g
  sampleDiscrete rng s ps

end DD

/-! ## Gamma-Poisson (distributions/hp/models/gp.pyx) -/

namespace GP

/-- `_Group` (distributions/hp/models/gp.pyx:74-77); `count` and `sum` are `int`. -/
structure Group (F : Type) where
  count : Int
  sum : Int
  logProd : F

/-- `init` (distributions/hp/models/gp.pyx:79-82). -/
def Group.init : Group F := ⟨0, 0, lit 0 1⟩

/-- `add_value` (distributions/hp/models/gp.pyx:84-87). -/
def Group.addValue (g : Group F) (value : Int) : Res (Group F) := do
  let value ← cInt value
  let n ← i32 (g.count + 1)
  let m ← i32 (g.sum + value)
  return ⟨n, m, g.logProd + logFactorial (UInt32.ofInt value)⟩

/-- `add_repeated_value` (distributions/hp/models/gp.pyx:89-92). -/
def Group.addRepeatedValue (g : Group F) (value count : Int) : Res (Group F) := do
  let value ← cInt value
  let count ← cInt count
  let n ← i32 (g.count + count)
  let p ← i32 (count * value)
  let m ← i32 (g.sum + p)
  return ⟨n, m, g.logProd + ofInt count * logFactorial (UInt32.ofInt value)⟩

/-- `remove_value` (distributions/hp/models/gp.pyx:94-97). -/
def Group.removeValue (g : Group F) (value : Int) : Res (Group F) := do
  let value ← cInt value
  let n ← i32 (g.count - 1)
  let m ← i32 (g.sum - value)
  return ⟨n, m, g.logProd - logFactorial (UInt32.ofInt value)⟩

/-- `merge` (distributions/hp/models/gp.pyx:99-102). -/
def Group.merge (g source : Group F) : Res (Group F) := do
  let n ← i32 (g.count + source.count)
  let m ← i32 (g.sum + source.sum)
  return ⟨n, m, g.logProd + source.logProd⟩

/-- `_Shared.plus_group` (distributions/hp/models/gp.pyx:53-57). -/
def plusGroup (sh : Dist.GP.Shared F) (g : Group F) : Dist.GP.Shared F :=
  ⟨sh.alpha + ofInt g.sum, sh.invBeta + ofInt g.count⟩

/-- `score_value` (distributions/hp/models/gp.pyx:104-109). -/
def Group.scoreValue (sh : Dist.GP.Shared F) (g : Group F) (value : Int) : Res F := do
  let value ← cInt value
  let post := plusGroup sh g
  return lgamma (post.alpha + ofInt value) - lgamma post.alpha + post.alpha * log post.invBeta
    - (post.alpha + ofInt value) * log (lit 1 1 + post.invBeta)
    - logFactorial (UInt32.ofInt value)

/-- `score_data` (distributions/hp/models/gp.pyx:111-116). -/
def Group.scoreData (sh : Dist.GP.Shared F) (g : Group F) : F :=
  let post := plusGroup sh g
  lgamma post.alpha - lgamma sh.alpha + sh.alpha * log sh.invBeta
    - post.alpha * log post.invBeta - g.logProd

/-- `Sampler.init` (distributions/hp/models/gp.pyx:143-146) with the posterior it uses. -/
def samplerInit {σ : Type} (rng : Rng F σ) (s : σ) (post : Dist.GP.Shared F) : Res (F × σ) := do
  let scale ← cyDiv (lit 1 1) post.invBeta
  return rng.gamma s post.alpha scale

/-- `sample_value` (distributions/hp/models/gp.pyx:118-121 and 148-149). -/
def Group.sampleValue {σ : Type} (rng : Rng F σ) (s : σ) (sh : Dist.GP.Shared F) (g : Group F) :
    Res (Int × σ) := do
  let (lambda, s) ← samplerInit rng s (plusGroup sh g)
  return rng.poisson s lambda

end GP

/-! ## Normal-Inverse-ChiSq (distributions/hp/models/nich.pyx) -/

namespace NICH

/-- `_Group` (distributions/hp/models/nich.pyx:119-122); `count` is a `size_t`. -/
structure Group (F : Type) where
  count : UInt64
  mean : F
  countTimesVariance : F

/-- Conversion of a `size_t` to `double`. -/
def u64 (n : UInt64) : F := ofInt (n.toNat : Int)

/-- `init` (distributions/hp/models/nich.pyx:124-127). -/
def Group.init : Group F := ⟨0, lit 0 1, lit 0 1⟩

/-- `add_value` (distributions/hp/models/nich.pyx:129-133). -/
def Group.addValue (g : Group F) (value : F) : Res (Group F) := do
  let count := g.count + 1
  let delta := value - g.mean
  let q ← cyDiv delta (u64 count)
  let mean := g.mean + q
  return ⟨count, mean, g.countTimesVariance + delta * (value - mean)⟩

/-- `add_repeated_value` (distributions/hp/models/nich.pyx:135-139). -/
def Group.addRepeatedValue (g : Group F) (value : F) (count : Int) : Res (Group F) := do
  let count ← cInt count
  let total := g.count + UInt64.ofInt count
  let delta := ofInt count * value - g.mean
  let q ← cyDiv delta (u64 total)
  let mean := g.mean + q
  return ⟨total, mean, g.countTimesVariance + delta * (value - mean)⟩

/-- `remove_value` (distributions/hp/models/nich.pyx:141-152).  The count is not checked: it
wraps around below zero. -/
def Group.removeValue (g : Group F) (value : F) : Group F :=
  let total := g.mean * u64 g.count
  let delta := value - g.mean
  let count := g.count - 1
  let mean := if count = 0 then lit 0 1 else (total - value) / u64 count
  let ctv := if count ≤ 1 then lit 0 1 else g.countTimesVariance - delta * (value - mean)
  ⟨count, mean, ctv⟩

/-- `merge` (distributions/hp/models/nich.pyx:154-162). -/
def Group.merge (g source : Group F) : Res (Group F) := do
  let count := g.count + source.count
  let delta := source.mean - g.mean
  let sourcePart ← cyDiv (u64 source.count) (u64 count)
  let crossPart := u64 g.count * sourcePart
  return ⟨count, g.mean + sourcePart * delta,
    g.countTimesVariance + (source.countTimesVariance + crossPart * delta * delta)⟩

/-- `_Shared.plus_group` (distributions/hp/models/nich.pyx:79-98). -/
def plusGroup (sh : Dist.NICH.Shared F) (g : Group F) : Res (Dist.NICH.Shared F) := do
  let mu1 := sh.mu - g.mean
  let kappa := sh.kappa + u64 g.count
  let mu ← cyDiv (sh.kappa * sh.mu + g.mean * u64 g.count) kappa
  let nu := sh.nu + u64 g.count
  let inv ← cyDiv (lit 1 1) nu
  let q ← cyDiv (u64 g.count * sh.kappa * mu1 * mu1) kappa
  return ⟨mu, kappa, inv * (sh.nu * sh.sigmasq + g.countTimesVariance + q), nu⟩

/-- Body of `score_student_t` (distributions/hp/models/nich.pyx:52-57). -/
def studentBody (x nu mu sigmasq : F) : Res F := do
  let c := lgamma (lit 1 2 * (nu + lit 1 1))
    - (lgamma (lit 1 2 * nu) + lit 1 2 * log (nu * FloatOps.pi * sigmasq))
  let xt := x - mu
  let s ← cyDiv (xt * xt) sigmasq
  let q ← cyDiv s nu
  let d := -(lit 1 2 * (nu + lit 1 1)) * log (lit 1 1 + q)
  return c + d

/-- `score_student_t` (distributions/hp/models/nich.pyx:48-57), a `cdef double` function without
an `except` clause: an exception inside it is printed and ignored and the call returns 0. -/
def scoreStudentT (x nu mu sigmasq : F) : F :=
  match studentBody x nu mu sigmasq with
  | .ok y => y
  | _ => ofInt 0

/-- `score_value` (distributions/hp/models/nich.pyx:164-173). -/
def Group.scoreValue (sh : Dist.NICH.Shared F) (g : Group F) (value : F) : Res F := do
  let post ← plusGroup sh g
  let sigmasq ← cyDiv ((lit 1 1 + post.kappa) * post.sigmasq) post.kappa
  return scoreStudentT value post.nu post.mu sigmasq

/-- `score_data` (distributions/hp/models/nich.pyx:175-184); the last constant is `log(pi)`. -/
def Group.scoreData (sh : Dist.NICH.Shared F) (g : Group F) : Res F := do
  let post ← plusGroup sh g
  let q ← cyDiv sh.kappa post.kappa
  return lgamma (post.nu / lit 2 1) - lgamma (sh.nu / lit 2 1) + lit 1 2 * log q
    + (lit 1 2 * sh.nu) * log (sh.nu * sh.sigmasq)
    - (lit 1 2 * post.nu) * log (post.nu * post.sigmasq)
    - u64 g.count / lit 2 1 * logPi

/-- `Sampler.init` (distributions/hp/models/nich.pyx:212-221) with the posterior it uses. -/
def samplerInit {σ : Type} (rng : Rng F σ) (s : σ) (post : Dist.NICH.Shared F) :
    Res ((F × F) × σ) := do
  let (c, s) := rng.chisq s post.nu
  let sigmasq ← cyDiv (post.nu * post.sigmasq) c
  let v ← cyDiv sigmasq post.kappa
  let (mu, s) := sampleNormal rng s post.mu v
  return ((mu, sigmasq), s)

/-- `sample_value` (distributions/hp/models/nich.pyx:186-189 and 223-224). -/
def Group.sampleValue {σ : Type} (rng : Rng F σ) (s : σ) (sh : Dist.NICH.Shared F) (g : Group F) :
    Res (F × σ) := do
  let post ← plusGroup sh g
  let ((mu, sigmasq), s) ← samplerInit rng s post
  return sampleNormal rng s mu sigmasq

end NICH

/-- distributions/hp/models/dd.pyx:88-106, on newly made groups. -/
def DD.api (dim : Nat) : Spec.GroupApi DD.Group Int :=
  ⟨⟨List.replicate DD.maxDim 0, dim⟩, DD.Group.addValue, DD.Group.removeValue,
    DD.Group.addRepeatedValue, DD.Group.merge⟩

/-- distributions/hp/models/gp.pyx:79-102. -/
def GP.api : Spec.GroupApi (GP.Group F) UInt32 :=
  ⟨.init, fun g v => g.addValue v.toNat, fun g v => g.removeValue v.toNat,
    fun g v n => g.addRepeatedValue v.toNat n, GP.Group.merge⟩

/-- distributions/hp/models/nich.pyx:124-162. -/
def NICH.api : Spec.GroupApi (NICH.Group F) F :=
  ⟨.init, NICH.Group.addValue, fun g v => .ok (g.removeValue v), NICH.Group.addRepeatedValue,
    NICH.Group.merge⟩

end Dist.Hp
