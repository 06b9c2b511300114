import Verif.Model.BB
import Verif.Model.DD
import Verif.Model.DPD
import Verif.Model.GP
import Verif.Model.BNB
import Verif.Model.NICH
import Verif.Model.NIW
import Verif.Model.Clustering

/-!
# The reference implementation (distributions/dbg)

The groups and scores of the Python package, for comparison with the C++ ones.  Python
integers are unbounded.  `.fail` is a Python exception.  `math.log` raises on arguments that
are not positive, and dividing a Python float by zero raises; numpy and scipy functions
return nan or infinity instead.  `gammaln` is `FloatOps.lgamma`.  Python 2 is assumed
(`xrange`, `iteritems`): `/` between two `int`s rounds down.
-/

namespace Dist.Dbg

open FloatOps FloatNotation

variable {F : Type} [FloatOps F]

/-- `math.log(x)`. -/
def pyLog (x : F) : Res F := if le x (ofInt 0) then .fail else .ok (log x)

/-- `x / y` on Python floats. -/
def pyDiv (x y : F) : Res F := if eqf y (ofInt 0) then .fail else .ok (x / y)

/-- `log(factorial(n))` for an `int`; `factorial` raises on negative numbers. -/
def logFact (n : Int) : Res F := if n < 0 then .fail else .ok (logFactorial n.toNat)

/-- `a[i]` on a numpy array: negative indices count from the end. -/
def npIndex {α : Type} (l : List α) (i : Int) : Res α :=
  if 0 ≤ i ∧ i < l.length then getAt l i.toNat
  else if -(l.length : Int) ≤ i ∧ i < 0 then getAt l (l.length + i).toNat
  else .fail

/-- `a[i] = x` on a numpy array. -/
def npSet {α : Type} (l : List α) (i : Int) (x : α) : Res (List α) :=
  if 0 ≤ i ∧ i < l.length then setAt l i.toNat x
  else if -(l.length : Int) ≤ i ∧ i < 0 then setAt l (l.length + i).toNat x
  else .fail

/-- `a.sum()` of a float array. -/
def npSum (l : List F) : F := l.foldl (· + ·) (ofInt 0)

/-! ## Beta-Bernoulli (distributions/dbg/models/bb.py) -/

namespace BB

/-- `Group` (distributions/dbg/models/bb.py:71-74). -/
structure Group where
  heads : Int
  tails : Int

/-- `init` (distributions/dbg/models/bb.py:76-78). -/
def Group.init : Group := ⟨0, 0⟩

/-- `add_repeated_value` (distributions/dbg/models/bb.py:86-90). -/
def Group.addRepeatedValue (g : Group) (value : Bool) (count : Int) : Group :=
  if value then { g with heads := g.heads + count } else { g with tails := g.tails + count }

/-- `add_value` (distributions/dbg/models/bb.py:80-84). -/
def Group.addValue (g : Group) (value : Bool) : Group :=
  if value then { g with heads := g.heads + 1 } else { g with tails := g.tails + 1 }

/-- `remove_value` (distributions/dbg/models/bb.py:92-96). -/
def Group.removeValue (g : Group) (value : Bool) : Group :=
  if value then { g with heads := g.heads - 1 } else { g with tails := g.tails - 1 }

/-- `merge` (distributions/dbg/models/bb.py:98-100). -/
def Group.merge (g source : Group) : Group := ⟨g.heads + source.heads, g.tails + source.tails⟩

/-- `score_value` (distributions/dbg/models/bb.py:102-111). -/
def Group.scoreValue (sh : Dist.BB.Shared F) (g : Group) (value : Bool) : Res F := do
  let heads := sh.alpha + ofInt g.heads
  let tails := sh.beta + ofInt g.tails
  let numer := if value then heads else tails
  let denom := heads + tails
  let q ← pyDiv numer denom
  pyLog q

/-- `score_data` (distributions/dbg/models/bb.py:113-125). -/
def Group.scoreData (sh : Dist.BB.Shared F) (g : Group) : F :=
  let alpha := sh.alpha + ofInt g.heads
  let beta := sh.beta + ofInt g.tails
  let score := lgamma (sh.alpha + sh.beta) - lgamma (alpha + beta)
  let score := score + (lgamma alpha - lgamma sh.alpha)
  score + (lgamma beta - lgamma sh.beta)

end BB

/-! ## Dirichlet-Discrete (distributions/dbg/models/dd.py) -/

namespace DD

/-- `init` (distributions/dbg/models/dd.py:79-80).  The group is its array `counts`. -/
def init (dim : Nat) : List Int := List.replicate dim 0

/-- `add_repeated_value` (distributions/dbg/models/dd.py:85-86). -/
def addRepeatedValue (counts : List Int) (value count : Int) : Res (List Int) := do
  let c ← npIndex counts value
  npSet counts value (c + count)

/-- `add_value` (distributions/dbg/models/dd.py:82-83). -/
def addValue (counts : List Int) (value : Int) : Res (List Int) := do
  let c ← npIndex counts value
  npSet counts value (c + 1)

/-- `remove_value` (distributions/dbg/models/dd.py:88-89). -/
def removeValue (counts : List Int) (value : Int) : Res (List Int) := do
  let c ← npIndex counts value
  npSet counts value (c - 1)

/-- `merge` (distributions/dbg/models/dd.py:91-92), for arrays of the same shape. -/
def merge (counts source : List Int) : Res (List Int) :=
  if counts.length = source.length then .ok (List.zipWith (· + ·) counts source) else .fail

/-- `score_value` (distributions/dbg/models/dd.py:94-101); the operands of `/` are numpy numbers. -/
def scoreValue (alphas : List F) (counts : List Int) (value : Int) : Res F := do
  let c ← npIndex counts value
  let a ← npIndex alphas value
  let numer := ofInt c + a
  let denom := ofInt counts.sum + npSum alphas
  pyLog (numer / denom)

/-- The generator summed in `score_data` (distributions/dbg/models/dd.py:115), for `k < dim`. -/
def terms : List F → List Int → Res (List F)
  | [], _ => .ok []
  | _ :: _, [] => .fail
  | a :: as, m :: ms => do
    let xs ← terms as ms
    return (lgamma (a + ofInt m) - lgamma a) :: xs

/-- `score_data` (distributions/dbg/models/dd.py:103-118). -/
def scoreData (alphas : List F) (counts : List Int) : Res F := do
  let ts ← terms alphas counts
  let score := npSum ts
  let score := score + lgamma (npSum alphas)
  return score - lgamma (npSum alphas + ofInt counts.sum)

end DD

/-! ## Gamma-Poisson (distributions/dbg/models/gp.py) -/

namespace GP

/-- `Group` (distributions/dbg/models/gp.py:74-78). -/
structure Group (F : Type) where
  count : Int
  sum : Int
  logProd : F

/-- `init` (distributions/dbg/models/gp.py:80-83). -/
def Group.init : Group F := ⟨0, 0, lit 0 1⟩

/-- `add_value` (distributions/dbg/models/gp.py:85-88). -/
def Group.addValue (g : Group F) (value : Int) : Res (Group F) := do
  let l ← logFact value
  return ⟨g.count + 1, g.sum + value, g.logProd + l⟩

/-- `add_repeated_value` (distributions/dbg/models/gp.py:90-93). -/
def Group.addRepeatedValue (g : Group F) (value count : Int) : Res (Group F) := do
  let l ← logFact value
  return ⟨g.count + count, g.sum + count * value, g.logProd + ofInt count * l⟩

/-- `remove_value` (distributions/dbg/models/gp.py:95-98). -/
def Group.removeValue (g : Group F) (value : Int) : Res (Group F) := do
  let l ← logFact value
  return ⟨g.count - 1, g.sum - value, g.logProd - l⟩

/-- `merge` (distributions/dbg/models/gp.py:100-103). -/
def Group.merge (g source : Group F) : Group F :=
  ⟨g.count + source.count, g.sum + source.sum, g.logProd + source.logProd⟩

/-- `Shared.plus_group` (distributions/dbg/models/gp.py:48-52). -/
def plusGroup (sh : Dist.GP.Shared F) (g : Group F) : Dist.GP.Shared F :=
  ⟨sh.alpha + ofInt g.sum, sh.invBeta + ofInt g.count⟩

/-- `score_value` (distributions/dbg/models/gp.py:105-110). -/
def Group.scoreValue (sh : Dist.GP.Shared F) (g : Group F) (value : Int) : Res F := do
  let post := plusGroup sh g
  let l1 ← pyLog post.invBeta
  let l2 ← pyLog (lit 1 1 + post.invBeta)
  let l3 ← logFact value
  return lgamma (post.alpha + ofInt value) - lgamma post.alpha + post.alpha * l1
    - (post.alpha + ofInt value) * l2 - l3

/-- `score_data` (distributions/dbg/models/gp.py:112-117). -/
def Group.scoreData (sh : Dist.GP.Shared F) (g : Group F) : Res F := do
  let post := plusGroup sh g
  let l1 ← pyLog post.invBeta
  let l2 ← pyLog sh.invBeta
  return lgamma post.alpha - lgamma sh.alpha - post.alpha * l1 + sh.alpha * l2 - g.logProd

end GP

/-! ## Beta-Negative-Binomial (distributions/dbg/models/bnb.py) -/

namespace BNB

/-- `Shared` (distributions/dbg/models/bnb.py:59-63). -/
structure Shared (F : Type) where
  alpha : F
  beta : F
  r : Int

/-- `Group` (distributions/dbg/models/bnb.py:96-99). -/
structure Group where
  count : Int
  sum : Int

/-- `init` (distributions/dbg/models/bnb.py:101-103). -/
def Group.init : Group := ⟨0, 0⟩

/-- `add_value` (distributions/dbg/models/bnb.py:105-107). -/
def Group.addValue (g : Group) (value : Int) : Group := ⟨g.count + 1, g.sum + value⟩

/-- `add_repeated_value` (distributions/dbg/models/bnb.py:109-111). -/
def Group.addRepeatedValue (g : Group) (value count : Int) : Group :=
  ⟨g.count + count, g.sum + count * value⟩

/-- `remove_value` (distributions/dbg/models/bnb.py:113-115). -/
def Group.removeValue (g : Group) (value : Int) : Group := ⟨g.count - 1, g.sum - value⟩

/-- `merge` (distributions/dbg/models/bnb.py:117-119). -/
def Group.merge (g source : Group) : Group := ⟨g.count + source.count, g.sum + source.sum⟩

/-- `Shared.plus_group` (distributions/dbg/models/bnb.py:65-70); `r * count` is an `int`. -/
def Shared.plusGroup (sh : Shared F) (g : Group) : Shared F :=
  ⟨sh.alpha + ofInt (sh.r * g.count), sh.beta + ofInt g.sum, sh.r⟩

/-- `score_value` (distributions/dbg/models/bnb.py:121-129). -/
def Group.scoreValue (sh : Shared F) (g : Group) (value : Int) : F :=
  let post := sh.plusGroup g
  let alpha := post.alpha + ofInt sh.r
  let beta := post.beta + ofInt value
  let score := lgamma (post.alpha + post.beta)
  let score := score - lgamma (alpha + beta)
  let score := score + (lgamma alpha - lgamma post.alpha)
  score + (lgamma beta - lgamma post.beta)

/-- `score_data` (distributions/dbg/models/bnb.py:131-137). -/
def Group.scoreData (sh : Shared F) (g : Group) : F :=
  let post := sh.plusGroup g
  let score := lgamma (sh.alpha + sh.beta)
  let score := score - lgamma (post.alpha + post.beta)
  let score := score + (lgamma post.alpha - lgamma sh.alpha)
  score + (lgamma post.beta - lgamma sh.beta)

end BNB

/-! ## Normal-Inverse-ChiSq (distributions/dbg/models/nich.py)

The group has the same three members as the C++ one. -/

namespace NICH

/-- `init` (distributions/dbg/models/nich.py:129-132). -/
def init : Dist.NICH.Group F := ⟨0, lit 0 1, lit 0 1⟩

/-- `add_value` (distributions/dbg/models/nich.py:134-138). -/
def addValue (g : Dist.NICH.Group F) (value : F) : Res (Dist.NICH.Group F) := do
  let count := g.count + 1
  let delta := value - g.mean
  let q ← pyDiv delta (ofInt count)
  let mean := g.mean + q
  return ⟨count, mean, g.countTimesVariance + delta * (value - mean)⟩

/-- `add_repeated_value` (distributions/dbg/models/nich.py:140-144). -/
def addRepeatedValue (g : Dist.NICH.Group F) (value : F) (count : Int) :
    Res (Dist.NICH.Group F) := do
  let total := g.count + count
  let delta := ofInt count * value - g.mean
  let q ← pyDiv delta (ofInt total)
  let mean := g.mean + q
  return ⟨total, mean, g.countTimesVariance + delta * (value - mean)⟩

/-- `remove_value` (distributions/dbg/models/nich.py:146-157). -/
def removeValue (g : Dist.NICH.Group F) (value : F) : Dist.NICH.Group F :=
  let total := g.mean * ofInt g.count
  let delta := value - g.mean
  let count := g.count - 1
  let mean := if count = 0 then lit 0 1 else (total - value) / ofInt count
  let ctv := if count ≤ 1 then lit 0 1 else g.countTimesVariance - delta * (value - mean)
  ⟨count, mean, ctv⟩

/-- `merge` (distributions/dbg/models/nich.py:159-167). -/
def merge (g source : Dist.NICH.Group F) : Res (Dist.NICH.Group F) := do
  let count := g.count + source.count
  let delta := source.mean - g.mean
  let sourcePart ← pyDiv (ofInt source.count) (ofInt count)
  let crossPart := ofInt g.count * sourcePart
  return ⟨count, g.mean + sourcePart * delta,
    g.countTimesVariance + (source.countTimesVariance + crossPart * delta * delta)⟩

/-- `Shared.plus_group` (distributions/dbg/models/nich.py:74-93). -/
def plusGroup (sh : Dist.NICH.Shared F) (g : Dist.NICH.Group F) : Res (Dist.NICH.Shared F) := do
  let total := g.mean * ofInt g.count
  let mu1 := sh.mu - g.mean
  let kappa := sh.kappa + ofInt g.count
  let mu ← pyDiv (sh.kappa * sh.mu + total) kappa
  let nu := sh.nu + ofInt g.count
  let inv ← pyDiv (lit 1 1) nu
  let q ← pyDiv (ofInt g.count * sh.kappa * mu1 * mu1) kappa
  return ⟨mu, kappa, inv * (sh.nu * sh.sigmasq + g.countTimesVariance + q), nu⟩

/-- `score_student_t` (distributions/dbg/models/nich.py:44-54). -/
def scoreStudentT (x nu mu sigmasq : F) : Res F := do
  let score := lgamma (lit 1 2 * (nu + lit 1 1)) - lgamma (lit 1 2 * nu)
  let l1 ← pyLog (nu * FloatOps.pi * sigmasq)
  let score := score - lit 1 2 * l1
  let xt := x - mu
  let s ← pyDiv (xt * xt) sigmasq
  let q ← pyDiv s nu
  let l2 ← pyLog (lit 1 1 + q)
  return score + -(lit 1 2 * (nu + lit 1 1)) * l2

/-- `score_value` (distributions/dbg/models/nich.py:169-178). -/
def scoreValue (sh : Dist.NICH.Shared F) (g : Dist.NICH.Group F) (value : F) : Res F := do
  let post ← plusGroup sh g
  let sigmasq ← pyDiv ((lit 1 1 + post.kappa) * post.sigmasq) post.kappa
  scoreStudentT value post.nu post.mu sigmasq

/-- `score_data` (distributions/dbg/models/nich.py:180-189). -/
def scoreData (sh : Dist.NICH.Shared F) (g : Dist.NICH.Group F) : Res F := do
  let post ← plusGroup sh g
  let q ← pyDiv sh.kappa post.kappa
  let l1 ← pyLog q
  let l2 ← pyLog (sh.nu * sh.sigmasq)
  let l3 ← pyLog (post.nu * post.sigmasq)
  return lgamma (post.nu / lit 2 1) - lgamma (sh.nu / lit 2 1) + lit 1 2 * l1
    + lit 1 2 * sh.nu * l2 - lit 1 2 * post.nu * l3 - ofInt g.count / lit 2 1 * logPi

end NICH

/-! ## Dirichlet-Process-Discrete (distributions/dbg/models/dpd.py) -/

namespace DPD

/-- `Group` (distributions/dbg/models/dpd.py:168-171): a dictionary and its total. -/
structure Group where
  counts : FMap UInt32 Int
  total : Int

/-- `init` (distributions/dbg/models/dpd.py:173-175). -/
def Group.init : Group := ⟨.empty, 0⟩

/-- `add_repeated_value` (distributions/dbg/models/dpd.py:177-189). -/
def Group.addRepeatedValue (betas : FMap UInt32 F) (g : Group) (value : UInt32) (count : Int) :
    Res Group :=
  if value = Dist.DPD.other then .fail
  else if betas.contains value = false then .fail
  else if count = 0 then .ok g
  else match g.counts.lookup value with
    | some c =>
      if count + c ≠ 0 then .ok ⟨g.counts.set value (count + c), g.total + count⟩
      else .ok ⟨g.counts.erase value, g.total + count⟩
    | none => .ok ⟨g.counts.set value count, g.total + count⟩

/-- The loop of `merge` (distributions/dbg/models/dpd.py:230-231). -/
def mergeLoop (betas : FMap UInt32 F) : List (UInt32 × Int) → Group → Res Group
  | [], g => .ok g
  | (i, count) :: es, g => do
    let g ← g.addRepeatedValue betas i count
    mergeLoop betas es g

/-- `merge` (distributions/dbg/models/dpd.py:229-232), with the iteration order of the source. -/
def Group.merge (betas : FMap UInt32 F) (g source : Group) (ks : List UInt32) : Res Group := do
  let g ← mergeLoop betas (source.counts.entries ks) g
  return ⟨g.counts, g.total + source.total⟩

/-- `score_value` (distributions/dbg/models/dpd.py:197-209). -/
def Group.scoreValue (sh : Dist.DPD.Shared F) (g : Group) (value : UInt32) : Res F := do
  let denom := sh.alpha + ofInt g.total
  let numer ← (if value = Dist.DPD.other then .ok (sh.beta0 * sh.alpha)
    else
      let count := (g.counts.lookup value).getD 0
      if count < 0 then .fail
      else match sh.betas.lookup value with
        | none => .fail
        | some b => .ok (b * sh.alpha + ofInt count) : Res F)
  let q ← pyDiv numer denom
  pyLog q

/-- The loop of `score_data` (distributions/dbg/models/dpd.py:217-220). -/
def scoreLoop (sh : Dist.DPD.Shared F) : List (UInt32 × Int) → F → Res F
  | [], score => .ok score
  | (i, count) :: es, score =>
    if count < 0 then .fail
    else match sh.betas.lookup i with
      | none => .fail
      | some b =>
        let prior := b * sh.alpha
        scoreLoop sh es (score + (lgamma (prior + ofInt count) - lgamma prior))

/-- `score_data` (distributions/dbg/models/dpd.py:211-222); `ks` is the iteration order of the
dictionary. -/
def Group.scoreData (sh : Dist.DPD.Shared F) (g : Group) (ks : List UInt32) : Res F := do
  if sh.betas.size = 0 then .fail
  else
    let score ← scoreLoop sh (g.counts.entries ks) (lit 0 1)
    return score + (lgamma sh.alpha - lgamma (sh.alpha + ofInt g.total))

end DPD

/-! ## Normal-Inverse-Wishart (distributions/dbg/models/niw.py)

The group has the same three members as the C++ one; numpy's `det` and `inv` are the
parameter `LinAlg`. -/

namespace NIW

open Dist.NIW (Vec Mat LinAlg outer)

variable {d : Nat}

/-- `Shared.plus_group` (distributions/dbg/models/niw.py:103-123). -/
def plusGroup (sh : Dist.NIW.Shared F d) (g : Dist.NIW.Group F d) : Res (Dist.NIW.Shared F d) := do
  let n : F := ofInt g.count
  let xbar : Vec F d := if g.count ≠ 0 then fun i => g.sumX i / n else fun _ => ofInt 0
  let a ← pyDiv sh.kappa (sh.kappa + n)
  let b ← pyDiv n (sh.kappa + n)
  let mu : Vec F d := fun i => a * sh.mu i + b * xbar i
  let diff : Vec F d := fun i => xbar i - sh.mu i
  let c : Mat F d := fun i j =>
    g.sumXXT i j - outer g.sumX xbar i j - outer xbar g.sumX i j + n * outer xbar xbar i j
  let e ← pyDiv (sh.kappa * n) (sh.kappa + n)
  let psi : Mat F d := fun i j => sh.psi i j + c i j + e * outer diff diff i j
  return ⟨mu, sh.kappa + n, psi, sh.nu + n⟩

/-- `init` (distributions/dbg/models/niw.py:167-170). -/
def init : Dist.NIW.Group F d := ⟨0, fun _ => ofInt 0, fun _ _ => ofInt 0⟩

/-- `add_value` (distributions/dbg/models/niw.py:172-175). -/
def addValue (g : Dist.NIW.Group F d) (value : Vec F d) : Dist.NIW.Group F d :=
  ⟨g.count + 1, fun i => g.sumX i + value i, fun i j => g.sumXXT i j + outer value value i j⟩

/-- `add_repeated_value` (distributions/dbg/models/niw.py:177-180). -/
def addRepeatedValue (g : Dist.NIW.Group F d) (value : Vec F d) (count : Int) :
    Dist.NIW.Group F d :=
  ⟨g.count + count, fun i => g.sumX i + ofInt count * value i,
    fun i j => g.sumXXT i j + ofInt count * outer value value i j⟩

/-- `remove_value` (distributions/dbg/models/niw.py:182-185). -/
def removeValue (g : Dist.NIW.Group F d) (value : Vec F d) : Dist.NIW.Group F d :=
  ⟨g.count - 1, fun i => g.sumX i - value i, fun i j => g.sumXXT i j - outer value value i j⟩

/-- `merge` (distributions/dbg/models/niw.py:187-190). -/
def merge (g source : Dist.NIW.Group F d) : Dist.NIW.Group F d :=
  ⟨g.count + source.count, fun i => g.sumX i + source.sumX i,
    fun i j => g.sumXXT i j + source.sumXXT i j⟩

/-- `inner(v, w)` on vectors. -/
def inner (v w : Vec F d) : F := (List.finRange d).foldl (fun acc i => acc + v i * w i) (ofInt 0)

/-- `score_student_t` (distributions/dbg/random.py:113-131). -/
def scoreStudentT (la : LinAlg F) (x : Vec F d) (nu : F) (mu : Vec F d) (sigma : Mat F d) :
    Res F := do
  let z : Vec F d := fun i => x i - mu i
  let s := inner (fun i => inner z (la.inv sigma i)) z
  let l1 ← pyLog (nu * FloatOps.pi)
  let l2 ← pyLog (la.det sigma)
  let q ← pyDiv s nu
  let l3 ← pyLog (lit 1 1 + q)
  return lgamma (lit 1 2 * (nu + ofInt d)) - lgamma (lit 1 2 * nu)
    - lit 1 2 * (ofInt d * l1 + l2 + (nu + ofInt d) * l3)

/-- `score_value` (distributions/dbg/models/niw.py:192-200). -/
def scoreValue (la : LinAlg F) (sh : Dist.NIW.Shared F d) (g : Dist.NIW.Group F d)
    (value : Vec F d) : Res F := do
  let post ← plusGroup sh g
  let dof := post.nu - ofInt d + lit 1 1
  let sigma : Mat F d := fun i j => post.psi i j * (post.kappa + lit 1 1) / (post.kappa * dof)
  scoreStudentT la value dof post.mu sigma

/-- `scipy.special.multigammaln(a, d)`: raises unless `a > (d - 1) / 2`. -/
def multigammaln (a : F) (d : Nat) : Res F :=
  if le a (lit 1 2 * (ofInt d - lit 1 1)) then .fail
  else .ok (ofInt (d * (d - 1) : Int) * lit 1 4 * logPi
    + (List.range d).foldl (fun t (j : Nat) => t + lgamma (a - ofInt j / lit 2 1)) (ofInt 0))

/-- `score_data` (distributions/dbg/models/niw.py:202-217); `np.log` does not raise. -/
def scoreData (la : LinAlg F) (sh : Dist.NIW.Shared F d) (g : Dist.NIW.Group F d) : Res F := do
  let post ← plusGroup sh g
  let m1 ← multigammaln (post.nu / lit 2 1) d
  let m2 ← multigammaln (sh.nu / lit 2 1) d
  let q ← pyDiv sh.kappa post.kappa
  return m1 + sh.nu / lit 2 1 * log (la.det sh.psi)
    - ofInt (g.count * d) / lit 2 1 * logPi - m2
    - post.nu / lit 2 1 * log (la.det post.psi) + ofInt d / lit 2 1 * log q

end NIW

/-! ## Low entropy (distributions/dbg/clustering.py) -/

namespace LowEntropy

/-- `_approximate_postpred_correction` (distributions/dbg/clustering.py:273-284): both sizes are
`int`, so `dataset_size / sample_size` rounds down. -/
def postpredCorrection (datasetSize sampleSize : Int) : Res F :=
  if 0 < sampleSize ∧ sampleSize < datasetSize then do
    let exponent : F := lit 45 100 - lit 1 10 / ofInt sampleSize - lit 1 10 / ofInt datasetSize
    let scale : F := ofInt (datasetSize / sampleSize)
    let l ← pyLog scale
    return l * exponent
  else .fail

/-- `score_add_value` (distributions/dbg/clustering.py:170-210). -/
def scoreAddValue (datasetSize groupSize sampleSize empty : Int) : Res F :=
  if sampleSize < datasetSize ∧ 0 < empty then
    if groupSize = 0 then do
      let l ← pyLog (ofInt empty : F)
      let score : F := -l
      if sampleSize + 1 < datasetSize then
        let c ← postpredCorrection datasetSize (sampleSize + 1)
        return score + c
      else return score
    else
      let bigger : F := lit 1 1 + ofInt groupSize
      if groupSize > 10000 then do
        let l ← pyLog bigger
        return lit 1 1 + l
      else do
        let q ← pyDiv bigger (ofInt groupSize)
        let l1 ← pyLog q
        let l2 ← pyLog bigger
        return l1 * ofInt groupSize + l2
  else .fail

end LowEntropy

end Dist.Dbg
