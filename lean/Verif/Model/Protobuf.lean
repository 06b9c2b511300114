import Verif.Model.BB
import Verif.Model.DD
import Verif.Model.DPD
import Verif.Model.GP
import Verif.Model.BNB
import Verif.Model.NICH
import Verif.Model.NIW
import Verif.Model.Clustering

/-! # Dumping to and loading from messages

The messages of distributions/io/schema.proto as records (`repeated` fields are lists);
the wire encoding and the generated accessors are in Verif/Model/Wire.lean and
Verif/Model/WireRecords.lean.  `dump` takes the message written into, `load` takes the object loaded into.
Every `load` writes all members, so the result does not depend on the old object unless
stated. -/

namespace Dist.Proto

open FloatOps FloatNotation

/-! ## Integer conversions -/

/-- `int` to `uint64`: modulo `2^64`. -/
def intToU64 (x : Int) : UInt64 := UInt64.ofInt x

/-- `uint64` to `int`: modulo `2^32` into the signed range. -/
def u64ToInt (x : UInt64) : Int := Int.bmod (x.toNat : Int) 4294967296

/-- `int` to the `int32` field of a message and back (no conversion). -/
def int32Field (x : Int) : Int := x

variable {F : Type}

/-! ## Clustering -/

/-- `Clustering.PitmanYor` (distributions/io/schema.proto:35-39). -/
structure PitmanYorMsg (F : Type) where
  alpha : F
  d : F

/-- `PitmanYor::protobuf_dump` (clustering.hpp:69-72). -/
def dumpPitmanYor (m : PitmanYor F) (_msg : PitmanYorMsg F) : PitmanYorMsg F := ⟨m.alpha, m.d⟩

/-- `PitmanYor::protobuf_load` (clustering.hpp:63-66). -/
def loadPitmanYor (_m : PitmanYor F) (msg : PitmanYorMsg F) : PitmanYor F := ⟨msg.alpha, msg.d⟩

/-- `Clustering.LowEntropy` (distributions/io/schema.proto:41-44). -/
structure LowEntropyMsg where
  datasetSize : UInt64

/-- `LowEntropy::protobuf_dump` (clustering.hpp:253-256). -/
def dumpLowEntropy (m : LowEntropy) (_msg : LowEntropyMsg) : LowEntropyMsg :=
  ⟨intToU64 m.datasetSize⟩

/-- `LowEntropy::protobuf_load` (clustering.hpp:248-251). -/
def loadLowEntropy (_m : LowEntropy) (msg : LowEntropyMsg) : LowEntropy :=
  ⟨u64ToInt msg.datasetSize⟩

/-! ## Beta-Bernoulli -/

/-- `BetaBernoulli.Shared` (distributions/io/schema.proto:55-58). -/
structure BBSharedMsg (F : Type) where
  alpha : F
  beta : F

/-- `BetaBernoulli.Group` (distributions/io/schema.proto:60-63). -/
structure BBGroupMsg where
  heads : UInt64
  tails : UInt64

/-- `Shared::protobuf_dump` (bb.hpp:65-68). -/
def dumpBBShared (s : BB.Shared F) (_msg : BBSharedMsg F) : BBSharedMsg F := ⟨s.alpha, s.beta⟩

/-- `Shared::protobuf_load` (bb.hpp:59-62). -/
def loadBBShared (_s : BB.Shared F) (msg : BBSharedMsg F) : BB.Shared F := ⟨msg.alpha, msg.beta⟩

/-- `Group::protobuf_dump` (bb.hpp:90-93). -/
def dumpBBGroup (g : BB.Group) (_msg : BBGroupMsg) : BBGroupMsg :=
  ⟨intToU64 g.heads, intToU64 g.tails⟩

/-- `Group::protobuf_load` (bb.hpp:84-87). -/
def loadBBGroup (_g : BB.Group) (msg : BBGroupMsg) : BB.Group :=
  ⟨u64ToInt msg.heads, u64ToInt msg.tails⟩

/-! ## Dirichlet-Discrete -/

/-- `DirichletDiscrete.Shared` (distributions/io/schema.proto:67-69). -/
structure DDSharedMsg (F : Type) where
  alphas : List F

/-- `DirichletDiscrete.Group` (distributions/io/schema.proto:71-73). -/
structure DDGroupMsg where
  counts : List UInt64

/-- `Shared::protobuf_dump` (dd.hpp:71-76): clears the message, then appends. -/
def dumpDDShared (s : DD.Shared F) (_msg : DDSharedMsg F) : DDSharedMsg F :=
  ⟨s.alphas.foldl (fun l a => l ++ [a]) []⟩

/-- `Shared::protobuf_load` (dd.hpp:62-68).  The number of alphas must fit `int`; entries
of the array beyond `dim` are not modelled. -/
def loadDDShared (maxDim : Nat) (_s : DD.Shared F) (msg : DDSharedMsg F) : Res (DD.Shared F) := do
  distAssert0 (msg.alphas.length ≤ maxDim)
  return ⟨msg.alphas⟩

/-- `Group::protobuf_dump` (dd.hpp:105-111). -/
def dumpDDGroup (g : DD.Group) (_msg : DDGroupMsg) : DDGroupMsg :=
  ⟨g.counts.foldl (fun l c => l ++ [intToU64 c]) []⟩

/-- Loop of `Group::protobuf_load` (dd.hpp:99-101). -/
def loadDDLoop : List UInt64 → Int → List Int → Res DD.Group
  | [], total, counts => .ok ⟨total, counts⟩
  | m :: ms, total, counts => do
    let c := u64ToInt m
    let total ← i32 (total + c)
    loadDDLoop ms total (counts ++ [c])

/-- `Group::protobuf_load` (dd.hpp:95-102). -/
def loadDDGroup (maxDim : Nat) (_g : DD.Group) (msg : DDGroupMsg) : Res DD.Group := do
  distAssert0 (msg.counts.length ≤ maxDim)
  loadDDLoop msg.counts 0 []

/-! ## Dirichlet-Process-Discrete -/

/-- `DirichletProcessDiscrete.Shared` (distributions/io/schema.proto:77-83). -/
structure DPDSharedMsg (F : Type) where
  gamma : F
  alpha : F
  values : List UInt32
  betas : List F
  counts : List UInt64

/-- `DirichletProcessDiscrete.Group` (distributions/io/schema.proto:85-88). -/
structure DPDGroupMsg where
  keys : List UInt32
  values : List UInt64

/-- `Shared::protobuf_dump` (dpd.hpp:128-139); `ks` is the visiting order of `betas`. -/
def dumpDPDShared (ks : List UInt32) (s : DPD.Shared F) (_msg : DPDSharedMsg F) :
    DPDSharedMsg F :=
  let es := s.betas.entries ks
  ⟨s.gamma, s.alpha, es.map (·.1), es.map (·.2), es.map fun e => intToU64 (s.counts.getCount e.1)⟩

/-- Loop of `Shared::protobuf_load` (dpd.hpp:115-122). -/
def loadDPDLoop [FloatOps F] (lvl : Nat) : List UInt32 → List F → List UInt64 →
    FMap UInt32 F → SparseCounter UInt32 → F → Res (FMap UInt32 F × SparseCounter UInt32 × F)
  | v :: vs, b :: bs, c :: cs, betas, counts, sum => do
    distAssert0 (lt (ofInt 0) b = true)
    let betas ← Sparse.add lvl betas v b
    let (_, counts) ← counts.add v (u64ToInt c)
    loadDPDLoop lvl vs bs cs betas counts (sum + b)
  | [], _, _, betas, counts, sum => .ok (betas, counts, sum)
  | _, _, _, _, _, _ => .ub

/-- `Shared::protobuf_load` (dpd.hpp:104-125).  `beta_sum` is a `double` in the code. -/
def loadDPDShared [FloatOps F] (lvl : Nat) (s : DPD.Shared F) (msg : DPDSharedMsg F) :
    Res (DPD.Shared F) := do
  distAssert0 (msg.betas.length = msg.values.length)
  distAssert0 (msg.counts.length = msg.values.length)
  let (betas, counts, sum) ←
    loadDPDLoop lvl msg.values msg.betas msg.counts .empty s.counts.clear (ofInt 0)
  distAssert0 (le sum (lit 1 1 + lit 1 10000) = true)
  return ⟨msg.gamma, msg.alpha, DPD.Shared.maxf (ofInt 0) (lit 1 1 - sum), betas, counts⟩

/-- `Group::protobuf_dump` (dpd.hpp:172-180); `ks` is the visiting order of the counts. -/
def dumpDPDGroup (ks : List UInt32) (g : DPD.Group) (_msg : DPDGroupMsg) : DPDGroupMsg :=
  let es := g.map.entries ks
  ⟨es.map (·.1), es.map fun e => intToU64 e.2⟩

/-- Loop of `Group::protobuf_load` (dpd.hpp:166-168). -/
def loadDPDGroupLoop : List UInt32 → List UInt64 → DPD.Group → Res DPD.Group
  | [], _, g => .ok g
  | _ :: _, [], _ => .ub
  | k :: ks, v :: vs, g => do
    let (_, g) ← SparseCounter.add g k (u64ToInt v)
    loadDPDGroupLoop ks vs g

/-- `Group::protobuf_load` (dpd.hpp:160-169). -/
def loadDPDGroup (lvl : Nat) (g : DPD.Group) (msg : DPDGroupMsg) : Res DPD.Group := do
  distAssert lvl 1 (msg.keys.length = msg.values.length)
  loadDPDGroupLoop msg.keys msg.values (SparseCounter.clear g)

/-! ## Gamma-Poisson -/

/-- `GammaPoisson.Shared` (distributions/io/schema.proto:105-108). -/
structure GPSharedMsg (F : Type) where
  alpha : F
  invBeta : F

/-- `GammaPoisson.Group` (distributions/io/schema.proto:110-114). -/
structure GPGroupMsg (F : Type) where
  count : UInt64
  sum : UInt64
  logProd : F

/-- `Shared::protobuf_dump` (gp.hpp:70-73). -/
def dumpGPShared (s : GP.Shared F) (_msg : GPSharedMsg F) : GPSharedMsg F := ⟨s.alpha, s.invBeta⟩

/-- `Shared::protobuf_load` (gp.hpp:64-67). -/
def loadGPShared (_s : GP.Shared F) (msg : GPSharedMsg F) : GP.Shared F := ⟨msg.alpha, msg.invBeta⟩

/-- `Group::protobuf_dump` (gp.hpp:97-101). -/
def dumpGPGroup (g : GP.Group F) (_msg : GPGroupMsg F) : GPGroupMsg F :=
  ⟨g.count.toUInt64, g.sum.toUInt64, g.logProd⟩

/-- `Group::protobuf_load` (gp.hpp:90-94). -/
def loadGPGroup (_g : GP.Group F) (msg : GPGroupMsg F) : GP.Group F :=
  ⟨msg.count.toUInt32, msg.sum.toUInt32, msg.logProd⟩

/-! ## Beta-Negative-Binomial -/

/-- `BetaNegativeBinomial.Shared` (distributions/io/schema.proto:118-122). -/
structure BNBSharedMsg (F : Type) where
  alpha : F
  beta : F
  r : UInt64

/-- `BetaNegativeBinomial.Group` (distributions/io/schema.proto:124-127). -/
structure BNBGroupMsg where
  count : UInt64
  sum : UInt64

/-- `Shared::protobuf_dump` (bnb.hpp:73-77). -/
def dumpBNBShared (s : BNB.Shared F) (_msg : BNBSharedMsg F) : BNBSharedMsg F :=
  ⟨s.alpha, s.beta, s.r.toUInt64⟩

/-- `Shared::protobuf_load` (bnb.hpp:66-70). -/
def loadBNBShared (_s : BNB.Shared F) (msg : BNBSharedMsg F) : BNB.Shared F :=
  ⟨msg.alpha, msg.beta, msg.r.toUInt32⟩

/-- `Group::protobuf_dump` (bnb.hpp:100-103). -/
def dumpBNBGroup (g : BNB.Group) (_msg : BNBGroupMsg) : BNBGroupMsg :=
  ⟨g.count.toUInt64, g.sum.toUInt64⟩

/-- `Group::protobuf_load` (bnb.hpp:94-97). -/
def loadBNBGroup (_g : BNB.Group) (msg : BNBGroupMsg) : BNB.Group :=
  ⟨msg.count.toUInt32, msg.sum.toUInt32⟩

/-! ## Normal-Inverse-ChiSq -/

/-- `NormalInverseChiSq.Shared` (distributions/io/schema.proto:131-136). -/
structure NICHSharedMsg (F : Type) where
  mu : F
  kappa : F
  sigmasq : F
  nu : F

/-- `NormalInverseChiSq.Group` (distributions/io/schema.proto:138-142). -/
structure NICHGroupMsg (F : Type) where
  count : UInt64
  mean : F
  countTimesVariance : F

/-- `Shared::protobuf_dump` (nich.hpp:80-85). -/
def dumpNICHShared (s : NICH.Shared F) (_msg : NICHSharedMsg F) : NICHSharedMsg F :=
  ⟨s.mu, s.kappa, s.sigmasq, s.nu⟩

/-- `Shared::protobuf_load` (nich.hpp:72-77). -/
def loadNICHShared (_s : NICH.Shared F) (msg : NICHSharedMsg F) : NICH.Shared F :=
  ⟨msg.mu, msg.kappa, msg.sigmasq, msg.nu⟩

/-- `Group::protobuf_dump` (nich.hpp:111-115). -/
def dumpNICHGroup (g : NICH.Group F) (_msg : NICHGroupMsg F) : NICHGroupMsg F :=
  ⟨intToU64 g.count, g.mean, g.countTimesVariance⟩

/-- `Group::protobuf_load` (nich.hpp:104-108). -/
def loadNICHGroup (_g : NICH.Group F) (msg : NICHGroupMsg F) : NICH.Group F :=
  ⟨u64ToInt msg.count, msg.mean, msg.countTimesVariance⟩

/-! ## Normal-Inverse-Wishart -/

/-- `NormalInverseWishart.Shared` (distributions/io/schema.proto:146-151). -/
structure NIWSharedMsg (F : Type) where
  mu : List F
  kappa : F
  psi : List F
  nu : F

/-- `NormalInverseWishart.Group` (distributions/io/schema.proto:153-157). -/
structure NIWGroupMsg (F : Type) where
  count : Int
  sumX : List F
  sumXXT : List F

/-- Entries of a vector, appended one by one. -/
def vecList {d : Nat} (v : NIW.Vec F d) : List F := List.ofFn v

/-- Entries of a matrix, row by row. -/
def matList {d : Nat} (m : NIW.Mat F d) : List F := (List.ofFn fun i => List.ofFn (m i)).flatten

/-- Read a vector from a list of the right length. -/
def listVec {d : Nat} (l : List F) (h : l.length = d) : NIW.Vec F d :=
  fun i => l[i.val]'(by have := i.isLt; omega)

/-- Index of a matrix entry, in range. -/
theorem index_lt {d : Nat} (i j : Fin d) : i.val * d + j.val < d * d :=
  calc i.val * d + j.val < i.val * d + d := by have := j.isLt; omega
    _ = (i.val + 1) * d := by rw [Nat.add_mul, Nat.one_mul]
    _ ≤ d * d := Nat.mul_le_mul_right d i.isLt

/-- Read a matrix, row by row, from a list of the right length. -/
def listMat {d : Nat} (l : List F) (h : l.length = d * d) : NIW.Mat F d :=
  fun i j => l[i.val * d + j.val]'(by rw [h]; exact index_lt i j)

/-- `check_row_or_col_size` (niw.hpp:172-179); `fixed` is the template argument `dim_`,
`none` for -1. -/
def checkRowOrColSize (fixed : Option Nat) (size : Nat) : Res Unit :=
  match fixed with
  | none => distAssert0 (0 < size)
  | some d => distAssert0 (d = size)

/-- `Shared::protobuf_dump` (niw.hpp:137-156). -/
def dumpNIWShared {d : Nat} (s : NIW.Shared F d) (_msg : NIWSharedMsg F) : NIWSharedMsg F :=
  ⟨vecList s.mu, s.kappa, matList s.psi, s.nu⟩

/-- `Shared::protobuf_load` (niw.hpp:106-134).  `spd` is
`is_symmetric_positive_definite` (niw.hpp:54-61), computed by Eigen. -/
def loadNIWShared [FloatOps F] (lvl : Nat) (fixed : Option Nat)
    (spd : {d : Nat} → NIW.Mat F d → Bool) (msg : NIWSharedMsg F) :
    Res ((d : Nat) × NIW.Shared F d) := do
  checkRowOrColSize fixed msg.mu.length
  distAssert0 (lt (ofInt 0) msg.kappa = true)
  if h : msg.psi.length = msg.mu.length * msg.mu.length then
    let psi : NIW.Mat F msg.mu.length := listMat msg.psi h
    distAssert lvl 3 (spd psi = true)
    distAssert0 (lt (ofInt msg.mu.length - lit 1 1) msg.nu = true)
    return ⟨msg.mu.length, listVec msg.mu rfl, msg.kappa, psi, msg.nu⟩
  else .fail

/-- `Group::protobuf_dump` (niw.hpp:219-234). -/
def dumpNIWGroup {d : Nat} (g : NIW.Group F d) (_msg : NIWGroupMsg F) : NIWGroupMsg F :=
  ⟨int32Field g.count, vecList g.sumX, matList g.sumXXT⟩

/-- `Group::protobuf_load` (niw.hpp:193-216).  `sym` is `is_symmetric` (niw.hpp:45-50). -/
def loadNIWGroup (lvl : Nat) (fixed : Option Nat) (sym : {d : Nat} → NIW.Mat F d → Bool)
    (msg : NIWGroupMsg F) : Res ((d : Nat) × NIW.Group F d) := do
  checkRowOrColSize fixed msg.sumX.length
  if h : msg.sumXXT.length = msg.sumX.length * msg.sumX.length then
    let m : NIW.Mat F msg.sumX.length := listMat msg.sumXXT h
    distAssert lvl 3 (sym m = true)
    return ⟨msg.sumX.length, int32Field msg.count, listVec msg.sumX rfl, m⟩
  else .fail

end Dist.Proto
