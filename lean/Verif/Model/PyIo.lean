import Verif.Base.Act
import Verif.Model.Protobuf

/-! # `load` and `dump` of the Python bindings (distributions/lp)

The compiled Python classes read and write the C++ objects field by field, from Python
dictionaries (`load`, `dump`) and from protobuf messages (`protobuf_load`,
`protobuf_dump`).  A call is an `Act` on the object: a Python exception is a failure that
leaves the object as the statements before it left it, an access outside an array is
undefined behaviour.

Python integers are `Int`.  Python floats have a type `D`, the floats of the C++ objects
a type `F`.  A dictionary is a record of its entries, so a missing key (`KeyError`) is not
modelled; a dictionary indexed by numbers is the list of its entries in iteration order.
A message holds the values of its fields, `float` fields in `F`. -/

namespace Dist.Py

open FloatOps FloatNotation

/-- Conversions between Python floats (`double`) and `float`, and the two operations the
bindings do in `double` (distributions/lp/models/dpd.pyx:78-81). -/
structure Conv (D F : Type) where
  narrow : D → F
  widen : F → D
  one : D
  sub : D → D → D
  /-- every `float` is a `double` -/
  narrow_widen : ∀ x, narrow (widen x) = x

/-- A Python integer converted to C `int`: `OverflowError` when it does not fit. -/
def asInt (z : Int) : Res Int := if InInt32 z then .ok z else .fail

/-- C `int` to `uint32_t`: modulo `2^32`. -/
def toU32 (z : Int) : UInt32 := UInt32.ofInt z

/-- `uint32_t` to C `int`: modulo `2^32` into the signed range. -/
def ofU32 (u : UInt32) : Int := Int.bmod (u.toNat : Int) 4294967296

/-- A length (`Py_ssize_t`) assigned to a C `int`. -/
def lenInt (n : Nat) : Int := Int.bmod (n : Int) 4294967296

/-- A Python integer assigned to an unsigned field of a message: `ValueError` when it is
negative or too large. -/
def asField (bits : Nat) (z : Int) : Res Nat :=
  if 0 ≤ z ∧ z < 2 ^ bits then .ok z.toNat else .fail

variable {D F : Type}

/-! ## Beta-Bernoulli -/

/-- `Shared.load` (distributions/lp/models/bb.pyx:49-51). -/
def loadBBShared (c : Conv D F) (raw : Proto.BBSharedMsg D) : Act (BB.Shared F) Unit := do
  Act.modify fun s => { s with alpha := c.narrow raw.alpha }
  Act.modify fun s => { s with beta := c.narrow raw.beta }

/-- `Shared.dump` (distributions/lp/models/bb.pyx:53-57). -/
def dumpBBShared (c : Conv D F) (s : BB.Shared F) : Proto.BBSharedMsg D :=
  ⟨c.widen s.alpha, c.widen s.beta⟩

/-- `Shared.protobuf_load` (distributions/lp/models/bb.pyx:59-61). -/
def pbLoadBBShared (c : Conv D F) (msg : Proto.BBSharedMsg F) : Act (BB.Shared F) Unit := do
  Act.modify fun s => { s with alpha := c.narrow (c.widen msg.alpha) }
  Act.modify fun s => { s with beta := c.narrow (c.widen msg.beta) }

/-- `Shared.protobuf_dump` (distributions/lp/models/bb.pyx:63-65). -/
def pbDumpBBShared (c : Conv D F) (s : BB.Shared F) (_msg : Proto.BBSharedMsg F) :
    Res (Proto.BBSharedMsg F) :=
  .ok ⟨c.narrow (c.widen s.alpha), c.narrow (c.widen s.beta)⟩

/-- The dictionary of a group: two integers. -/
structure BBGroupRaw where
  heads : Int
  tails : Int

/-- `Group.load` (distributions/lp/models/bb.pyx:73-75). -/
def loadBBGroup (raw : BBGroupRaw) : Act BB.Group Unit := do
  let h ← Act.lift (asInt raw.heads)
  Act.modify fun g => { g with heads := h }
  let t ← Act.lift (asInt raw.tails)
  Act.modify fun g => { g with tails := t }

/-- `Group.dump` (distributions/lp/models/bb.pyx:77-81). -/
def dumpBBGroup (g : BB.Group) : BBGroupRaw := ⟨g.heads, g.tails⟩

/-! ## Gamma-Poisson

The C++ counts are `uint32_t` (gp.hpp:85-86); the bindings declare them `int`
(distributions/lp/models/_gp_h.pxd:45-46), so the compiler converts. -/

/-- `Shared.load` (distributions/lp/models/gp.pyx:45-47). -/
def loadGPShared (c : Conv D F) (raw : Proto.GPSharedMsg D) : Act (GP.Shared F) Unit := do
  Act.modify fun s => { s with alpha := c.narrow raw.alpha }
  Act.modify fun s => { s with invBeta := c.narrow raw.invBeta }

/-- `Shared.dump` (distributions/lp/models/gp.pyx:49-53). -/
def dumpGPShared (c : Conv D F) (s : GP.Shared F) : Proto.GPSharedMsg D :=
  ⟨c.widen s.alpha, c.widen s.invBeta⟩

/-- `Shared.protobuf_load` (distributions/lp/models/gp.pyx:55-57). -/
def pbLoadGPShared (c : Conv D F) (msg : Proto.GPSharedMsg F) : Act (GP.Shared F) Unit := do
  Act.modify fun s => { s with alpha := c.narrow (c.widen msg.alpha) }
  Act.modify fun s => { s with invBeta := c.narrow (c.widen msg.invBeta) }

/-- `Shared.protobuf_dump` (distributions/lp/models/gp.pyx:59-61). -/
def pbDumpGPShared (c : Conv D F) (s : GP.Shared F) (_msg : Proto.GPSharedMsg F) :
    Res (Proto.GPSharedMsg F) :=
  .ok ⟨c.narrow (c.widen s.alpha), c.narrow (c.widen s.invBeta)⟩

/-- The dictionary of a group. -/
structure GPGroupRaw (D : Type) where
  count : Int
  sum : Int
  logProd : D

/-- `Group.load` (distributions/lp/models/gp.pyx:69-72). -/
def loadGPGroup (c : Conv D F) (raw : GPGroupRaw D) : Act (GP.Group F) Unit := do
  let n ← Act.lift (asInt raw.count)
  Act.modify fun g => { g with count := toU32 n }
  let m ← Act.lift (asInt raw.sum)
  Act.modify fun g => { g with sum := toU32 m }
  Act.modify fun g => { g with logProd := c.narrow raw.logProd }

/-- `Group.dump` (distributions/lp/models/gp.pyx:74-79). -/
def dumpGPGroup (c : Conv D F) (g : GP.Group F) : GPGroupRaw D :=
  ⟨ofU32 g.count, ofU32 g.sum, c.widen g.logProd⟩

/-! ## Beta-Negative-Binomial -/

/-- The dictionary of the hyperparameters. -/
structure BNBSharedRaw (D : Type) where
  alpha : D
  beta : D
  r : Int

/-- `Shared.load` (distributions/lp/models/bnb.pyx:45-48). -/
def loadBNBShared (c : Conv D F) (raw : BNBSharedRaw D) : Act (BNB.Shared F) Unit := do
  Act.modify fun s => { s with alpha := c.narrow raw.alpha }
  Act.modify fun s => { s with beta := c.narrow raw.beta }
  let r ← Act.lift (asInt raw.r)
  Act.modify fun s => { s with r := toU32 r }

/-- `Shared.dump` (distributions/lp/models/bnb.pyx:50-55). -/
def dumpBNBShared (c : Conv D F) (s : BNB.Shared F) : BNBSharedRaw D :=
  ⟨c.widen s.alpha, c.widen s.beta, ofU32 s.r⟩

/-- `Shared.protobuf_load` (distributions/lp/models/bnb.pyx:57-60). -/
def pbLoadBNBShared (c : Conv D F) (msg : Proto.BNBSharedMsg F) : Act (BNB.Shared F) Unit := do
  Act.modify fun s => { s with alpha := c.narrow (c.widen msg.alpha) }
  Act.modify fun s => { s with beta := c.narrow (c.widen msg.beta) }
  let r ← Act.lift (asInt (msg.r.toNat : Int))
  Act.modify fun s => { s with r := toU32 r }

/-- `Shared.protobuf_dump` (distributions/lp/models/bnb.pyx:62-65): `r` is an unsigned field
(distributions/io/schema.proto:121). -/
def pbDumpBNBShared (c : Conv D F) (s : BNB.Shared F) (_msg : Proto.BNBSharedMsg F) :
    Res (Proto.BNBSharedMsg F) := do
  let r ← asField 64 (ofU32 s.r)
  return ⟨c.narrow (c.widen s.alpha), c.narrow (c.widen s.beta), UInt64.ofNat r⟩

/-- The dictionary of a group. -/
structure BNBGroupRaw where
  count : Int
  sum : Int

/-- `Group.load` (distributions/lp/models/bnb.pyx:73-75). -/
def loadBNBGroup (raw : BNBGroupRaw) : Act BNB.Group Unit := do
  let n ← Act.lift (asInt raw.count)
  Act.modify fun g => { g with count := toU32 n }
  let m ← Act.lift (asInt raw.sum)
  Act.modify fun g => { g with sum := toU32 m }

/-- `Group.dump` (distributions/lp/models/bnb.pyx:77-81). -/
def dumpBNBGroup (g : BNB.Group) : BNBGroupRaw := ⟨ofU32 g.count, ofU32 g.sum⟩

/-! ## Normal-Inverse-ChiSq -/

/-- `Shared.load` (distributions/lp/models/nich.pyx:45-49). -/
def loadNICHShared (c : Conv D F) (raw : NICH.Shared D) : Act (NICH.Shared F) Unit := do
  Act.modify fun s => { s with mu := c.narrow raw.mu }
  Act.modify fun s => { s with kappa := c.narrow raw.kappa }
  Act.modify fun s => { s with sigmasq := c.narrow raw.sigmasq }
  Act.modify fun s => { s with nu := c.narrow raw.nu }

/-- `Shared.dump` (distributions/lp/models/nich.pyx:51-57). -/
def dumpNICHShared (c : Conv D F) (s : NICH.Shared F) : NICH.Shared D :=
  ⟨c.widen s.mu, c.widen s.kappa, c.widen s.sigmasq, c.widen s.nu⟩

/-- `Shared.protobuf_load` (distributions/lp/models/nich.pyx:59-63). -/
def pbLoadNICHShared (c : Conv D F) (msg : Proto.NICHSharedMsg F) :
    Act (NICH.Shared F) Unit := do
  Act.modify fun s => { s with mu := c.narrow (c.widen msg.mu) }
  Act.modify fun s => { s with kappa := c.narrow (c.widen msg.kappa) }
  Act.modify fun s => { s with sigmasq := c.narrow (c.widen msg.sigmasq) }
  Act.modify fun s => { s with nu := c.narrow (c.widen msg.nu) }

/-- `Shared.protobuf_dump` (distributions/lp/models/nich.pyx:65-70). -/
def pbDumpNICHShared (c : Conv D F) (s : NICH.Shared F) (_msg : Proto.NICHSharedMsg F) :
    Res (Proto.NICHSharedMsg F) :=
  .ok ⟨c.narrow (c.widen s.mu), c.narrow (c.widen s.kappa), c.narrow (c.widen s.sigmasq),
    c.narrow (c.widen s.nu)⟩

/-- The dictionary of a group. -/
structure NICHGroupRaw (D : Type) where
  count : Int
  mean : D
  countTimesVariance : D

/-- `Group.load` (distributions/lp/models/nich.pyx:78-81). -/
def loadNICHGroup (c : Conv D F) (raw : NICHGroupRaw D) : Act (NICH.Group F) Unit := do
  let n ← Act.lift (asInt raw.count)
  Act.modify fun g => { g with count := n }
  Act.modify fun g => { g with mean := c.narrow raw.mean }
  Act.modify fun g => { g with countTimesVariance := c.narrow raw.countTimesVariance }

/-- `Group.dump` (distributions/lp/models/nich.pyx:83-88). -/
def dumpNICHGroup (c : Conv D F) (g : NICH.Group F) : NICHGroupRaw D :=
  ⟨g.count, c.widen g.mean, c.widen g.countTimesVariance⟩

/-! ## Dirichlet-Discrete

The objects have arrays of 256 entries (dd.hpp:57-59, 90-92, with
`DirichletDiscrete<256>`, distributions/lp/models/_dd_h.pxd:38). -/

/-- `Shared` (dd.hpp:57-59): the dimension and the whole array. -/
structure DDShared (F : Type) where
  dim : Int
  alphas : List F

/-- `Group` of the bindings: the members `dim`, `count_sum`, `counts` of the C++ group
(dd.hpp:90-92) and the member `dim` of the Python class, "only required for dumping"
(distributions/lp/models/dd.pyx:86-90). -/
structure DDGroup where
  pyDim : Int
  dim : Int
  countSum : Int
  counts : List Int

/-- Assign `xs[0], xs[1], ...` to `a[i], a[i+1], ...`. -/
def fill {α : Type} : Int → List α → List α → Res (List α)
  | _, [], a => .ok a
  | i, x :: xs, a => do
    let a ← DD.writeAt a i x
    fill (i + 1) xs a

/-- `Shared.load` once `dim` is computed (distributions/lp/models/dd.pyx:56-59).  The loop
runs to the value of `dim`. -/
def loadDDSharedDim (c : Conv D F) (dim : Int) (alphas : List D) : Act (DDShared F) Unit := do
  Act.modify fun s => { s with dim := dim }
  let s ← Act.get
  let a ← Act.lift (fill 0 ((alphas.take dim.toNat).map c.narrow) s.alphas)
  Act.modify fun s => { s with alphas := a }

/-- `Shared.load` (distributions/lp/models/dd.pyx:53-59): `dim` is a C `int`. -/
def loadDDShared (c : Conv D F) (alphas : List D) : Act (DDShared F) Unit :=
  loadDDSharedDim c (lenInt alphas.length) alphas

/-- Read `a[i], ..., a[i + n - 1]`. -/
def collect {α : Type} (a : List α) : Int → Nat → Res (List α)
  | _, 0 => .ok []
  | i, n + 1 => do
    let x ← DD.readAt a i
    let xs ← collect a (i + 1) n
    return x :: xs

/-- `Shared.dump` (distributions/lp/models/dd.pyx:61-66). -/
def dumpDDShared (c : Conv D F) (s : DDShared F) : Res (List D) := do
  let xs ← collect s.alphas 0 s.dim.toNat
  return xs.map c.widen

/-- `Shared.protobuf_load` (distributions/lp/models/dd.pyx:68-73). -/
def pbLoadDDShared (c : Conv D F) (msg : Proto.DDSharedMsg F) : Act (DDShared F) Unit :=
  loadDDShared c (msg.alphas.map c.widen)

/-- `Shared.protobuf_dump` (distributions/lp/models/dd.pyx:75-79): clears, then appends. -/
def pbDumpDDShared (c : Conv D F) (s : DDShared F) (_msg : Proto.DDSharedMsg F) :
    Res (Proto.DDSharedMsg F) := do
  let xs ← dumpDDShared c s
  return ⟨xs.map c.narrow⟩

/-- The loop of `Group.load` (distributions/lp/models/dd.pyx:97-99).  `count_sum +=
counts[i]` adds Python integers and converts the sum. -/
def loadDDGroupLoop : Int → List Int → Act DDGroup Unit
  | _, [] => pure ()
  | i, z :: zs => do
    let g ← Act.get
    let t ← Act.lift (asInt (g.countSum + z))
    Act.modify fun g => { g with countSum := t }
    let n ← Act.lift (asInt z)
    let a ← Act.lift (DD.writeAt g.counts i n)
    Act.modify fun g => { g with counts := a }
    loadDDGroupLoop (i + 1) zs

/-- A new group (distributions/lp/models/_dd.pyx:40-41, dd.pyx:89-90): `new Group()` sets
every member to zero. -/
def newDDGroup : DDGroup := ⟨0, 0, 0, List.replicate 256 0⟩

/-- `Group.init` (distributions/lp/models/dd.pyx:108-110, dd.hpp:113-121). -/
def initDDGroup {F : Type} (s : DDShared F) : Act DDGroup Unit := do
  Act.modify fun g => { g with pyDim := s.dim }
  Act.modify fun g => { g with dim := s.dim, countSum := 0 }
  let g ← Act.get
  let a ← Act.lift (fill 0 (List.replicate s.dim.toNat 0) g.counts)
  Act.modify fun g => { g with counts := a }

/-- `Group.load` once `dim` is computed (distributions/lp/models/dd.pyx:94-99): `self.dim` is
the Python member. -/
def loadDDGroupDim (dim : Int) (counts : List Int) : Act DDGroup Unit := do
  Act.modify fun g => { g with pyDim := dim }
  Act.modify fun g => { g with countSum := 0 }
  loadDDGroupLoop 0 (counts.take dim.toNat)

/-- `Group.load` (distributions/lp/models/dd.pyx:92-99). -/
def loadDDGroup (counts : List Int) : Act DDGroup Unit :=
  loadDDGroupDim (lenInt counts.length) counts

/-- `Group.dump` (distributions/lp/models/dd.pyx:101-106). -/
def dumpDDGroup (g : DDGroup) : Res (List Int) := collect g.counts 0 g.pyDim.toNat

/-- `Group::add_value` (dd.hpp:123-130), on the array. -/
def addValueDD (lvl : Nat) (value : Int) : Act DDGroup Unit := do
  let g ← Act.get
  Act.check lvl 1 (value < g.dim)
  let t ← Act.lift (i32 (g.countSum + 1))
  Act.modify fun g => { g with countSum := t }
  let n ← Act.lift (DD.readAt g.counts value)
  let n ← Act.lift (i32 (n + 1))
  let a ← Act.lift (DD.writeAt g.counts value n)
  Act.modify fun g => { g with counts := a }

/-- The loop of `Group::score_data` (dd.hpp:175-180), on the arrays. -/
def scoreDataDDLoop [FloatOps F] (s : DDShared F) (g : DDGroup) : Int → Nat → F → F → Res (F × F)
  | _, 0, score, alphaSum => .ok (score, alphaSum)
  | value, n + 1, score, alphaSum => do
    let alpha ← DD.readAt s.alphas value
    let count ← DD.readAt g.counts value
    scoreDataDDLoop s g (value + 1) n
      (score + (lgamma (alpha + ofInt count) - lgamma alpha)) (alphaSum + alpha)

/-- `Group::score_data` (dd.hpp:169-186), on the arrays: the loop runs to the group's own
`dim`. -/
def scoreDataDD [FloatOps F] (s : DDShared F) (g : DDGroup) : Res F := do
  let (score, alphaSum) ← scoreDataDDLoop s g 0 g.dim.toNat (ofInt 0) (ofInt 0)
  return score + (lgamma alphaSum - lgamma (alphaSum + ofInt g.countSum))

/-! ## Dirichlet-Process-Discrete -/

/-- The dictionary of the hyperparameters. -/
structure DPDSharedRaw (D : Type) where
  gamma : D
  alpha : D
  betas : List (Int × D)
  counts : List (Int × Int)

/-- The first loop of `Shared.load` (distributions/lp/models/dpd.pyx:79-81), with the local
variable `beta0`. -/
def loadBetas (c : Conv D F) (lvl : Nat) : List (Int × D) → D → Act (DPD.Shared F) D
  | [], beta0 => pure beta0
  | (z, x) :: es, beta0 => do
    let value ← Act.lift (asInt z)
    let beta := c.narrow x
    let s ← Act.get
    let m ← Act.lift (Sparse.add lvl s.betas (toU32 value) beta)
    Act.modify fun s => { s with betas := m }
    loadBetas c lvl es (c.sub beta0 (c.widen beta))

/-- The second loop of `Shared.load` (distributions/lp/models/dpd.pyx:84-85). -/
def loadCounts : List (Int × Int) → Act (DPD.Shared F) Unit
  | [] => pure ()
  | (z, n) :: es => do
    let value ← Act.lift (asInt z)
    let count ← Act.lift (asInt n)
    let s ← Act.get
    let (_, m) ← Act.lift (s.counts.add (toU32 value) count)
    Act.modify fun s => { s with counts := m }
    loadCounts es

/-- `Shared.load` (distributions/lp/models/dpd.pyx:69-85). -/
def loadDPDShared (c : Conv D F) (lvl : Nat) (raw : DPDSharedRaw D) :
    Act (DPD.Shared F) Unit := do
  Act.modify fun s => { s with gamma := c.narrow raw.gamma }
  Act.modify fun s => { s with alpha := c.narrow raw.alpha }
  Act.modify fun s => { s with betas := .empty, counts := SparseCounter.clear s.counts }
  let beta0 ← loadBetas c lvl raw.betas c.one
  Act.modify fun s => { s with beta0 := c.narrow beta0 }
  loadCounts raw.counts

/-- `Shared.dump` (distributions/lp/models/dpd.pyx:87-103); `ks` is the visiting order of
`betas`.  `cdef int value` makes the keys signed. -/
def dumpDPDShared (c : Conv D F) (ks : List UInt32) (s : DPD.Shared F) : DPDSharedRaw D :=
  let es := s.betas.entries ks
  ⟨c.widen s.gamma, c.widen s.alpha, es.map fun e => (ofU32 e.1, c.widen e.2),
    es.map fun e => (ofU32 e.1, s.counts.getCount (toU32 (ofU32 e.1)))⟩

/-- The loop of `Shared.protobuf_load` (distributions/lp/models/dpd.pyx:114-119): as many
rounds as there are betas, `IndexError` when another list is shorter. -/
def pbLoadDPDLoop (c : Conv D F) (lvl : Nat) :
    List UInt32 → List F → List UInt64 → D → Act (DPD.Shared F) D
  | _, [], _, beta0 => pure beta0
  | v :: vs, b :: bs, ns, beta0 => do
    let value ← Act.lift (asInt (v.toNat : Int))
    let beta := c.narrow (c.widen b)
    let s ← Act.get
    let m ← Act.lift (Sparse.add lvl s.betas (toU32 value) beta)
    Act.modify fun s => { s with betas := m }
    let n ← Act.lift (match ns with
      | [] => Res.fail
      | n :: _ => asInt (n.toNat : Int))
    let (_, m) ← Act.lift (s.counts.add (toU32 value) n)
    Act.modify fun s => { s with counts := m }
    pbLoadDPDLoop c lvl vs bs ns.tail (c.sub beta0 (c.widen beta))
  | [], _ :: _, _, _ => Act.lift .fail

/-- `Shared.protobuf_load` (distributions/lp/models/dpd.pyx:105-120). -/
def pbLoadDPDShared (c : Conv D F) (lvl : Nat) (msg : Proto.DPDSharedMsg F) :
    Act (DPD.Shared F) Unit := do
  Act.modify fun s => { s with gamma := c.narrow (c.widen msg.gamma) }
  Act.modify fun s => { s with alpha := c.narrow (c.widen msg.alpha) }
  Act.modify fun s => { s with betas := .empty, counts := SparseCounter.clear s.counts }
  let beta0 ← pbLoadDPDLoop c lvl msg.values msg.betas msg.counts c.one
  Act.modify fun s => { s with beta0 := c.narrow beta0 }

/-- The loop of `Shared.protobuf_dump` (distributions/lp/models/dpd.pyx:129-134). -/
def pbDumpDPDLoop (c : Conv D F) (counts : SparseCounter UInt32) :
    List (UInt32 × F) → Proto.DPDSharedMsg F → Res (Proto.DPDSharedMsg F)
  | [], msg => .ok msg
  | e :: es, msg => do
    let v ← asField 32 (ofU32 e.1)
    let n ← asField 64 (counts.getCount (toU32 (ofU32 e.1)))
    pbDumpDPDLoop c counts es { msg with
      values := msg.values ++ [UInt32.ofNat v],
      betas := msg.betas ++ [c.narrow (c.widen e.2)],
      counts := msg.counts ++ [UInt64.ofNat n] }

/-- `Shared.protobuf_dump` (distributions/lp/models/dpd.pyx:122-134). -/
def pbDumpDPDShared (c : Conv D F) (ks : List UInt32) (s : DPD.Shared F)
    (_msg : Proto.DPDSharedMsg F) : Res (Proto.DPDSharedMsg F) :=
  pbDumpDPDLoop c s.counts (s.betas.entries ks)
    ⟨c.narrow (c.widen s.gamma), c.narrow (c.widen s.alpha), [], [], []⟩

/-- The loop of `Group.load` (distributions/lp/models/dpd.pyx:149-150). -/
def loadDPDGroupLoop (lvl : Nat) : List (Int × Int) → Act DPD.Group Unit
  | [] => pure ()
  | (z, n) :: es => do
    let value ← Act.lift (asInt z)
    let count ← Act.lift (asInt n)
    let g ← Act.get
    let g ← Act.lift (g.initCount lvl (toU32 value) count)
    Act.modify fun _ => g
    loadDPDGroupLoop lvl es

/-- `Group.load` (distributions/lp/models/dpd.pyx:143-150). -/
def loadDPDGroup (lvl : Nat) (counts : List (Int × Int)) : Act DPD.Group Unit := do
  Act.modify fun g => SparseCounter.clear g
  loadDPDGroupLoop lvl counts

/-- `Group.dump` (distributions/lp/models/dpd.pyx:152-159): the keys come out unsigned. -/
def dumpDPDGroup (ks : List UInt32) (g : DPD.Group) : List (Int × Int) :=
  (g.map.entries ks).map fun e => ((e.1.toNat : Int), e.2)

/-! ## Normal-Inverse-Wishart

Eigen vectors are lists, matrices lists of rows; the shape of the arrays is not checked. -/

/-- `Shared` (niw.hpp:76-80), or its dictionary. -/
structure NIWShared (F : Type) where
  mu : List F
  kappa : F
  psi : List (List F)
  nu : F

/-- The message (distributions/io/schema.proto:146-151). -/
structure NIWMsg (F : Type) where
  mu : List F
  kappa : F
  psi : List F
  nu : F

/-- `numpy.reshape((n, d))` of a flat array: rows of `d` entries. -/
def rows {α : Type} (d : Nat) : Nat → List α → List (List α)
  | 0, _ => []
  | n + 1, l => l.take d :: rows d n (l.drop d)

/-- `Shared.load` (distributions/lp/models/niw.pyx:105-111). -/
def loadNIWShared (c : Conv D F) (raw : NIWShared D) : Act (NIWShared F) Unit := do
  Act.modify fun s => { s with mu := raw.mu.map c.narrow }
  Act.modify fun s => { s with kappa := c.narrow raw.kappa }
  Act.modify fun s => { s with psi := raw.psi.map fun r => r.map c.narrow }
  Act.modify fun s => { s with nu := c.narrow raw.nu }

/-- `Shared.dump` (distributions/lp/models/niw.pyx:113-119). -/
def dumpNIWShared (c : Conv D F) (s : NIWShared F) : NIWShared D :=
  ⟨s.mu.map c.widen, c.widen s.kappa, s.psi.map fun r => r.map c.widen, c.widen s.nu⟩

/-- `Shared.protobuf_load` (distributions/lp/models/niw.pyx:121-128): `reshape` raises
`ValueError` unless there are `D * D` entries. -/
def pbLoadNIWShared (c : Conv D F) (msg : NIWMsg F) : Act (NIWShared F) Unit := do
  Act.modify fun s => { s with mu := (msg.mu.map c.widen).map c.narrow }
  Act.modify fun s => { s with kappa := c.narrow (c.widen msg.kappa) }
  let d := msg.mu.length
  let psi ← Act.lift (if msg.psi.length = d * d then .ok (rows d d (msg.psi.map c.widen)) else .fail)
  Act.modify fun s => { s with psi := psi.map fun r => r.map c.narrow }
  Act.modify fun s => { s with nu := c.narrow (c.widen msg.nu) }

/-- `Shared.protobuf_dump` (distributions/lp/models/niw.pyx:130-138). -/
def pbDumpNIWShared (c : Conv D F) (s : NIWShared F) (_msg : NIWMsg F) : Res (NIWMsg F) :=
  .ok ⟨(s.mu.map c.widen).map c.narrow, c.narrow (c.widen s.kappa),
    ((s.psi.map fun r => r.map c.widen).flatten).map c.narrow, c.narrow (c.widen s.nu)⟩

/-! ## The clusterings -/

/-- `PitmanYor.load` (distributions/lp/clustering.pyx:164-170): checks the converted values,
then assigns. -/
def loadPitmanYor [FloatOps F] (c : Conv D F) (raw : Proto.PitmanYorMsg D) :
    Act (PitmanYor F) Unit := do
  let alpha := c.narrow raw.alpha
  let d := c.narrow raw.d
  Act.lift (if lt (ofInt 0) alpha = true then .ok () else .fail)
  Act.lift (if le (ofInt 0) d = true ∧ lt d (lit 1 1) = true then .ok () else .fail)
  Act.modify fun s => { s with alpha := alpha }
  Act.modify fun s => { s with d := d }

/-- `PitmanYor.__init__` without arguments (distributions/lp/clustering.pyx:149-154). -/
def initPitmanYor [FloatOps F] : PitmanYor F := ⟨lit 1 1, lit 0 1⟩

/-- `PitmanYor.dump` (distributions/lp/clustering.pyx:172-176). -/
def dumpPitmanYor (c : Conv D F) (s : PitmanYor F) : Proto.PitmanYorMsg D :=
  ⟨c.widen s.alpha, c.widen s.d⟩

/-- `PitmanYor.protobuf_load` (distributions/lp/clustering.pyx:262-263). -/
def pbLoadPitmanYor [FloatOps F] (c : Conv D F) (msg : Proto.PitmanYorMsg F) :
    Act (PitmanYor F) Unit :=
  loadPitmanYor c ⟨c.widen msg.alpha, c.widen msg.d⟩

/-- `PitmanYor.protobuf_dump` (distributions/lp/clustering.pyx:265-269). -/
def pbDumpPitmanYor (c : Conv D F) (s : PitmanYor F) (_msg : Proto.PitmanYorMsg F) :
    Res (Proto.PitmanYorMsg F) :=
  let dumped := dumpPitmanYor c s
  .ok ⟨c.narrow dumped.alpha, c.narrow dumped.d⟩

/-- `LowEntropy.load` (distributions/lp/clustering.pyx:294-297). -/
def loadLowEntropy (datasetSize : Int) : Act LowEntropy Unit := do
  let n ← Act.lift (asInt datasetSize)
  Act.lift (if 0 ≤ n then .ok () else .fail)
  Act.modify fun _ => ⟨n⟩

/-- `LowEntropy.dump` (distributions/lp/clustering.pyx:299-300). -/
def dumpLowEntropy (s : LowEntropy) : Int := s.datasetSize

/-- `LowEntropy.protobuf_load` (distributions/lp/clustering.pyx:385-386). -/
def pbLoadLowEntropy (msg : Proto.LowEntropyMsg) : Act LowEntropy Unit :=
  loadLowEntropy (msg.datasetSize.toNat : Int)

/-- Assignment to a field of a message: `AttributeError` when the class has no such field. -/
def setField {M : Type} (fields : List (String × (Int → M → Res M))) (name : String) (z : Int)
    (m : M) : Res M :=
  match fields.lookup name with
  | some f => f z m
  | none => .fail

/-- The fields of `Clustering.LowEntropy` (distributions/io/schema.proto:41-44). -/
def lowEntropyFields : List (String × (Int → Option UInt64 → Res (Option UInt64))) :=
  [("dataset_size", fun z _ => do
    let n ← asField 64 z
    return some (UInt64.ofNat n))]

/-- `LowEntropy.protobuf_dump` (distributions/lp/clustering.pyx:388-391), on a message whose
field may be unset.  The field name is misspelt in the code. -/
def pbDumpLowEntropy (s : LowEntropy) (_msg : Option UInt64) : Res (Option UInt64) :=
  let dumped := dumpLowEntropy s
  setField lowEntropyFields "datset_size" dumped none

end Dist.Py
