import Verif.Model.Dbg
import Verif.Model.PyIo

/-! # Input and output of the reference classes (distributions/dbg/models)

`load`, `dump`, `protobuf_load` and `protobuf_dump` of all reference classes except the
Dirichlet-process one (`Verif.Model.DbgDPD`).  Integers are `Int`, Python floats have a type `D`,
the `float` fields of a message a type `G`.  Loading is an `Act` on the object and writing one on
the message: an exception leaves what the statements before it wrote.  A missing entry of a
dictionary and entries of a wrong type are not modelled. -/

namespace Dist.DbgIo

open FloatOps
open Dist.Py (Conv asField)

variable {D G M : Type}

/-- `message.field = value` for a `uint64` field: `ValueError` when it does not fit. -/
def setU64 (z : Int) (put : UInt64 → M → M) : Act M Unit := do
  let n ← Act.lift (asField 64 z)
  Act.modify (put (UInt64.ofNat n))

/-! ## Beta-Bernoulli (distributions/dbg/models/bb.py) -/

/-- `Shared.load` (distributions/dbg/models/bb.py:52-54). -/
def loadBBShared (raw : Proto.BBSharedMsg D) : Act (BB.Shared D) Unit := do
  Act.modify fun s => { s with alpha := raw.alpha }
  Act.modify fun s => { s with beta := raw.beta }

/-- `Shared.dump` (distributions/dbg/models/bb.py:56-60). -/
def dumpBBShared (s : BB.Shared D) : Proto.BBSharedMsg D := ⟨s.alpha, s.beta⟩

/-- `Shared.protobuf_load` (distributions/dbg/models/bb.py:62-64). -/
def pbLoadBBShared (c : Conv D G) (msg : Proto.BBSharedMsg G) : Act (BB.Shared D) Unit := do
  Act.modify fun s => { s with alpha := c.widen msg.alpha }
  Act.modify fun s => { s with beta := c.widen msg.beta }

/-- `Shared.protobuf_dump` (distributions/dbg/models/bb.py:66-68). -/
def pbDumpBBShared (c : Conv D G) (s : BB.Shared D) : Act (Proto.BBSharedMsg G) Unit := do
  Act.modify fun m => { m with alpha := c.narrow s.alpha }
  Act.modify fun m => { m with beta := c.narrow s.beta }

/-- `Group.load` (distributions/dbg/models/bb.py:132-134). -/
def loadBBGroup (raw : Py.BBGroupRaw) : Act Dbg.BB.Group Unit := do
  Act.modify fun g => { g with heads := raw.heads }
  Act.modify fun g => { g with tails := raw.tails }

/-- `Group.dump` (distributions/dbg/models/bb.py:136-140). -/
def dumpBBGroup (g : Dbg.BB.Group) : Py.BBGroupRaw := ⟨g.heads, g.tails⟩

/-- `Group.protobuf_load` (distributions/dbg/models/bb.py:142-144). -/
def pbLoadBBGroup (msg : Proto.BBGroupMsg) : Act Dbg.BB.Group Unit := do
  Act.modify fun g => { g with heads := msg.heads.toNat }
  Act.modify fun g => { g with tails := msg.tails.toNat }

/-- `Group.protobuf_dump` (distributions/dbg/models/bb.py:146-148). -/
def pbDumpBBGroup (g : Dbg.BB.Group) : Act Proto.BBGroupMsg Unit := do
  setU64 g.heads fun n m => { m with heads := n }
  setU64 g.tails fun n m => { m with tails := n }

/-! ## Beta-Negative-Binomial (distributions/dbg/models/bnb.py) -/

/-- `Shared.load` (distributions/dbg/models/bnb.py:72-75). -/
def loadBNBShared (raw : Py.BNBSharedRaw D) : Act (Dbg.BNB.Shared D) Unit := do
  Act.modify fun s => { s with alpha := raw.alpha }
  Act.modify fun s => { s with beta := raw.beta }
  Act.modify fun s => { s with r := raw.r }

/-- `Shared.dump` (distributions/dbg/models/bnb.py:77-82). -/
def dumpBNBShared (s : Dbg.BNB.Shared D) : Py.BNBSharedRaw D := ⟨s.alpha, s.beta, s.r⟩

/-- `Shared.protobuf_load` (distributions/dbg/models/bnb.py:84-87). -/
def pbLoadBNBShared (c : Conv D G) (msg : Proto.BNBSharedMsg G) : Act (Dbg.BNB.Shared D) Unit := do
  Act.modify fun s => { s with alpha := c.widen msg.alpha }
  Act.modify fun s => { s with beta := c.widen msg.beta }
  Act.modify fun s => { s with r := msg.r.toNat }

/-- `Shared.protobuf_dump` (distributions/dbg/models/bnb.py:89-93); clearing matters only when `r`
does not fit, and `cleared` is the cleared message. -/
def pbDumpBNBShared (c : Conv D G) (cleared : Proto.BNBSharedMsg G) (s : Dbg.BNB.Shared D) :
    Act (Proto.BNBSharedMsg G) Unit := do
  Act.modify fun _ => cleared
  Act.modify fun m => { m with alpha := c.narrow s.alpha }
  Act.modify fun m => { m with beta := c.narrow s.beta }
  setU64 s.r fun n m => { m with r := n }

/-- `Group.load` (distributions/dbg/models/bnb.py:150-152). -/
def loadBNBGroup (raw : Py.BNBGroupRaw) : Act Dbg.BNB.Group Unit := do
  Act.modify fun g => { g with count := raw.count }
  Act.modify fun g => { g with sum := raw.sum }

/-- `Group.dump` (distributions/dbg/models/bnb.py:144-148). -/
def dumpBNBGroup (g : Dbg.BNB.Group) : Py.BNBGroupRaw := ⟨g.count, g.sum⟩

/-- `Group.protobuf_load` (distributions/dbg/models/bnb.py:154-156). -/
def pbLoadBNBGroup (msg : Proto.BNBGroupMsg) : Act Dbg.BNB.Group Unit := do
  Act.modify fun g => { g with count := msg.count.toNat }
  Act.modify fun g => { g with sum := msg.sum.toNat }

/-- `Group.protobuf_dump` (distributions/dbg/models/bnb.py:158-160). -/
def pbDumpBNBGroup (g : Dbg.BNB.Group) : Act Proto.BNBGroupMsg Unit := do
  setU64 g.count fun n m => { m with count := n }
  setU64 g.sum fun n m => { m with sum := n }

/-! ## Gamma-Poisson (distributions/dbg/models/gp.py) -/

/-- `Shared.load` (distributions/dbg/models/gp.py:54-56). -/
def loadGPShared (raw : Proto.GPSharedMsg D) : Act (GP.Shared D) Unit := do
  Act.modify fun s => { s with alpha := raw.alpha }
  Act.modify fun s => { s with invBeta := raw.invBeta }

/-- `Shared.dump` (distributions/dbg/models/gp.py:58-62). -/
def dumpGPShared (s : GP.Shared D) : Proto.GPSharedMsg D := ⟨s.alpha, s.invBeta⟩

/-- `Shared.protobuf_load` (distributions/dbg/models/gp.py:64-66). -/
def pbLoadGPShared (c : Conv D G) (msg : Proto.GPSharedMsg G) : Act (GP.Shared D) Unit := do
  Act.modify fun s => { s with alpha := c.widen msg.alpha }
  Act.modify fun s => { s with invBeta := c.widen msg.invBeta }

/-- `Shared.protobuf_dump` (distributions/dbg/models/gp.py:68-71); every field is written, so
clearing first makes no difference. -/
def pbDumpGPShared (c : Conv D G) (s : GP.Shared D) : Act (Proto.GPSharedMsg G) Unit := do
  Act.modify fun m => { m with alpha := c.narrow s.alpha }
  Act.modify fun m => { m with invBeta := c.narrow s.invBeta }

/-- `Group.load` (distributions/dbg/models/gp.py:124-127). -/
def loadGPGroup (raw : Py.GPGroupRaw D) : Act (Dbg.GP.Group D) Unit := do
  Act.modify fun g => { g with count := raw.count }
  Act.modify fun g => { g with sum := raw.sum }
  Act.modify fun g => { g with logProd := raw.logProd }

/-- `Group.dump` (distributions/dbg/models/gp.py:129-134). -/
def dumpGPGroup (g : Dbg.GP.Group D) : Py.GPGroupRaw D := ⟨g.count, g.sum, g.logProd⟩

/-- `Group.protobuf_load` (distributions/dbg/models/gp.py:136-139). -/
def pbLoadGPGroup (c : Conv D G) (msg : Proto.GPGroupMsg G) : Act (Dbg.GP.Group D) Unit := do
  Act.modify fun g => { g with count := msg.count.toNat }
  Act.modify fun g => { g with sum := msg.sum.toNat }
  Act.modify fun g => { g with logProd := c.widen msg.logProd }

/-- `Group.protobuf_dump` (distributions/dbg/models/gp.py:141-144). -/
def pbDumpGPGroup (c : Conv D G) (g : Dbg.GP.Group D) : Act (Proto.GPGroupMsg G) Unit := do
  setU64 g.count fun n m => { m with count := n }
  setU64 g.sum fun n m => { m with sum := n }
  Act.modify fun m => { m with logProd := c.narrow g.logProd }

/-! ## Normal-Inverse-ChiSq (distributions/dbg/models/nich.py) -/

/-- `Shared.load` (distributions/dbg/models/nich.py:95-99). -/
def loadNICHShared (raw : Proto.NICHSharedMsg D) : Act (NICH.Shared D) Unit := do
  Act.modify fun s => { s with mu := raw.mu }
  Act.modify fun s => { s with kappa := raw.kappa }
  Act.modify fun s => { s with sigmasq := raw.sigmasq }
  Act.modify fun s => { s with nu := raw.nu }

/-- `Shared.dump` (distributions/dbg/models/nich.py:101-107). -/
def dumpNICHShared (s : NICH.Shared D) : Proto.NICHSharedMsg D := ⟨s.mu, s.kappa, s.sigmasq, s.nu⟩

/-- `Shared.protobuf_load` (distributions/dbg/models/nich.py:109-113). -/
def pbLoadNICHShared (c : Conv D G) (msg : Proto.NICHSharedMsg G) : Act (NICH.Shared D) Unit := do
  Act.modify fun s => { s with mu := c.widen msg.mu }
  Act.modify fun s => { s with kappa := c.widen msg.kappa }
  Act.modify fun s => { s with sigmasq := c.widen msg.sigmasq }
  Act.modify fun s => { s with nu := c.widen msg.nu }

/-- `Shared.protobuf_dump` (distributions/dbg/models/nich.py:115-120); every field is written, so
clearing first makes no difference. -/
def pbDumpNICHShared (c : Conv D G) (s : NICH.Shared D) : Act (Proto.NICHSharedMsg G) Unit := do
  Act.modify fun m => { m with mu := c.narrow s.mu }
  Act.modify fun m => { m with kappa := c.narrow s.kappa }
  Act.modify fun m => { m with sigmasq := c.narrow s.sigmasq }
  Act.modify fun m => { m with nu := c.narrow s.nu }

/-- `Group.load` (distributions/dbg/models/nich.py:196-199). -/
def loadNICHGroup (raw : Py.NICHGroupRaw D) : Act (NICH.Group D) Unit := do
  Act.modify fun g => { g with count := raw.count }
  Act.modify fun g => { g with mean := raw.mean }
  Act.modify fun g => { g with countTimesVariance := raw.countTimesVariance }

/-- `Group.dump` (distributions/dbg/models/nich.py:201-206). -/
def dumpNICHGroup (g : NICH.Group D) : Py.NICHGroupRaw D := ⟨g.count, g.mean, g.countTimesVariance⟩

/-- `Group.protobuf_load` (distributions/dbg/models/nich.py:208-211). -/
def pbLoadNICHGroup (c : Conv D G) (msg : Proto.NICHGroupMsg G) : Act (NICH.Group D) Unit := do
  Act.modify fun g => { g with count := msg.count.toNat }
  Act.modify fun g => { g with mean := c.widen msg.mean }
  Act.modify fun g => { g with countTimesVariance := c.widen msg.countTimesVariance }

/-- `Group.protobuf_dump` (distributions/dbg/models/nich.py:213-216). -/
def pbDumpNICHGroup (c : Conv D G) (g : NICH.Group D) : Act (Proto.NICHGroupMsg G) Unit := do
  setU64 g.count fun n m => { m with count := n }
  Act.modify fun m => { m with mean := c.narrow g.mean }
  Act.modify fun m => { m with countTimesVariance := c.narrow g.countTimesVariance }

/-! ## Dirichlet-Discrete (distributions/dbg/models/dd.py)

The parameters are the array `alphas`, a group is the array `counts` of 64-bit integers. -/

/-- `Shared.load` (distributions/dbg/models/dd.py:60-61). -/
def loadDDShared (raw : List D) : Act (List D) Unit := Act.modify fun _ => raw

/-- `Shared.dump` (distributions/dbg/models/dd.py:63-64). -/
def dumpDDShared (s : List D) : List D := s

/-- `Shared.protobuf_load` (distributions/dbg/models/dd.py:66-67). -/
def pbLoadDDShared (c : Conv D G) (msg : Proto.DDSharedMsg G) : Act (List D) Unit :=
  Act.modify fun _ => msg.alphas.map c.widen

/-- The loop of `Shared.protobuf_dump` (distributions/dbg/models/dd.py:71-72). -/
def pbDumpDDSharedLoop (c : Conv D G) : List D → Act (Proto.DDSharedMsg G) Unit
  | [] => pure ()
  | a :: as => do
    Act.modify fun m => ⟨m.alphas ++ [c.narrow a]⟩
    pbDumpDDSharedLoop c as

/-- `Shared.protobuf_dump` (distributions/dbg/models/dd.py:69-72). -/
def pbDumpDDShared (c : Conv D G) (s : List D) : Act (Proto.DDSharedMsg G) Unit := do
  Act.modify fun _ => ⟨[]⟩
  pbDumpDDSharedLoop c s

/-- `numpy.array(values, dtype=numpy.int)`: `OverflowError` when a number needs more than 64 bits. -/
def intArray (values : List Int) : Res (List Int) :=
  if ∀ z ∈ values, -2 ^ 63 ≤ z ∧ z < 2 ^ 63 then .ok values else .fail

/-- `Group.load` (distributions/dbg/models/dd.py:125-126). -/
def loadDDGroup (raw : List Int) : Act (List Int) Unit := do
  let counts ← Act.lift (intArray raw)
  Act.modify fun _ => counts

/-- `Group.dump` (distributions/dbg/models/dd.py:128-129). -/
def dumpDDGroup (g : List Int) : List Int := g

/-- `Group.protobuf_load` (distributions/dbg/models/dd.py:131-132). -/
def pbLoadDDGroup (msg : Proto.DDGroupMsg) : Act (List Int) Unit := do
  let counts ← Act.lift (intArray (msg.counts.map fun n => (n.toNat : Int)))
  Act.modify fun _ => counts

/-- The loop of `Group.protobuf_dump` (distributions/dbg/models/dd.py:136-137). -/
def pbDumpDDGroupLoop : List Int → Act Proto.DDGroupMsg Unit
  | [] => pure ()
  | z :: zs => do
    setU64 z fun n m => ⟨m.counts ++ [n]⟩
    pbDumpDDGroupLoop zs

/-- `Group.protobuf_dump` (distributions/dbg/models/dd.py:134-137). -/
def pbDumpDDGroup (g : List Int) : Act Proto.DDGroupMsg Unit := do
  Act.modify fun _ => ⟨[]⟩
  pbDumpDDGroupLoop g

/-! ## Normal-Inverse-Wishart (distributions/dbg/models/niw.py) -/

/-- A numpy array: its shape and its entries in row-major order. -/
structure Arr (D : Type) where
  shape : List Nat
  data : List D

/-- As many entries as the shape says. -/
def Arr.Ok (a : Arr D) : Prop := a.data.length = a.shape.prod

/-- `Shared` (distributions/dbg/models/niw.py:98-103). -/
structure NIWShared (D : Type) where
  mu : Arr D
  kappa : D
  psi : Arr D
  nu : D

/-- `Group` (distributions/dbg/models/niw.py:165-170). -/
structure NIWGroup (D : Type) where
  count : Int
  sumX : Arr D
  sumXXT : Arr D

/-- `a.shape[i]`: `IndexError` without that axis. -/
def Arr.axis (a : Arr D) (i : Nat) : Res Nat :=
  match a.shape[i]? with
  | some n => .ok n
  | none => .fail

/-- `assert`. -/
def require {σ : Type} (b : Bool) : Act σ Unit := Act.lift (if b then .ok () else .fail)

/-- `np.array(values, dtype=np.float)`. -/
def floatArray (values : List D) : Arr D := ⟨[values.length], values⟩

/-- `a.reshape((n, n))`: `ValueError` when the number of entries differs. -/
def Arr.square (a : Arr D) (n : Nat) : Res (Arr D) :=
  if a.data.length = n * n then .ok ⟨[n, n], a.data⟩ else .fail

/-- `Shared.load` (distributions/dbg/models/niw.py:125-134). -/
def loadNIWShared [FloatOps D] (raw : NIWShared D) : Act (NIWShared D) Unit := do
  Act.modify fun s => { s with mu := raw.mu }
  require (raw.mu.shape.length = 1)
  Act.modify fun s => { s with kappa := raw.kappa }
  require (lt (lit 0 1) raw.kappa)
  Act.modify fun s => { s with psi := raw.psi }
  let m ← Act.lift (raw.mu.axis 0)
  let p ← Act.lift (raw.psi.axis 0)
  require (m = p)
  let q ← Act.lift (raw.psi.axis 1)
  require (p = q)
  Act.modify fun s => { s with nu := raw.nu }
  require (le (ofInt m) raw.nu)

/-- `Shared.dump` (distributions/dbg/models/niw.py:136-142). -/
def dumpNIWShared (s : NIWShared D) : NIWShared D := ⟨s.mu, s.kappa, s.psi, s.nu⟩

/-- `Shared.protobuf_load` (distributions/dbg/models/niw.py:144-152). -/
def pbLoadNIWShared [FloatOps D] (c : Conv D G) (msg : Proto.NIWSharedMsg G) :
    Act (NIWShared D) Unit := do
  Act.modify fun s => { s with mu := floatArray (msg.mu.map c.widen) }
  Act.modify fun s => { s with kappa := c.widen msg.kappa }
  let psi := floatArray (msg.psi.map c.widen)
  Act.modify fun s => { s with psi := psi }
  let d := msg.mu.length
  require (msg.psi.length = d * d)
  let psi ← Act.lift (psi.square d)
  Act.modify fun s => { s with psi := psi }
  Act.modify fun s => { s with nu := c.widen msg.nu }
  require (le (ofInt d) (c.widen msg.nu))

/-- What `for x in a: field.append(x)` appends; an element that is an array is a `TypeError`, and
so is iterating over an array without axes. -/
def Arr.items (a : Arr D) : Res (List D) :=
  match a.shape with
  | [_] => .ok a.data
  | 0 :: _ => .ok []
  | _ => .fail

/-- What `for x in a: for y in x: field.append(y)` appends. -/
def Arr.items2 (a : Arr D) : Res (List D) :=
  match a.shape with
  | [_, _] => .ok a.data
  | 0 :: _ => .ok []
  | _ :: 0 :: _ => .ok []
  | _ => .fail

/-- `Shared.protobuf_dump` (distributions/dbg/models/niw.py:154-162); `cleared` is the cleared
message. -/
def pbDumpNIWShared (c : Conv D G) (cleared : Proto.NIWSharedMsg G) (s : NIWShared D) :
    Act (Proto.NIWSharedMsg G) Unit := do
  Act.modify fun _ => { cleared with mu := [], psi := [] }
  let mu ← Act.lift s.mu.items
  Act.modify fun m => { m with mu := m.mu ++ mu.map c.narrow }
  Act.modify fun m => { m with kappa := c.narrow s.kappa }
  let psi ← Act.lift s.psi.items2
  Act.modify fun m => { m with psi := m.psi ++ psi.map c.narrow }
  Act.modify fun m => { m with nu := c.narrow s.nu }

/-- `Group.load` (distributions/dbg/models/niw.py:224-230). -/
def loadNIWGroup (raw : NIWGroup D) : Act (NIWGroup D) Unit := do
  Act.modify fun g => { g with count := raw.count }
  require (0 ≤ raw.count)
  Act.modify fun g => { g with sumX := raw.sumX }
  Act.modify fun g => { g with sumXXT := raw.sumXXT }
  let d ← Act.lift (raw.sumX.axis 0)
  require (raw.sumXXT.shape = [d, d])

/-- `Group.dump` (distributions/dbg/models/niw.py:232-237). -/
def dumpNIWGroup (g : NIWGroup D) : NIWGroup D := ⟨g.count, g.sumX, g.sumXXT⟩

/-- `Group.protobuf_load` (distributions/dbg/models/niw.py:239-244). -/
def pbLoadNIWGroup (c : Conv D G) (msg : Proto.NIWGroupMsg G) : Act (NIWGroup D) Unit := do
  Act.modify fun g => { g with count := msg.count }
  Act.modify fun g => { g with sumX := floatArray (msg.sumX.map c.widen) }
  let s := floatArray (msg.sumXXT.map c.widen)
  Act.modify fun g => { g with sumXXT := s }
  let s ← Act.lift (s.square msg.sumX.length)
  Act.modify fun g => { g with sumXXT := s }

/-- `Group.protobuf_dump` (distributions/dbg/models/niw.py:246-253); the field is an `int32`. -/
def pbDumpNIWGroup (c : Conv D G) (cleared : Proto.NIWGroupMsg G) (g : NIWGroup D) :
    Act (Proto.NIWGroupMsg G) Unit := do
  Act.modify fun _ => { cleared with sumX := [], sumXXT := [] }
  let n ← Act.lift (Py.asInt g.count)
  Act.modify fun m => { m with count := n }
  let x ← Act.lift g.sumX.items
  Act.modify fun m => { m with sumX := m.sumX ++ x.map c.narrow }
  let s ← Act.lift g.sumXXT.items2
  Act.modify fun m => { m with sumXXT := m.sumXXT ++ s.map c.narrow }

end Dist.DbgIo
