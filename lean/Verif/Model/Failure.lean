import Verif.Base.Act
import Verif.Model.DD
import Verif.Model.DPD
import Verif.Model.Driver
import Verif.Model.IdTracker
import Verif.Model.NICH
import Verif.Model.Protobuf

/-! # Statement by statement versions of the functions that can fail

Each function below performs the assignments of the code in the order of the code, so
that the object left behind by a failed check is the one the code leaves behind.
`Props/Failure.lean` proves that apart from that object they are the functions of the
other model files. -/

namespace Dist.Imp

open FloatOps FloatNotation

/-! ## `Sparse_` (include/distributions/sparse.hpp:37-108) -/

namespace Sparse

variable {K V : Type} [DecidableEq K]

/-- `Sparse_::add(key, value)` (sparse.hpp:62-65). -/
def add (lvl : Nat) (k : K) (v : V) : Act (FMap K V) Unit := do
  let m ← Act.get
  let inserted := !m.contains k
  if inserted then Act.modify (·.set k v)
  Act.check lvl 1 (inserted = true)

/-- `Sparse_::remove(key)` (sparse.hpp:67-70). -/
def remove (lvl : Nat) (k : K) : Act (FMap K V) Unit := do
  let m ← Act.get
  let removed := m.contains k
  Act.modify (·.erase k)
  Act.check lvl 1 (removed = true)

/-- `Sparse_::pop(key)` (sparse.hpp:72-78). -/
def pop (lvl : Nat) (k : K) : Act (FMap K V) V := do
  let m ← Act.get
  Act.check lvl 1 (m.contains k = true)
  match m.lookup k with
  | some v => do
    Act.modify (·.erase k)
    return v
  | none => Act.lift .ub

/-- `Sparse_::set(key, value)` (sparse.hpp:80-84). -/
def set (lvl : Nat) (k : K) (v : V) : Act (FMap K V) Unit := do
  let m ← Act.get
  Act.check lvl 1 (m.contains k = true)
  match m.lookup k with
  | some _ => Act.modify (·.set k v)
  | none => Act.lift .ub

end Sparse

/-! ## `SparseCounter` (sparse.hpp:111-182) -/

namespace SparseCounter

variable {K : Type} [DecidableEq K]

/-- `total_ += value`. -/
def bump (value : Int) : Act (SparseCounter K) Unit := do
  let c ← Act.get
  let t ← Act.lift (SparseCounter.bumpTotal c.total value)
  Act.modify fun c => ⟨c.map, some t⟩

/-- `init_count(key, value)` (sparse.hpp:128-134). -/
def initCount (lvl : Nat) (k : K) (value : Int) : Act (SparseCounter K) Unit := do
  if value ≠ 0 then
    let c ← Act.get
    let success := !c.map.contains k
    if success then Act.modify fun c => ⟨c.map.set k value, c.total⟩
    Act.check lvl 1 (success = true)
    bump value

/-- `add(key, value)` (sparse.hpp:143-159). -/
def add (k : K) (value : Int) : Act (SparseCounter K) Int := do
  if value ≠ 0 then
    bump value
    let c ← Act.get
    match c.map.lookup k with
    | none => do
      Act.modify fun c => ⟨c.map.set k value, c.total⟩
      return value
    | some old => do
      let value ← Act.lift (i32 (old + value))
      Act.modify fun c => ⟨c.map.set k value, c.total⟩
      if value = 0 then Act.modify fun c => ⟨c.map.erase k, c.total⟩
      return value
  else
    let c ← Act.get
    return c.getCount k

/-- `remove(key)` (sparse.hpp:161). -/
def remove (k : K) : Act (SparseCounter K) Int := add k (-1)

/-- `rename(old_key, new_key)` (sparse.hpp:170-178). -/
def rename (lvl : Nat) (oldKey newKey : K) : Act (SparseCounter K) Unit := do
  let c ← Act.get
  match c.map.lookup oldKey with
  | none => return ()
  | some value => do
    Act.modify fun c => ⟨c.map.erase oldKey, c.total⟩
    let c ← Act.get
    let success := !c.map.contains newKey
    if success then Act.modify fun c => ⟨c.map.set newKey value, c.total⟩
    Act.check lvl 1 (success = true)

end SparseCounter

/-! ## `MixtureDriver` (include/distributions/mixture.hpp:48-163) -/

namespace Driver

/-- The loop of `init` (mixture.hpp:63-69) from index `i` on. -/
def initLoop : List Int → Nat → Act Driver Unit
  | [], _ => return ()
  | c :: cs, i => do
    let d ← Act.get
    let s ← Act.lift d.getSampleSize
    let s ← Act.lift (i32 (s + c))
    Act.modify fun d => { d with sampleSize := some s }
    if c = 0 then Act.modify fun d => { d with emptyIds := insert i d.emptyIds }
    initLoop cs (i + 1)

/-- `_validate()` (mixture.hpp:152-162). -/
def validate (lvl : Nat) : Act Driver Unit := do
  let d ← Act.get
  Act.lift (d.validate lvl)

/-- `init(model)` (mixture.hpp:59-71). -/
def init (lvl : Nat) : Act Driver Unit := do
  Act.modify fun d => { d with emptyIds := ∅ }
  Act.modify fun d => { d with sampleSize := some 0 }
  let d ← Act.get
  initLoop d.counts 0
  validate lvl

/-- `add_value(model, groupid, count)` (mixture.hpp:73-92). -/
def addValue (lvl : Nat) (groupid : Nat) (count : Int) : Act Driver Bool := do
  Act.check lvl 1 (count ≠ 0)
  let d ← Act.get
  Act.check lvl 2 (groupid < d.counts.length)
  let old ← Act.lift (getAt d.counts groupid)
  let addGroup : Bool := old == 0
  let new ← Act.lift (i32 (old + count))
  let counts ← Act.lift (setAt d.counts groupid new)
  Act.modify fun d => { d with counts := counts }
  let s ← Act.lift d.getSampleSize
  let s ← Act.lift (i32 (s + count))
  Act.modify fun d => { d with sampleSize := some s }
  if addGroup then
    Act.modify fun d => { d with emptyIds := d.emptyIds.erase groupid }
    Act.modify fun d => { d with emptyIds := insert d.counts.length d.emptyIds }
    Act.modify fun d => { d with counts := d.counts ++ [0] }
    validate lvl
  return addGroup

/-- `remove_value(model, groupid, count)` (mixture.hpp:94-122). -/
def removeValue (lvl : Nat) (groupid : Nat) (count : Int) : Act Driver Bool := do
  Act.check lvl 1 (count ≠ 0)
  let d ← Act.get
  Act.check lvl 2 (groupid < d.counts.length)
  let old ← Act.lift (getAt d.counts groupid)
  Act.check lvl 2 (old ≠ 0)
  Act.check lvl 2 (count ≤ old)
  let new ← Act.lift (i32 (old - count))
  let counts ← Act.lift (setAt d.counts groupid new)
  Act.modify fun d => { d with counts := counts }
  let s ← Act.lift d.getSampleSize
  let s ← Act.lift (i32 (s - count))
  Act.modify fun d => { d with sampleSize := some s }
  let removeGroup : Bool := new == 0
  if removeGroup then
    let groupCount := counts.length - 1
    let back ← Act.lift (backOf counts)
    if groupid ≠ groupCount then
      let counts' ← Act.lift (setAt counts groupid back)
      Act.modify fun d => { d with counts := counts' }
      if back = 0 then
        Act.modify fun d => { d with emptyIds := d.emptyIds.erase groupCount }
        Act.modify fun d => { d with emptyIds := insert groupid d.emptyIds }
    let d ← Act.get
    let counts'' ← Act.lift (popBack d.counts)
    Act.modify fun d => { d with counts := counts'' }
    validate lvl
  return removeGroup

end Driver

/-! ## `MixtureIdTracker::remove_group` (mixture.hpp:479-494) -/

namespace IdTracker

/-- `remove_group(packed)` (mixture.hpp:479-494). -/
def removeGroup (lvl : Nat) (packed : Nat) : Act IdTracker Unit := do
  let t ← Act.get
  Act.check lvl 1 (packed < t.packedToGlobal.length)
  let global ← Act.lift (getAt t.packedToGlobal packed)
  let gs ← Act.lift (if 1 ≤ lvl then t.getGlobalSize else .ok 0)
  Act.check lvl 1 (global < gs)
  Act.modify fun t => { t with globalToPacked := t.globalToPacked.erase global }
  -- `packed_remove` checks its argument before it changes the vector (vector.hpp:47-51)
  let p2g ← Act.lift (packedRemove lvl t.packedToGlobal packed)
  Act.modify fun t => { t with packedToGlobal := p2g }
  if packed ≠ p2g.length then
    let t ← Act.get
    let global ← Act.lift (getAt t.packedToGlobal packed)
    Act.check lvl 1 (global < gs)
    Act.check lvl 1 (t.globalToPacked.contains global = true)
    if t.globalToPacked.contains global then
      Act.modify fun t => { t with globalToPacked := t.globalToPacked.set global packed }
    else Act.lift .ub

/-- `add_group()` (mixture.hpp:472-477): nothing can fail. -/
def addGroup : Act IdTracker Unit := do
  let t ← Act.get
  let t ← Act.lift t.addGroup
  Act.modify fun _ => t

end IdTracker

/-! ## Groups -/

/-- `DirichletDiscrete::Group::add_repeated_value` (dd.hpp:132-140); with `count = 1` and
`count = -1` the statements of `add_value` and `remove_value` (dd.hpp:123-130, 142-149). -/
def ddAdd (lvl : Nat) (value count : Int) : Act DD.Group Unit := do
  let g ← Act.get
  Act.check lvl 1 (value < g.counts.length)
  let s ← Act.lift (i32 (g.countSum + count))
  Act.modify fun g => { g with countSum := s }
  let c ← Act.lift (DD.readAt g.counts value)
  let c ← Act.lift (i32 (c + count))
  let cs ← Act.lift (DD.writeAt g.counts value c)
  Act.modify fun g => { g with counts := cs }

section
variable {F σ : Type} [FloatOps F]

/-- `DirichletProcessDiscrete::Group::add_repeated_value` (dpd.hpp:197-205); with
`count = 1` and `count = -1` also `add_value` and `remove_value` (dpd.hpp:188-195,
207-214). -/
def dpdAdd (lvl : Nat) (sh : DPD.Shared F) (value : UInt32) (count : Int) :
    Act DPD.Group Unit := do
  Act.check lvl 1 (value ≠ DPD.other)
  Act.check lvl 1 (sh.betas.contains value = true)
  let _ ← SparseCounter.add value count

/-- `NormalInverseChiSq::Group::remove_value` (nich.hpp:146-165). -/
def nichRemove (value : F) : Act (NICH.Group F) Unit := do
  let g ← Act.get
  let total := g.mean * ofInt g.count
  let delta := value - g.mean
  Act.check 0 0 (0 < g.count)
  let count := g.count - 1
  Act.modify fun g => { g with count := count }
  if count = 0 then Act.modify fun g => { g with mean := lit 0 1 }
  else Act.modify fun g => { g with mean := (total - value) / ofInt count }
  if count ≤ 1 then Act.modify fun g => { g with countTimesVariance := lit 0 1 }
  else Act.modify fun g =>
    { g with countTimesVariance := g.countTimesVariance - delta * (value - g.mean) }

/-! ## Dirichlet-Process-Discrete hyperparameters (dpd.hpp:59-125)

The object is the `Shared` together with the generator handed to the call. -/

/-- Call a member function of `counts`. -/
def onCounts {α : Type} (x : Act (Dist.SparseCounter UInt32) α) : Act (DPD.Shared F) α :=
  Act.onMember (·.counts) (fun c sh => { sh with counts := c }) x

/-- Call a member function of `betas`. -/
def onBetas {α : Type} (x : Act (FMap UInt32 F) α) : Act (DPD.Shared F) α :=
  Act.onMember (·.betas) (fun b sh => { sh with betas := b }) x

/-- `Shared::add_value` (dpd.hpp:66-74).  `sample_beta_safe` checks its arguments before
it draws (random.hpp:115-117), so a failed call returns the generator as it was or as
the draw left it. -/
def dpdAddValue (lvl : Nat) (rng : Rng F σ) (value : UInt32) (s : σ) :
    Act (DPD.Shared F) σ := do
  Act.check lvl 1 (value ≠ DPD.other)
  let n ← onCounts (SparseCounter.add value 1)
  if n = 1 then
    let sh ← Act.get
    Act.check 0 0 (lt (ofInt 0) sh.beta0 = true)
    let (p, s) ← Act.lift (sampleBetaSafe rng s (lit 1 1) sh.gamma DPD.minBeta)
    let beta := sh.beta0 * p
    Act.modify fun sh => { sh with beta0 := DPD.Shared.maxf DPD.minBeta (sh.beta0 - beta) }
    onBetas (Sparse.add lvl value beta)
    return s
  else return s

/-- `Shared::remove_value` (dpd.hpp:76-81). -/
def dpdRemoveValue (lvl : Nat) (value : UInt32) : Act (DPD.Shared F) Unit := do
  Act.check lvl 1 (value ≠ DPD.other)
  let n ← onCounts (SparseCounter.remove value)
  if n = 0 then
    let beta ← onBetas (Sparse.pop lvl value)
    Act.modify fun sh => { sh with beta0 := DPD.Shared.minf (lit 1 1) (sh.beta0 + beta) }

/-- Body of the loop of `Shared::protobuf_load` (dpd.hpp:116-121). -/
def dpdLoadBody (lvl : Nat) (v : UInt32) (b : F) (count : Int) : Act (DPD.Shared F) Unit := do
  Act.check 0 0 (lt (ofInt 0) b = true)
  onBetas (Sparse.add lvl v b)
  let _ ← onCounts (SparseCounter.add v count)

/-- Loop of `Shared::protobuf_load` (dpd.hpp:115-122); returns `beta_sum`. -/
def dpdLoadLoop (lvl : Nat) : List UInt32 → List F → List UInt64 → F → Act (DPD.Shared F) F
  | v :: vs, b :: bs, c :: cs, sum => do
    dpdLoadBody lvl v b (Proto.u64ToInt c)
    dpdLoadLoop lvl vs bs cs (sum + b)
  | [], _, _, sum => return sum
  | _, _, _, _ => Act.lift .ub

/-- `Shared::protobuf_load` (dpd.hpp:104-125). -/
def dpdLoad (lvl : Nat) (msg : Proto.DPDSharedMsg F) : Act (DPD.Shared F) Unit := do
  Act.check 0 0 (msg.betas.length = msg.values.length)
  Act.check 0 0 (msg.counts.length = msg.values.length)
  Act.modify fun sh => { sh with gamma := msg.gamma }
  Act.modify fun sh => { sh with alpha := msg.alpha }
  Act.modify fun sh => { sh with betas := .empty }
  Act.modify fun sh => { sh with counts := sh.counts.clear }
  let sum ← dpdLoadLoop lvl msg.values msg.betas msg.counts (ofInt 0)
  Act.check 0 0 (le sum (lit 1 1 + lit 1 10000) = true)
  Act.modify fun sh => { sh with beta0 := DPD.Shared.maxf (ofInt 0) (lit 1 1 - sum) }

/-! ## Dirichlet-Discrete messages on the object as it lies in memory

`dim` and the array of `max_dim` entries are separate members (dd.hpp:57-59, 90-92), so
`dim` can say more than the array holds. -/

/-- `Shared` (dd.hpp:57-59). -/
structure DDShared (F : Type) where
  dim : Nat
  alphas : List F

/-- `Group` (dd.hpp:89-92). -/
structure DDGroup where
  dim : Nat
  countSum : Int
  counts : List Int

/-- Loop of `Shared::protobuf_load` (dd.hpp:65-67) from index `i` on. -/
def ddSharedLoop : List F → Nat → Act (DDShared F) Unit
  | [], _ => return ()
  | a :: as, i => do
    let m ← Act.get
    let l ← Act.lift (setAt m.alphas i a)
    Act.modify fun m => { m with alphas := l }
    ddSharedLoop as (i + 1)

/-- `Shared::protobuf_load` (dd.hpp:62-68). -/
def ddSharedLoad (msg : Proto.DDSharedMsg F) : Act (DDShared F) Unit := do
  Act.modify fun m => { m with dim := msg.alphas.length }
  let m ← Act.get
  Act.check 0 0 (m.dim ≤ m.alphas.length)
  ddSharedLoop msg.alphas 0

/-- `Shared::protobuf_dump` (dd.hpp:71-76): reads `dim` entries. -/
def ddSharedDump (m : DDShared F) : Res (Proto.DDSharedMsg F) := do
  let l ← (List.range m.dim).mapM fun i => getAt m.alphas i
  return ⟨l⟩

/-- Loop of `Group::protobuf_load` (dd.hpp:99-101) from index `i` on. -/
def ddGroupLoop : List UInt64 → Nat → Act DDGroup Unit
  | [], _ => return ()
  | x :: xs, i => do
    let m ← Act.get
    let l ← Act.lift (setAt m.counts i (Proto.u64ToInt x))
    Act.modify fun m => { m with counts := l }
    let s ← Act.lift (i32 (m.countSum + Proto.u64ToInt x))
    Act.modify fun m => { m with countSum := s }
    ddGroupLoop xs (i + 1)

/-- `Group::protobuf_load` (dd.hpp:95-102). -/
def ddGroupLoad (msg : Proto.DDGroupMsg) : Act DDGroup Unit := do
  Act.modify fun m => { m with dim := msg.counts.length }
  let m ← Act.get
  Act.check 0 0 (m.dim ≤ m.counts.length)
  Act.modify fun m => { m with countSum := 0 }
  ddGroupLoop msg.counts 0

/-- `Group::protobuf_dump` (dd.hpp:105-111). -/
def ddGroupDump (m : DDGroup) : Res Proto.DDGroupMsg := do
  let l ← (List.range m.dim).mapM fun i => getAt m.counts i
  return ⟨l.map Proto.intToU64⟩

/-- `Group::init` (dd.hpp:113-121) under a given `shared.dim`: writes that many entries. -/
def ddGroupInit (sharedDim : Nat) (m : DDGroup) : Res DDGroup := do
  if sharedDim ≤ m.counts.length then
    return ⟨sharedDim, 0, List.replicate sharedDim 0 ++ m.counts.drop sharedDim⟩
  else .ub

end

/-! ## `MixtureSlave` (mixture.hpp:340-450) for arbitrary groups and value scorer -/

section
variable {S G V : Type}

/-- `MixtureSlave::add_value` and `remove_value` (mixture.hpp:377-398, with 201-215): the
group is changed in place by `change`, then the value scorer is told. -/
def slaveChange (lvl : Nat) (change : V → Act G Unit) (tell : Nat → G → V → Act S Unit)
    (groupid : Nat) (v : V) : Act (MixtureSlave S G) Unit := do
  let m ← Act.get
  Act.check lvl 1 (groupid < m.groups.length)
  Act.onMember (·.groups) (fun gs m => { m with groups := gs })
    (Act.onElement groupid (change v))
  let m ← Act.get
  let g ← Act.lift (SlaveGroups.groupAt lvl m.groups groupid)
  Act.onMember (·.scorer) (fun s m => { m with scorer := s }) (tell groupid g v)

end

section
variable {F : Type} [FloatOps F]

/-- `DirichletDiscrete::MixtureValueScorer::add_value`, `remove_value` (dd.hpp:381-397, with
457-466): the only check comes first. -/
def ddTell (lvl : Nat) (sh : DD.Shared F) (groupid : Nat) (g : DD.Group) (v : Int) :
    Act (DD.Cache F) Unit := do
  Act.check lvl 1 (v < sh.alphas.length)
  let c ← Act.get
  let c ← Act.lift (DD.updateGroupValue lvl sh c groupid g v)
  Act.modify fun _ => c

/-- `DirichletProcessDiscrete::MixtureValueScorer::add_value` (dpd.hpp:430-449). -/
def dpdTellAdd (lvl : Nat) (sh : DPD.Shared F) (groupid : Nat) (g : DPD.Group) (v : UInt32) :
    Act (DPD.Cache F) Unit := do
  Act.check lvl 1 (v ≠ DPD.other)
  let c ← Act.get
  let (e, m) := Dist.Sparse.getOrAdd c.scores v DPD.Entry.fresh
  Act.modify fun c => { c with scores := m }
  let ref := e.refCount + 1
  Act.modify fun c => { c with scores := c.scores.set v ⟨ref, e.scores⟩ }
  let xs ← (if ref = 1 then do
      let b ← Act.lift (Dist.Sparse.get lvl sh.betas v)
      return resizeWith e.scores c.shift.length (log (sh.alpha * b))
    else return e.scores : Act (DPD.Cache F) (List F))
  Act.modify fun c => { c with scores := c.scores.set v ⟨ref, xs⟩ }
  let xs ← Act.lift (DPD.setEntry lvl sh xs groupid g v)
  Act.modify fun c => { c with scores := c.scores.set v ⟨ref, xs⟩ }
  let shift ← Act.lift (DPD.setShift sh c.shift groupid g)
  Act.modify fun c => { c with shift := shift }

/-- `DirichletProcessDiscrete::MixtureValueScorer::remove_value` (dpd.hpp:451-469). -/
def dpdTellRemove (lvl : Nat) (sh : DPD.Shared F) (groupid : Nat) (g : DPD.Group) (v : UInt32) :
    Act (DPD.Cache F) Unit := do
  Act.check lvl 1 (v ≠ DPD.other)
  let c ← Act.get
  let e ← Act.lift (Dist.Sparse.get lvl c.scores v)
  let ref := e.refCount - 1
  Act.modify fun c => { c with scores := c.scores.set v ⟨ref, e.scores⟩ }
  if ref = 0 then
    Act.onMember (·.scores) (fun m c => { c with scores := m }) (Sparse.remove lvl v)
  else do
    let xs ← Act.lift (DPD.setEntry lvl sh e.scores groupid g v)
    Act.modify fun c => { c with scores := c.scores.set v ⟨ref, xs⟩ }
  let shift ← Act.lift (DPD.setShift sh c.shift groupid g)
  Act.modify fun c => { c with shift := shift }

end

end Dist.Imp
