import Verif.Model.PyIo
import Verif.Model.Mixture
import Verif.Model.IdTracker

/-! # Mixtures, score arrays and id trackers of the Python bindings (distributions/lp)

The `Mixture` classes of the models differ only in the types of their parts
(distributions/lp/models/_bb.pyx, `_bnb.pyx`, `_dd.pyx`, `_dpd.pyx`, `_gp.pyx`,
`_nich.pyx`), so one definition serves all; line numbers are those of `_bb.pyx`.
The bindings are compiled with `DIST_DEBUG_LEVEL=3` and `DIST_THROW_ON_ERROR`
(setup.py:65-66), so a failed C++ assertion is a Python exception.  Python's own `assert`
statements are skipped when the interpreter runs with `-O`. -/

namespace Dist.Py

/-- The debug level of the bindings (setup.py:65). -/
def pyLevel : Nat := 3

/-- C `int` to `size_t` (64 bits). -/
def toSize (z : Int) : Nat := (z % 18446744073709551616).toNat

/-- A Python `assert`, skipped under `-O`. -/
def pyAssert (opt : Bool) (cond : Prop) [Decidable cond] : Res Unit :=
  if opt = true ∨ cond then .ok () else .fail

variable {S G V F : Type}

/-! ## Group access -/

/-- `Mixture.__getitem__` (distributions/lp/models/_bb.pyx:95-99): only the upper end is
checked, and `groups` here is the `std::vector` itself, whose `[]` checks nothing. -/
def getItem (opt : Bool) (m : MixtureSlave S G) (groupid : Int) : Res G := do
  let groupid ← asInt groupid
  pyAssert opt (groupid < m.groups.length)
  getAt m.groups (toSize groupid)

/-- How `for group in mixture` ends: Python asks for the items 0, 1, 2, ... until one of
them raises.  `IndexError` would end the loop; `AssertionError`, the only exception
`__getitem__` raises for such items, is passed on to the caller.  `Loops m i gs r`: from item
`i` on the body sees the groups `gs` and then the loop statement has outcome `r`. -/
inductive Loops (opt : Bool) (m : MixtureSlave S G) : Nat → List G → Res Unit → Prop
  | item {i : Nat} {g : G} {gs : List G} {r : Res Unit} :
      getItem opt m i = .ok g → Loops opt m (i + 1) gs r → Loops opt m i (g :: gs) r
  | raised {i : Nat} : getItem opt m i = .fail → Loops opt m i [] .fail
  | undefined {i : Nat} : getItem opt m i = .ub → Loops opt m i [] .ub

/-- `Mixture.append` (_bb.pyx:101-102): the group list alone. -/
def append (m : MixtureSlave S G) (g : G) : MixtureSlave S G := ⟨m.groups ++ [g], m.scorer⟩

/-- `Mixture.clear` (_bb.pyx:104-105). -/
def clear (m : MixtureSlave S G) : MixtureSlave S G := ⟨[], m.scorer⟩

/-- `Mixture.remove_group` (_bb.pyx:113-114). -/
def removeGroup (vs : ValueScorerOps S G V F) (m : MixtureSlave S G) (groupid : Int) :
    Res (MixtureSlave S G) := do
  let groupid ← asInt groupid
  m.removeGroup pyLevel vs (toSize groupid)

/-- `Mixture.add_value` (_bb.pyx:116-117). -/
def addValue (ops : GroupOps G V) (vs : ValueScorerOps S G V F) (m : MixtureSlave S G)
    (groupid : Int) (v : V) : Res (MixtureSlave S G) := do
  let groupid ← asInt groupid
  m.addValue pyLevel ops vs (toSize groupid) v

/-- `Mixture.remove_value` (_bb.pyx:119-120). -/
def removeValue (ops : GroupOps G V) (vs : ValueScorerOps S G V F) (m : MixtureSlave S G)
    (groupid : Int) (v : V) : Res (MixtureSlave S G) := do
  let groupid ← asInt groupid
  m.removeValue pyLevel ops vs (toSize groupid) v

/-- `Mixture.score_value_group` (_bb.pyx:122-127). -/
def scoreValueGroup (vs : ValueScorerOps S G V F) (m : MixtureSlave S G) (groupid : Int) (v : V) :
    Res F := do
  let groupid ← asInt groupid
  m.scoreValueGroup pyLevel vs (toSize groupid) v

/-! ## Score arrays -/

/-- A one-dimensional `float32` numpy array: a block of memory, the position of item 0 in it,
the distance between items, the number of items, and whether `resize` may change the size
(the array owns its block and nothing else refers to it).  Strides are whole items. -/
structure NdArray (F : Type) where
  mem : List F
  off : Nat
  stride : Int
  len : Nat
  resizable : Bool

/-- Item `i`. -/
def NdArray.item (a : NdArray F) (i : Nat) : Option F :=
  if 0 ≤ (a.off : Int) + i * a.stride then a.mem[((a.off : Int) + i * a.stride).toNat]? else none

/-- Numpy's "single segment" test in one dimension. -/
def NdArray.oneSegment (a : NdArray F) : Bool := a.stride = 1 || a.len ≤ 1

/-- `vector_float_from_ndarray` (distributions/lp/vector.pyx:33-38): copies `len` floats
starting at item 0, whatever the stride; reading outside the block is undefined.  Lengths
are below `2^31`. -/
def fromNdarray (a : NdArray F) : Res (List F) :=
  if a.off + a.len ≤ a.mem.length then .ok ((a.mem.drop a.off).take a.len) else .ub

/-- `vector_float_to_ndarray` (distributions/lp/vector.pyx:41-47).  `resize` raises for an
array of several segments, and for another size when the array may not be resized; the
function is `cdef void`, so Cython reports the exception on stderr and the caller goes
on. -/
def toNdarray (v : List F) (a : NdArray F) : Res (NdArray F) :=
  if a.oneSegment = false then .ok a
  else if v.length = a.len then
    if a.off + a.len ≤ a.mem.length then
      .ok { a with mem := a.mem.take a.off ++ v ++ a.mem.drop (a.off + a.len) }
    else .ub
  else if a.resizable then .ok ⟨v, 0, 1, v.length, true⟩
  else .ok a

/-- `Mixture.score_value` (_bb.pyx:129-135). -/
def scoreValue (opt : Bool) (vs : ValueScorerOps S G V F) (m : MixtureSlave S G) (v : V)
    (a : NdArray F) : Res (NdArray F) := do
  pyAssert opt (a.len = m.groups.length)
  let scores ← fromNdarray a
  let scores ← m.scoreValue pyLevel vs v scores
  toNdarray scores a

/-! ## Values -/

/-- `add_value` of the Gamma-Poisson group (distributions/lp/models/_gp.pyx:49-50): `Value`
is declared `int` (`_gp_h.pxd:35`), the C++ takes `uint32_t`. -/
def addValueGP [FloatOps F] (g : GP.Group F) (value : Int) : Res (GP.Group F) := do
  let value ← asInt value
  return g.addValue (toU32 value)

/-- `add_value` of the Beta-Negative-Binomial group (distributions/lp/models/_bnb.pyx:49-50,
`_bnb_h.pxd:35`). -/
def addValueBNB (g : BNB.Group) (value : Int) : Res BNB.Group := do
  let value ← asInt value
  return g.addValue (toU32 value)

/-! ## Id tracker (distributions/lp/mixture.pyx) -/

/-- `MixtureIdTracker.init` (mixture.pyx:47-48): a negative count becomes a huge `size_t`, and
the loop adding groups ends in `MemoryError`. -/
def initTracker (t : IdTracker) (groupCount : Int) : Res IdTracker := do
  let n ← asInt groupCount
  if n < 0 then .fail else t.init n.toNat

/-- `remove_group` (mixture.pyx:53-54). -/
def removeTracked (t : IdTracker) (packed : Int) : Res IdTracker := do
  let packed ← asInt packed
  t.removeGroup pyLevel (toU32 packed).toNat

/-- `packed_to_global` (mixture.pyx:56-57). -/
def packedToGlobal (t : IdTracker) (packed : Int) : Res Nat := do
  let packed ← asInt packed
  t.packedToGlobalId pyLevel (toU32 packed).toNat

/-- `global_to_packed` (mixture.pyx:59-60). -/
def globalToPacked (t : IdTracker) (global : Int) : Res Nat := do
  let global ← asInt global
  t.globalToPackedId pyLevel (toU32 global).toNat

end Dist.Py
