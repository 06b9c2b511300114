import Verif.Base.FMap
import Verif.Model.Packed

/-! # `MixtureIdTracker` (include/distributions/mixture.hpp:460-521)

Ids are `uint32_t`, modelled as naturals below `2^32` with explicit truncation
where the code converts from `size_t`.  `global_size_` is not initialised by the
constructor: it is `none` until `init`.  (`size_t` itself is unbounded here.) -/

namespace Dist

/-- Conversion `size_t → uint32_t`. -/
def toU32 (n : Nat) : Nat := n % 4294967296

/-- State (mixture.hpp:517-520). -/
structure IdTracker where
  packedToGlobal : List Nat
  globalToPacked : FMap Nat Nat
  globalSize : Option Nat

namespace IdTracker

/-- A default-constructed tracker. -/
def raw : IdTracker := ⟨[], .empty, none⟩

/-- Reading `global_size_` (mixture.hpp:515): undefined before `init`. -/
def getGlobalSize (t : IdTracker) : Res Nat :=
  match t.globalSize with
  | some n => .ok n
  | none => .ub

/-- `unordered_map::insert`: no effect if the key is present. -/
def insertNew (m : FMap Nat Nat) (k v : Nat) : FMap Nat Nat :=
  if m.contains k then m else m.set k v

/-- `add_group()` (mixture.hpp:472-477). -/
def addGroup (t : IdTracker) : Res IdTracker := do
  let packed := toU32 t.packedToGlobal.length
  let gs ← t.getGlobalSize
  let global := toU32 gs
  return ⟨packedAdd t.packedToGlobal global, insertNew t.globalToPacked global packed,
    some (gs + 1)⟩

/-- The loop of `init` (mixture.hpp:467-469). -/
def addGroups : Nat → IdTracker → Res IdTracker
  | 0, t => .ok t
  | n + 1, t => do
    let t ← t.addGroup
    addGroups n t

/-- `init(group_count)` (mixture.hpp:463-470). -/
def init (_t : IdTracker) (groupCount : Nat) : Res IdTracker :=
  addGroups groupCount ⟨[], .empty, some 0⟩

/-- `remove_group(packed)` (mixture.hpp:479-494). -/
def removeGroup (lvl : Nat) (t : IdTracker) (packed : Nat) : Res IdTracker := do
  distAssert lvl 1 (packed < t.packedToGlobal.length)
  let global ← getAt t.packedToGlobal packed
  let gs ← (if 1 ≤ lvl then t.getGlobalSize else .ok 0 : Res Nat)
  distAssert lvl 1 (global < gs)
  let g2p := t.globalToPacked.erase global
  let p2g ← packedRemove lvl t.packedToGlobal packed
  if packed ≠ p2g.length then
    let global ← getAt p2g packed
    distAssert lvl 1 (global < gs)
    distAssert lvl 1 (g2p.contains global)
    -- `i->second = packed` dereferences `end()` when the key is missing
    if g2p.contains global then
      return ⟨p2g, g2p.set global packed, t.globalSize⟩
    else .ub
  else
    return ⟨p2g, g2p, t.globalSize⟩

/-- `packed_to_global(packed)` (mixture.hpp:496-501). -/
def packedToGlobalId (lvl : Nat) (t : IdTracker) (packed : Nat) : Res Nat := do
  distAssert lvl 1 (packed < t.packedToGlobal.length)
  let global ← getAt t.packedToGlobal packed
  let gs ← (if 1 ≤ lvl then t.getGlobalSize else .ok 0 : Res Nat)
  distAssert lvl 1 (global < gs)
  return global

/-- `global_to_packed(global)` (mixture.hpp:503-512). -/
def globalToPackedId (lvl : Nat) (t : IdTracker) (global : Nat) : Res Nat := do
  let gs ← (if 1 ≤ lvl then t.getGlobalSize else .ok 0 : Res Nat)
  distAssert lvl 1 (global < gs)
  distAssert lvl 1 (t.globalToPacked.contains global)
  match t.globalToPacked.lookup global with
  | none => .ub
  | some packed => do
    distAssert lvl 1 (packed < t.packedToGlobal.length)
    return packed

end IdTracker

end Dist
