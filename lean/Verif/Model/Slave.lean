import Verif.Model.Packed

/-! # `MixtureSlaveGroups` (include/distributions/mixture.hpp:169-225)

The groups of a feature mixture, for an arbitrary feature model. -/

namespace Dist

/-- The group operations of a feature model for a fixed `Shared`: `Group::init`,
`Group::add_value`, `Group::remove_value`.  (They take an rng argument that no model
uses.) -/
structure GroupOps (G V : Type) where
  init : G
  add : G → V → Res G
  remove : G → V → Res G

namespace SlaveGroups

variable {G V : Type}

/-- `groups(groupid)` (mixture.hpp:176-179). -/
def groupAt (lvl : Nat) (gs : List G) (groupid : Nat) : Res G := do
  distAssert lvl 1 (groupid < gs.length)
  getAt gs groupid

/-- `add_group` (mixture.hpp:188-192). -/
def addGroup (ops : GroupOps G V) (gs : List G) : List G := packedAdd gs ops.init

/-- `remove_group` (mixture.hpp:195-199). -/
def removeGroup (lvl : Nat) (gs : List G) (groupid : Nat) : Res (List G) :=
  packedRemove lvl gs groupid

/-- `add_value` (mixture.hpp:201-207): the group is updated in place. -/
def addValue (lvl : Nat) (ops : GroupOps G V) (gs : List G) (groupid : Nat) (v : V) :
    Res (List G) := do
  let g ← SlaveGroups.groupAt lvl gs groupid
  let g ← ops.add g v
  setAt gs groupid g

/-- `remove_value` (mixture.hpp:209-215). -/
def removeValue (lvl : Nat) (ops : GroupOps G V) (gs : List G) (groupid : Nat) (v : V) :
    Res (List G) := do
  let g ← SlaveGroups.groupAt lvl gs groupid
  let g ← ops.remove g v
  setAt gs groupid g

end SlaveGroups

end Dist
