import Verif.Model.Driver
import Verif.Model.IdTracker
import Verif.Model.Slave

/-! # The protocol keeping driver, feature mixtures and id tracker in step

`examples/mixture/main.py:74-124` (class `ImageModel.Mixture`), the documented use
of the C++ classes: comments at mixture.hpp:186,193 ("add_group is called whenever
driver.add_value returns true").  The example has two features; here there is any
number.  Features of different models are covered by taking sum types for `G`, `V`. -/

namespace Dist

/-- One feature: the column of the data row it reads, and its model. -/
structure Feature (R G V : Type) where
  col : R → V
  ops : GroupOps G V

/-- `ImageModel.Mixture` (main.py:74-79): the clustering mixture, the feature
mixtures (with their groups) and the id tracker. -/
structure World (R G V : Type) where
  driver : Driver
  slaves : List (Feature R G V × List G)
  tracker : IdTracker

namespace World

variable {R G V : Type}

/-- `n` times `add_group` on one feature mixture after `clear()` (main.py:91-95). -/
def addGroups (f : Feature R G V) : Nat → List G → List G
  | 0, gs => gs
  | n + 1, gs => addGroups f n (SlaveGroups.addGroup f.ops gs)

/-- `init(model, empty_group_count)` (main.py:84-97). -/
def init (lvl : Nat) (fs : List (Feature R G V)) (n : Nat) : Res (World R G V) := do
  let d ← (Driver.raw (List.replicate n 0)).init lvl
  let t ← IdTracker.raw.init n
  return ⟨d, fs.map fun f => (f, addGroups f n []), t⟩

/-- `add_value(model, groupid, row)` (main.py:105-113). -/
def addValue (lvl : Nat) (w : World R G V) (groupid : Nat) (r : R) : Res (World R G V) := do
  let (d, groupAdded) ← w.driver.addValue lvl groupid 1
  let slaves ← w.slaves.mapM fun s => do
    let gs ← SlaveGroups.addValue lvl s.1.ops s.2 groupid (s.1.col r)
    return (s.1, gs)
  if groupAdded then
    let slaves := slaves.map fun s => (s.1, SlaveGroups.addGroup s.1.ops s.2)
    let t ← w.tracker.addGroup
    return ⟨d, slaves, t⟩
  else
    return ⟨d, slaves, w.tracker⟩

/-- `remove_value(model, groupid, row)` (main.py:115-125). -/
def removeValue (lvl : Nat) (w : World R G V) (groupid : Nat) (r : R) : Res (World R G V) := do
  let (d, groupRemoved) ← w.driver.removeValue lvl groupid 1
  let slaves ← w.slaves.mapM fun s => do
    let gs ← SlaveGroups.removeValue lvl s.1.ops s.2 groupid (s.1.col r)
    return (s.1, gs)
  if groupRemoved then
    let slaves ← slaves.mapM fun s => do
      let gs ← SlaveGroups.removeGroup lvl s.2 groupid
      return (s.1, gs)
    let t ← w.tracker.removeGroup lvl groupid
    return ⟨d, slaves, t⟩
  else
    return ⟨d, slaves, w.tracker⟩

end World

end Dist
