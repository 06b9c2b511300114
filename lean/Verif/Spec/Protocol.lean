import Mathlib.Data.Multiset.Basic
import Mathlib.Data.Multiset.MapFold
import Mathlib.Data.Multiset.AddSub
import Verif.Model.Protocol

/-! # Specification of a clustered data set

Groups are known by their global id only; there are no positions. -/

namespace Dist.Spec

/-- The rows currently assigned to each live group (`none`: not a live group), the
number of groups ever created and the number of rows. -/
structure Clusters (R : Type) where
  members : Nat → Option (Multiset R)
  created : Nat
  rows : Nat

inductive RowOp (R : Type) where
  | add (gid : Nat) (r : R)
  | remove (gid : Nat) (r : R)

namespace RowOp

variable {R : Type} [DecidableEq R]

/-- Rows are added to live groups and removed from where they are; at most
`2^31 - 1` rows and `2^32` groups ever created. -/
def Valid (s : Clusters R) : RowOp R → Prop
  | add gid _ => s.members gid ≠ none ∧ s.rows + 1 ≤ 2147483647 ∧ s.created + 1 ≤ 4294967296
  | remove gid r => ∃ M, s.members gid = some M ∧ r ∈ M

/-- Adding to an empty group creates a new empty group (with the next id);
removing the last row of a group ends its life. -/
def step (s : Clusters R) : RowOp R → Clusters R
  | add gid r =>
    match s.members gid with
    | none => s
    | some M =>
      if M = 0 then
        ⟨fun x => if x = s.created then some 0 else if x = gid then some {r} else s.members x,
          s.created + 1, s.rows + 1⟩
      else ⟨fun x => if x = gid then some (r ::ₘ M) else s.members x, s.created, s.rows + 1⟩
  | remove gid r =>
    match s.members gid with
    | none => s
    | some M =>
      if M.erase r = 0 then
        ⟨fun x => if x = gid then none else s.members x, s.created, s.rows - 1⟩
      else ⟨fun x => if x = gid then some (M.erase r) else s.members x, s.created, s.rows - 1⟩

end RowOp

/-- `n` empty groups. -/
def Clusters.start (R : Type) (n : Nat) : Clusters R :=
  ⟨fun g => if g < n then some 0 else none, n, 0⟩

def ValidRowHistory {R : Type} [DecidableEq R] : Clusters R → List (RowOp R) → Prop
  | _, [] => True
  | s, op :: ops => op.Valid s ∧ ValidRowHistory (op.step s) ops

def Clusters.run {R : Type} [DecidableEq R] (s : Clusters R) (ops : List (RowOp R)) : Clusters R :=
  ops.foldl RowOp.step s

/-- `S g M` ("group `g` summarises the values `M`") is respected by the group
operations of a feature model. -/
structure Summarises {G V : Type} [DecidableEq V] (ops : GroupOps G V)
    (S : G → Multiset V → Prop) : Prop where
  init : S ops.init 0
  add : ∀ g M v, S g M → M.card < 2147483647 → ∃ g', ops.add g v = .ok g' ∧ S g' (v ::ₘ M)
  remove : ∀ g M v, S g M → v ∈ M → ∃ g', ops.remove g v = .ok g' ∧ S g' (M.erase v)

end Dist.Spec

namespace Dist.World

open Spec

variable {R G V : Type}

/-- A client that knows groups by global id (main.py:209-214): translate, then call. -/
def stepOp (lvl : Nat) (w : World R G V) : RowOp R → Res (World R G V)
  | .add gid r => do
    let p ← w.tracker.globalToPackedId lvl gid
    w.addValue lvl p r
  | .remove gid r => do
    let p ← w.tracker.globalToPackedId lvl gid
    w.removeValue lvl p r

def runOps (lvl : Nat) : World R G V → List (RowOp R) → Res (World R G V)
  | w, [] => .ok w
  | w, op :: ops => do
    let w ← w.stepOp lvl op
    runOps lvl w ops

end Dist.World
