import Mathlib.Algebra.BigOperators.Group.Multiset.Basic
import Mathlib.Analysis.SpecialFunctions.Log.Basic
import Verif.Spec.Protocol
import Verif.Base.FloatOps

/-! # Specification vocabulary for feature groups -/

namespace Dist.Spec

open FloatNotation

variable {G V F : Type}

/-- A client's call on one group. -/
inductive ValueOp (V : Type) where
  | add (v : V)
  | remove (v : V)

/-- Run a history of calls on a group. -/
def runGroup (ops : GroupOps G V) : G → List (ValueOp V) → Res G
  | g, [] => .ok g
  | g, .add v :: h => do
    let g ← ops.add g v
    runGroup ops g h
  | g, .remove v :: h => do
    let g ← ops.remove g v
    runGroup ops g h

/-- Add the values of a list one by one. -/
def addAll (ops : GroupOps G V) : G → List V → Res G
  | g, [] => .ok g
  | g, v :: vs => do
    let g ← ops.add g v
    addAll ops g vs

/-- Add the same value `n` times. -/
def addTimes (ops : GroupOps G V) (g : G) (v : V) (n : Nat) : Res G :=
  addAll ops g (List.replicate n v)

/-- How often `v` was added minus how often it was removed. -/
def net [DecidableEq V] : List (ValueOp V) → V → Int
  | [], _ => 0
  | .add w :: h, v => (if w = v then 1 else 0) + net h v
  | .remove w :: h, v => (if w = v then -1 else 0) + net h v

/-- Values held after a history, starting with `M`. -/
def contents [DecidableEq V] : Multiset V → List (ValueOp V) → Multiset V
  | M, [] => M
  | M, .add v :: h => contents (v ::ₘ M) h
  | M, .remove v :: h => contents (M.erase v) h

/-- Only values that are held are removed, and at most `2^31 - 1` values are held. -/
def ValidValues [DecidableEq V] : Multiset V → List (ValueOp V) → Prop
  | _, [] => True
  | M, .add v :: h => M.card < 2147483647 ∧ ValidValues (v ::ₘ M) h
  | M, .remove v :: h => v ∈ M ∧ ValidValues (M.erase v) h

/-- Score the values of a list one after the other, each given those before it, and
add the scores up from `acc`. -/
def sequentialScore [FloatOps F] (ops : GroupOps G V) (score : G → V → Res F) :
    G → List V → F → Res F
  | _, [], acc => .ok acc
  | g, v :: vs, acc => do
    let s ← score g v
    let g ← ops.add g v
    sequentialScore ops score g vs (acc + s)

/-- Sum of the values of a multiset, as a natural number. -/
def totalValue (M : Multiset UInt32) : Nat := (M.map UInt32.toNat).sum

/-- Sum of the log factorials of a multiset of values. -/
noncomputable def totalLogFact (M : Multiset UInt32) : ℝ :=
  (M.map fun v => Real.log (Nat.factorial v.toNat)).sum

/-- Mean of a multiset of numbers (0 if empty). -/
noncomputable def meanOf (M : Multiset ℝ) : ℝ := M.sum / M.card

/-- Sum of the squared deviations from the mean. -/
noncomputable def sqDev (M : Multiset ℝ) : ℝ := (M.map fun x => (x - meanOf M) ^ 2).sum

end Dist.Spec
