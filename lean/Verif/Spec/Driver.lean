import Mathlib.Data.Finset.Card
import Mathlib.Data.Finset.Range
import Verif.Model.Driver

/-! # Specification of the mixture driver

A driver is specified by the list of its group sizes (natural numbers).  The
specification mentions no empty-id set, no sample size and no integer widths. -/

namespace Dist.Spec

/-- Drop position `i`; the last element takes its place. -/
def swapRemove {α : Type} (l : List α) (i : Nat) : List α :=
  if h : l = [] then [] else (l.set i (l.getLast h)).dropLast

/-- Add `c` values to group `g`: if it was empty, a new empty group appears at the end. -/
def addTo (l : List Nat) (g c : Nat) : List Nat :=
  if l[g]? = some 0 then l.set g c ++ [0] else l.set g (l.getD g 0 + c)

/-- Remove `c` values from group `g`: if it becomes empty it disappears by swap-removal. -/
def removeFrom (l : List Nat) (g c : Nat) : List Nat :=
  if l[g]? = some c then swapRemove l g else l.set g (l.getD g 0 - c)

inductive Op where
  | add (g c : Nat)
  | remove (g c : Nat)
deriving DecidableEq, Repr

/-- The documented precondition of a call on a driver whose group sizes are `l`:
an existing group, a positive count, no more removed than present, and the total
stays representable. -/
def Op.Valid (l : List Nat) : Op → Prop
  | .add g c => g < l.length ∧ 0 < c ∧ l.sum + c ≤ 2147483647
  | .remove g c => 0 < c ∧ ∃ n, l[g]? = some n ∧ c ≤ n

instance (l : List Nat) (op : Op) : Decidable (op.Valid l) := by
  cases op with
  | add g c => unfold Op.Valid; infer_instance
  | remove g c =>
    cases h : l[g]? with
    | none => exact .isFalse (by simp [Op.Valid, h])
    | some n => exact decidable_of_iff (0 < c ∧ c ≤ n) (by simp [Op.Valid, h])

def Op.step (l : List Nat) : Op → List Nat
  | .add g c => addTo l g c
  | .remove g c => removeFrom l g c

/-- What the call returns: did the number of groups change? -/
def Op.flag (l : List Nat) : Op → Bool
  | .add g _ => l[g]? == some 0
  | .remove g c => l[g]? == some c

/-- Every call of the history meets its precondition when it is made. -/
def ValidHistory : List Nat → List Op → Prop
  | _, [] => True
  | l, op :: ops => op.Valid l ∧ ValidHistory (op.step l) ops

instance decValidHistory : (l : List Nat) → (ops : List Op) → Decidable (ValidHistory l ops)
  | _, [] => .isTrue trivial
  | l, op :: ops =>
    have := decValidHistory (op.step l) ops
    inferInstanceAs (Decidable (op.Valid l ∧ ValidHistory (op.step l) ops))

def run (l : List Nat) (ops : List Op) : List Nat := ops.foldl Op.step l

def flags : List Nat → List Op → List Bool
  | _, [] => []
  | l, op :: ops => op.flag l :: flags (op.step l) ops

end Dist.Spec

namespace Dist

/-- Running the modelled driver on a history; the flags returned are collected. -/
def Driver.stepOp (lvl : Nat) (d : Driver) : Spec.Op → Res (Driver × Bool)
  | .add g c => d.addValue lvl g c
  | .remove g c => d.removeValue lvl g c

def Driver.runOps (lvl : Nat) : Driver → List Spec.Op → Res (Driver × List Bool)
  | d, [] => .ok (d, [])
  | d, op :: ops => do
    let (d, b) ← d.stepOp lvl op
    let (d, bs) ← Driver.runOps lvl d ops
    return (d, b :: bs)

open Spec in
/-- A driver produced by `init` on a counts vector (non-negative, total within
`int`, containing an empty group unless assertions are off) followed by a history
of calls that meet their preconditions. -/
def Driver.Reachable (lvl : Nat) (d : Driver) : Prop :=
  ∃ (l0 : List Nat) (ops : List Op) (d0 : Driver),
    l0.sum ≤ 2147483647 ∧ (lvl = 0 ∨ 0 ∈ l0) ∧ ValidHistory l0 ops ∧
    (Driver.raw (l0.map Int.ofNat)).init lvl = .ok d0 ∧
    ∃ fl, d0.runOps lvl ops = .ok (d, fl)

end Dist
