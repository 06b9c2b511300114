import Verif.Model.Failure
import Verif.Spec.Driver
import Verif.Spec.Packed

/-! # What it means for a failed call to leave no trace -/

namespace Dist.Spec

variable {σ α : Type}

/-- If the call on the object `s` fails, the object is still `s`. -/
def CleanOn (x : Act σ α) (s : σ) : Prop := ∀ s', x s = .fail s' → s' = s

/-- The call leaves no trace when it fails, whatever the object. -/
def Clean (x : Act σ α) : Prop := ∀ s, CleanOn x s

/-- A program that makes the calls one after the other and catches every error.  `none`:
undefined behaviour. -/
def runCaught : List (Act σ α) → σ → Option σ
  | [], s => some s
  | x :: xs, s =>
    match x s with
    | .ok s _ => runCaught xs s
    | .fail s => runCaught xs s
    | .ub => none

/-- A program that makes the calls one after the other, all of which succeed. -/
def runAll : List (Act σ α) → σ → Option σ
  | [], s => some s
  | x :: xs, s =>
    match x s with
    | .ok s _ => runAll xs s
    | .fail _ => none
    | .ub => none

/-- A call of `add_value` or `remove_value` on the mixture driver. -/
def driverCall (lvl : Nat) : Op → Act Driver Bool
  | .add g c => Imp.Driver.addValue lvl g c
  | .remove g c => Imp.Driver.removeValue lvl g c

/-- A call of `add_group` or `remove_group` on the id tracker. -/
def idCall (lvl : Nat) : GroupOp → Act IdTracker Unit
  | .add => Imp.IdTracker.addGroup
  | .remove p => Imp.IdTracker.removeGroup lvl p

end Dist.Spec
