import Verif.Spec.Driver
import Verif.Base.Act

/-! # What the clustering mixtures of the Python bindings should do -/

namespace Dist.Spec

/-- The object is the one `init` makes for group sizes `l`, from whatever object it is called
on. -/
def FreshWith {S : Type} (init : List Int → Act S Unit) (l : List Nat) (s : S) : Prop :=
  ∀ s0, init (l.map Int.ofNat) s0 = .ok s ()

/-- A call of a mixture method with a Python integer. -/
inductive PyCall where
  | add (groupid : Int)
  | remove (groupid : Int)
deriving DecidableEq, Repr

/-- The group sizes after the call: a call naming no group, or removing from an empty group,
raises and changes nothing. -/
def PyCall.sizes (l : List Nat) : PyCall → List Nat
  | .add z => if 0 ≤ z ∧ z < l.length then addTo l z.toNat 1 else l
  | .remove z => if 0 ≤ z ∧ l.getD z.toNat 0 ≠ 0 then removeFrom l z.toNat 1 else l

end Dist.Spec
