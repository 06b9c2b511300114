import Verif.Spec.Driver

/-! # Specification of packed vectors of groups with identity

Groups are identified by their creation number `0, 1, 2, ...`.  `live` lists the
creation numbers of the current groups in packed order. -/

namespace Dist.Spec

/-- Current groups in packed order, and the number of groups created so far. -/
structure Groups where
  live : List Nat
  created : Nat
deriving DecidableEq, Repr

inductive GroupOp where
  /-- a group is created at the end -/
  | add
  /-- the group at packed position `p` is dropped by swap-removal -/
  | remove (p : Nat)
deriving DecidableEq, Repr

def GroupOp.Valid (s : Groups) : GroupOp → Prop
  | .add => True
  | .remove p => p < s.live.length

instance (s : Groups) (op : GroupOp) : Decidable (op.Valid s) := by
  cases op <;> unfold GroupOp.Valid <;> infer_instance

def GroupOp.step (s : Groups) : GroupOp → Groups
  | .add => ⟨s.live ++ [s.created], s.created + 1⟩
  | .remove p => ⟨swapRemove s.live p, s.created⟩

/-- `n` groups, created in order. -/
def Groups.start (n : Nat) : Groups := ⟨List.range n, n⟩

def ValidGroupHistory : Groups → List GroupOp → Prop
  | _, [] => True
  | s, op :: ops => op.Valid s ∧ ValidGroupHistory (op.step s) ops

def Groups.run (s : Groups) (ops : List GroupOp) : Groups := ops.foldl GroupOp.step s

end Dist.Spec
