import Verif.Spec.DPDShared
import Verif.Spec.Mixture

/-! # The Dirichlet-process mixture protocol

The client keeps the shared state and the mixture in step: `shared.add_value` before
`mixture.add_value`, `mixture.remove_value` before `shared.remove_value`. -/

namespace Dist.Spec

variable {F σ : Type} [FloatOps F]

/-- The calls a history makes on the shared state. -/
def sharedOps : List (MixOp UInt32) → List (ValueOp UInt32)
  | [] => []
  | .add _ v :: h => .add v :: sharedOps h
  | .remove _ v :: h => .remove v :: sharedOps h
  | .init :: h => sharedOps h
  | .addGroup :: h => sharedOps h
  | .removeGroup _ :: h => sharedOps h

/-- Effect of a call on the values held by each group; `none` if it is illegal: no such
group, a nonempty group removed, or a value removed that the group does not hold. -/
def MixOp.values (Ms : List (Multiset UInt32)) : MixOp UInt32 → Option (List (Multiset UInt32))
  | .init => some Ms
  | .addGroup => some (Ms ++ [0])
  | .removeGroup i => if Ms[i]? = some 0 then some (swapRemove Ms i) else none
  | .add i v =>
    match Ms[i]? with
    | some M => some (Ms.set i (v ::ₘ M))
    | none => none
  | .remove i v =>
    match Ms[i]? with
    | some M => if v ∈ M then some (Ms.set i (M.erase v)) else none
    | none => none

/-- Effect of a history. -/
def valuesAfter : List (Multiset UInt32) → List (MixOp UInt32) → Option (List (Multiset UInt32))
  | Ms, [] => some Ms
  | Ms, op :: h =>
    match op.values Ms with
    | some Ms => valuesAfter Ms h
    | none => none

/-- The history on the shared state and the mixture, in protocol order. -/
def runProtocol (lvl : Nat) (rng : Rng F σ) : DPD.Shared F →
    MixtureSlave (DPD.Cache F) DPD.Group → σ → List (MixOp UInt32) →
    Res (DPD.Shared F × MixtureSlave (DPD.Cache F) DPD.Group × σ)
  | sh, m, s, [] => .ok (sh, m, s)
  | sh, m, s, .init :: h => do
    let m ← m.init (DPD.valueScorer lvl sh)
    runProtocol lvl rng sh m s h
  | sh, m, s, .addGroup :: h => do
    let m ← m.addGroup lvl (DPD.ops lvl sh) (DPD.valueScorer lvl sh)
    runProtocol lvl rng sh m s h
  | sh, m, s, .removeGroup i :: h => do
    let m ← m.removeGroup lvl (DPD.valueScorer lvl sh) i
    runProtocol lvl rng sh m s h
  | sh, m, s, .add i v :: h => do
    let (sh, s) ← sh.addValue lvl rng v s
    let m ← m.addValue lvl (DPD.ops lvl sh) (DPD.valueScorer lvl sh) i v
    runProtocol lvl rng sh m s h
  | sh, m, s, .remove i v :: h => do
    let m ← m.removeValue lvl (DPD.ops lvl sh) (DPD.valueScorer lvl sh) i v
    let sh ← sh.removeValue lvl v
    runProtocol lvl rng sh m s h

end Dist.Spec
