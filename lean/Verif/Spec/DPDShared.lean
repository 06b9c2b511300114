import Verif.Model.DPD
import Verif.Spec.Features
import Verif.Base.XR

/-! # Histories of the Dirichlet-process shared state -/

namespace Dist.Spec

open FloatOps FloatNotation

variable {F σ : Type} [FloatOps F]

/-- Run a history of `add_value`/`remove_value` calls on the shared state. -/
def runShared (lvl : Nat) (rng : Rng F σ) : DPD.Shared F → σ → List (ValueOp UInt32) →
    Res (DPD.Shared F × σ)
  | sh, s, [] => .ok (sh, s)
  | sh, s, .add v :: h => do
    let (sh, s) ← sh.addValue lvl rng v s
    runShared lvl rng sh s h
  | sh, s, .remove v :: h => do
    let sh ← sh.removeValue lvl v
    runShared lvl rng sh s h

/-- Number of additions in the history of a value that is not held at that time. -/
def newValues : Multiset UInt32 → List (ValueOp UInt32) → Nat
  | _, [] => 0
  | B, .add v :: h => (if v ∈ B then 0 else 1) + newValues (v ::ₘ B) h
  | B, .remove v :: h => newValues (B.erase v) h

/-- The history never mentions the reserved value OTHER. -/
def AvoidsOther : List (ValueOp UInt32) → Prop
  | [] => True
  | .add v :: h => v ≠ 0xFFFFFFFF ∧ AvoidsOther h
  | .remove v :: h => v ≠ 0xFFFFFFFF ∧ AvoidsOther h

/-- Every gamma draw is a nonnegative number (never NaN or infinite). -/
def NonnegGamma (rng : Rng XR σ) : Prop := ∀ s a b, ∃ x : ℝ, 0 ≤ x ∧ (rng.gamma s a b).1 = .fin x

/-- Sum of all weights and the leftover weight. -/
noncomputable def mass (betas : FMap UInt32 ℝ) (beta0 : ℝ) : ℝ :=
  ∑ v ∈ betas.keys, (betas.lookup v).getD 0 + beta0

end Dist.Spec
