import Verif.Model.DbgDPD
import Verif.Spec.Features
import Verif.Base.XR

/-! # What the reference Dirichlet-process parameters should hold -/

namespace Dist.Spec.DbgDPD

open Dist.DbgDPD (Shared)

variable {F σ : Type}

/-- The tables hold the values `B`: every value has its number of occurrences as count, and
exactly the values of `B` have a weight. -/
structure Held {W : Type} (betas : FMap Int W) (counts : FMap Int Int) (B : Multiset Int) :
    Prop where
  counts : ∀ v, counts.lookup v = if v ∈ B then some (B.count v : Int) else none
  keys : ∀ v, v ∈ betas.keys ↔ v ∈ B

/-- The sum of all weights and the leftover weight. -/
noncomputable def mass (betas : FMap Int ℝ) (beta0 : ℝ) : ℝ :=
  ∑ v ∈ betas.keys, (betas.lookup v).getD 0 + beta0

/-- No weight is negative. -/
def Nonneg (betas : FMap Int ℝ) : Prop := ∀ v b, betas.lookup v = some b → 0 ≤ b

/-- Parameters given by real numbers. -/
def real (gamma alpha beta0 : ℝ) (betas : FMap Int ℝ) (counts : FMap Int Int) : Shared XR :=
  ⟨.fin gamma, .fin alpha, .fin beta0, betas.mapValues fun _ b => .fin b, counts⟩

/-- Beta variates lie between 0 and 1. -/
def UnitBeta (np : Dbg.Numpy XR σ) : Prop :=
  ∀ g a b, ∃ p : ℝ, 0 ≤ p ∧ p ≤ 1 ∧ (np.beta g a b).1 = .fin p

/-- Only values that are held are removed, and `0xFFFFFFFF` is neither added nor removed. -/
def Valid : Multiset Int → List (ValueOp Int) → Prop
  | _, [] => True
  | B, .add v :: h => v ≠ 4294967295 ∧ Valid (v ::ₘ B) h
  | B, .remove v :: h => v ≠ 4294967295 ∧ v ∈ B ∧ Valid (B.erase v) h

/-- Run a history of calls on the parameters. -/
def run [FloatOps F] (np : Dbg.Numpy F σ) : List (ValueOp Int) → Act (Shared F × σ) Unit
  | [] => pure ()
  | .add v :: h => do DbgDPD.addValue np v; run np h
  | .remove v :: h => do DbgDPD.removeValue v; run np h

/-- The values `n, n + 1, …`, `k` of them. -/
def fresh (n : Int) (k : Nat) : Multiset Int := (Multiset.range k).map fun i : Nat => n + (i : Int)

/-- The table has exactly these entries. -/
def Reads {V : Type} (m : FMap Int V) (entries : List (Int × V)) : Prop :=
  ∀ k v, m.lookup k = some v ↔ (k, v) ∈ entries

end Dist.Spec.DbgDPD
