import Mathlib.Data.Real.Basic
import Mathlib.Data.List.Dedup

/-! # Specification vocabulary for clusterings -/

namespace Dist.Spec

/-- Admissible Pitman-Yor parameters: discount in `[0, 1)`, concentration above `-d`. -/
structure Admissible (alpha d : ℝ) : Prop where
  d_nonneg : 0 ≤ d
  d_lt_one : d < 1
  alpha_gt : -d < alpha

/-- A cluster assignment vector uses contiguous ids in order of first appearance:
whenever an id is used, every smaller id has been used before. -/
def Contiguous (a : List Nat) : Prop :=
  ∀ i x, a[i]? = some x → ∀ y, y < x → y ∈ a.take i

/-- `counts` lists the cluster sizes of the label sequence `labels`, in any order and
with any number of empty clusters in between. -/
def ClusterSizes (counts labels : List Nat) : Prop :=
  (counts.filter fun c => c ≠ 0).Perm (labels.dedup.map fun x => labels.count x)

end Dist.Spec
