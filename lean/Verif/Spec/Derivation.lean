import Mathlib.Algebra.BigOperators.Group.Finset.Basic
import Mathlib.Data.Finset.Sort
import Mathlib.Data.Real.Basic
import Mathlib.Order.Partition.Finpartition

/-! # Specification vocabulary for the derivation of the low-entropy tables -/

namespace Dist.Spec

open Finset

/-- The sizes of the clusters, sorted. -/
def shape (C : Finset (Finset ℕ)) : List ℕ := (C.val.map card).sort (· ≤ ·)

/-- The clustering of the items `A` that a clustering of more items induces. -/
def restrict (A : Finset ℕ) (C : Finset (Finset ℕ)) : Finset (Finset ℕ) := (C.image (· ∩ A)).erase ∅

/-- The unnormalised low-entropy probability of a clustering. -/
noncomputable def blockWeight (C : Finset (Finset ℕ)) : ℝ := ∏ b ∈ C, (b.card : ℝ) ^ b.card

/-- The low-entropy probability of a clustering of `n` items. -/
noncomputable def lowEntropyProb (n : ℕ) (P : Finpartition (range n)) : ℝ :=
  blockWeight P.parts / ∑ Q : Finpartition (range n), blockWeight Q.parts

/-- The number of clusterings of `n` items with the given cluster sizes. -/
def shapeCount (n : ℕ) (s : List ℕ) : ℕ :=
  (univ.filter fun P : Finpartition (range n) => shape P.parts = s).card

/-- The probability that `m` of `n` items, clustered at random with the low-entropy probabilities, form
clusters of the given sizes. -/
noncomputable def shapeProb (n m : ℕ) (s : List ℕ) : ℝ :=
  ∑ P : Finpartition (range n), if shape (restrict (range m) P.parts) = s then lowEntropyProb n P else 0

end Dist.Spec
