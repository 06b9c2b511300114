import Verif.Model.Wire

/-!
# What is asked of messages and of the library
-/

namespace Dist.Spec

open Wire

variable {U : Type}

/-- A value of a field fits its type. -/
def Fits (ty : Ty) (v : Nat) : Prop := v < ty.bound

/-- The class reads fields with this tag: the number is one of its own and the wire type is that of
the field, or length-delimited (packed) for a repeated field. -/
def Interprets (S : Schema) (tag : Nat) : Prop :=
  ∃ f ∈ S, f.num = tag / 8 ∧ (tag % 8 = f.ty.wire ∨ f.rep = true ∧ tag % 8 = 2)

/-- A message of the class: only fields of the class hold values, which fit; a required field holds
at most one; unknown fields are not fields of the class. -/
structure WellFormed (lib : UnknownLib U) (S : Schema) (m : Msg U) : Prop where
  own : ∀ n, (∀ f ∈ S, f.num ≠ n) → m.vals n = []
  fits : ∀ f ∈ S, ∀ v ∈ m.vals f.num, Fits f.ty v
  single : ∀ f ∈ S, f.rep = false → (m.vals f.num).length ≤ 1
  unknown : ∀ u ∈ m.unknown, ¬ Interprets S (lib.tag u)

/-- The library reads back the unknown fields it writes, and takes no bytes that are not there. -/
structure UnknownLaws (lib : UnknownLib U) : Prop where
  tag_pos : ∀ u, 0 < lib.tag u
  tag_lt : ∀ u, lib.tag u < 2 ^ 32
  tag_group : ∀ u, lib.tag u % 8 ≠ 4
  skip_body : ∀ u rest, lib.skip (lib.tag u) (lib.body u ++ rest) = some (u, rest)
  skip_le : ∀ t bs u rest, lib.skip t bs = some (u, rest) → rest.length ≤ bs.length

end Dist.Spec
