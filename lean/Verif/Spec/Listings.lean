import Verif.Model.Listings

/-! # Tables and listings -/

namespace Dist.Spec.Listings

variable {α : Type}

/-- Rows of `width` items, the last one perhaps shorter. -/
def rowsOf (width : Nat) (l : List α) : List (List α) :=
  if h : l = [] ∨ width = 0 then []
  else l.take width :: rowsOf width (l.drop width)
termination_by l.length
decreasing_by
  push Not at h
  have := List.length_pos_iff.mpr h.1
  simp only [List.length_drop]
  omega

/-- A row as written: four blanks, and the numbers with a comma and a blank between them. -/
def rowText (fmt : α → List Char) (row : List α) : List Char :=
  [' ', ' ', ' ', ' '] ++ [',', ' '].intercalate (row.map fmt)

/-- Characters that do not matter to a C++ or Python parser here. -/
def blank (c : Char) : Bool := c = ' ' || c = '\n'

end Dist.Spec.Listings
