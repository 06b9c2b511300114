/-! # What is meant by the printed form of a repeated field -/

namespace Dist.Spec

/-- The texts of the entries between brackets, with commas between them. -/
def bracketed (items : List (List Char)) : List Char :=
  ['['] ++ [','].intercalate items ++ [']']

end Dist.Spec
