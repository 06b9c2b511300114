import Verif.Base.Res

/-! # `Packed_` (include/distributions/vector.hpp:39-61)

`Packed_<Value>` is a `std::vector` (modelled as a `List`) with swap-removal. -/

namespace Dist

variable {α : Type}

/-- `Packed_::packed_remove(pos)` (vector.hpp:47-51): an assertion at debug
level 1, then `v[pos] = std::move(v.back()); v.pop_back()`. -/
def packedRemove (lvl : Nat) (v : List α) (pos : Nat) : Res (List α) := do
  distAssert lvl 1 (pos < v.length)
  let b ← backOf v
  let v ← setAt v pos b
  popBack v

/-- `Packed_::packed_add(value)` (vector.hpp:53-55), and `packed_add()`
(vector.hpp:57-60) with a default-constructed value. -/
def packedAdd (v : List α) (a : α) : List α := v ++ [a]

end Dist
