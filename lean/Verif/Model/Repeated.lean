import Verif.Base.Float32
import Verif.Base.Res

/-! # Printing and comparing repeated fields (include/distributions/io/protobuf.hpp)

A repeated field is the list of its entries; text is a list of characters, and a stream is what was
written to it.  What `<<` writes for one entry is a parameter, as is `!=` of two entries.  The two
overloads of each operator, for `RepeatedField` and `RepeatedPtrField`, are the same text. -/

namespace Dist.Repeated

variable {α : Type}

/-- The loop of `operator<<` (io/protobuf.hpp:57-59, 72-74) with `n` entries to go, from entry `i` on. -/
def printLoop (item : α → List Char) (messages : List α) : Nat → Nat → List Char → Res (List Char)
  | 0, _, os => .ok os
  | n + 1, i, os => do
    let x ← getAt messages i
    printLoop item messages n (i + 1) (os ++ [','] ++ item x)

/-- `operator<<` (io/protobuf.hpp:51-64, 66-79). -/
def print (item : α → List Char) (os : List Char) (messages : List α) : Res (List Char) :=
  let size := messages.length
  if size ≠ 0 then do
    let x ← getAt messages 0
    let os ← printLoop item messages (size - 1) 1 (os ++ ['['] ++ item x)
    return os ++ [']']
  else return os ++ ['[', ']']

/-- What `<<` writes for an unsigned integer: its decimal digits. -/
def decimal (n : Nat) : List Char :=
  if n < 10 then [Char.ofNat (48 + n)] else decimal (n / 10) ++ [Char.ofNat (48 + n % 10)]
termination_by n
decreasing_by omega

/-- The loop of `operator==` (io/protobuf.hpp:98-102, 113-117) with `n` entries to go, from `i` on. -/
def equalLoop (ne : α → α → Bool) (x y : List α) : Nat → Nat → Res Bool
  | 0, _ => .ok true
  | n + 1, i => do
    let a ← getAt x i
    let b ← getAt y i
    if ne a b then return false
    equalLoop ne x y n (i + 1)

/-- `operator==` (io/protobuf.hpp:91-104, 106-119). -/
def equal (ne : α → α → Bool) (x y : List α) : Res Bool :=
  if x.length ≠ y.length then return false else equalLoop ne x y x.length 0

/-- `!=` of two floats, which are their bit patterns: true as soon as one is not a number; the two
zeros are the same number. -/
def floatNe (a b : BitVec 32) : Bool :=
  !((F32.val a).le (F32.val b) && (F32.val b).le (F32.val a))

end Dist.Repeated
