import Verif.Base.Res

/-!
# The aligned allocator (include/distributions/aligned_allocator.hpp)

`size_t` has 64 bits.  `memalign` is `posix_memalign`: the address of a fresh block of the
requested alignment and size, or `none` when it reports an error.
-/

namespace Dist.Alloc

def sizeMax : Nat := 2 ^ 64 - 1

/-- `max_size()` (aligned_allocator.hpp:119-121). -/
def maxSize (sizeofT : Nat) : Nat := sizeMax / sizeofT

/-- The byte count `n * sizeof(T)` of aligned_allocator.hpp:98: unsigned, so it wraps. -/
def byteCount (sizeofT n : Nat) : Nat := n * sizeofT % 2 ^ 64

/-- `DIST_ASSERT_ALIGNED_TO` (aligned_allocator.hpp:47-53): `mask = alignment - 1UL`. -/
def assertAligned (address alignment : Nat) : Res Unit :=
  distAssert0 (address &&& (alignment - 1) = 0)

/-- `allocate(n)` (aligned_allocator.hpp:96-105); `bad_alloc` is `fail`. -/
def allocate (lvl : Nat) (memalign : Nat → Nat → Option Nat) (alignment sizeofT n : Nat) :
    Res Nat :=
  match memalign alignment (byteCount sizeofT n) with
  | none => .fail
  | some address => do
    if 3 ≤ lvl then assertAligned address alignment else .ok ()
    return address

/-- `default_alignment` (aligned_allocator.hpp:62). -/
def defaultAlignment : Nat := 32

/-- `Aligned_` (vector.hpp:63-86): an address and a number of elements. -/
structure View where
  data : Nat
  size : Nat
deriving DecidableEq

/-- `Aligned_(data, size)` (vector.hpp:66-70): checked in every build. -/
def View.ofPointer (data size : Nat) : Res View := do
  assertAligned data defaultAlignment
  return ⟨data, size⟩

/-- `Aligned_(source)` (vector.hpp:72-78) of a vector with its buffer at `data`, checked at level 3. -/
def View.ofVector (lvl data size : Nat) : Res View := do
  if 3 ≤ lvl then assertAligned data defaultAlignment else .ok ()
  return ⟨data, size⟩

end Dist.Alloc
