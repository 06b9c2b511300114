import Verif.Base.FloatOps
import Verif.Base.Res

/-! # Vector kernels (src/vector_math.cc)

A pointer argument is modelled by the whole buffer it points into (a list), so that an
access outside the buffer is undefined behaviour and an access beyond `size` but inside the
buffer is visible.  `__restrict__` arguments are distinct buffers.  The build without
`USE_YEPPP` and `USE_INTEL_MKL` is modelled. -/

namespace Dist

open FloatOps FloatNotation

/-- `for (size_t i = first; i < first + n; ++i) s = body(i, s)`. -/
def forLoop {S : Type} (body : Nat → S → Res S) : Nat → Nat → S → Res S
  | _, 0, s => .ok s
  | i, n + 1, s => do
    let s ← body i s
    forLoop body (i + 1) n s

namespace VectorMath

variable {F : Type} [FloatOps F]

/-- `vector_zero` (src/vector_math.cc:55-61). -/
def zero (size : Nat) (out : List F) : Res (List F) :=
  forLoop (fun i out => setAt out i (ofInt 0)) 0 size out

/-- `vector_min` (src/vector_math.cc:63-72). -/
def min (size : Nat) (inp : List F) : Res F := do
  let res ← getAt inp 0
  forLoop (fun i res => do
    let x ← getAt inp i
    return if lt x res then x else res) 0 size res

/-- `vector_max` (src/vector_math.cc:74-83). -/
def max (size : Nat) (inp : List F) : Res F := do
  let res ← getAt inp 0
  forLoop (fun i res => do
    let x ← getAt inp i
    return if lt res x then x else res) 0 size res

/-- `vector_sum` (src/vector_math.cc:85-93). -/
def sum (size : Nat) (inp : List F) : Res F :=
  forLoop (fun i res => do
    let x ← getAt inp i
    return res + x) 0 size (ofInt 0)

/-- `vector_dot` (src/vector_math.cc:95-104). -/
def dot (size : Nat) (in1 in2 : List F) : Res F :=
  forLoop (fun i res => do
    let x ← getAt in1 i
    let y ← getAt in2 i
    return res + x * y) 0 size (ofInt 0)

/-- `vector_shift` (src/vector_math.cc:106-113). -/
def shift (size : Nat) (io : List F) (c : F) : Res (List F) :=
  forLoop (fun i io => do
    let z ← getAt io i
    setAt io i (z + c)) 0 size io

/-- `vector_scale` (src/vector_math.cc:115-122). -/
def scale (size : Nat) (io : List F) (c : F) : Res (List F) :=
  forLoop (fun i io => do
    let z ← getAt io i
    setAt io i (z * c)) 0 size io

/-- `vector_negate` (src/vector_math.cc:124-130). -/
def negate (size : Nat) (io : List F) : Res (List F) :=
  forLoop (fun i io => do
    let z ← getAt io i
    setAt io i (-z)) 0 size io

/-- `vector_add` (src/vector_math.cc:132-139). -/
def add (size : Nat) (io inp : List F) : Res (List F) :=
  forLoop (fun i io => do
    let x ← getAt inp i
    let z ← getAt io i
    setAt io i (z + x)) 0 size io

/-- `vector_negate_and_add` (src/vector_math.cc:141-148). -/
def negateAndAdd (size : Nat) (io inp : List F) : Res (List F) :=
  forLoop (fun i io => do
    let x ← getAt inp i
    let z ← getAt io i
    setAt io i (x - z)) 0 size io

/-- `vector_add_add` (src/vector_math.cc:150-158). -/
def addAdd (size : Nat) (io in1 in2 : List F) : Res (List F) :=
  forLoop (fun i io => do
    let x ← getAt in1 i
    let y ← getAt in2 i
    let z ← getAt io i
    setAt io i (z + (x + y))) 0 size io

/-- `vector_add_subtract` (src/vector_math.cc:160-168). -/
def addSubtract (size : Nat) (io in1 in2 : List F) : Res (List F) :=
  forLoop (fun i io => do
    let x ← getAt in1 i
    let y ← getAt in2 i
    let z ← getAt io i
    setAt io i (z + (x - y))) 0 size io

/-- `vector_add_subtract` with a scalar (src/vector_math.cc:170-178). -/
def addSubtractScalar (size : Nat) (io : List F) (in1 : F) (in2 : List F) : Res (List F) :=
  forLoop (fun i io => do
    let y ← getAt in2 i
    let z ← getAt io i
    setAt io i (z + (in1 - y))) 0 size io

/-- `vector_multiply_add` (src/vector_math.cc:180-188). -/
def multiplyAdd (size : Nat) (io in1 in2 : List F) : Res (List F) :=
  forLoop (fun i io => do
    let x ← getAt in1 i
    let y ← getAt in2 i
    let z ← getAt io i
    setAt io i (z + x * y)) 0 size io

/-- Loop of the two-buffer function kernels. -/
def applyTo (f : F → F) (size : Nat) (inp out : List F) : Res (List F) :=
  forLoop (fun i out => do
    let x ← getAt inp i
    setAt out i (f x)) 0 size out

/-- Loop of the in-place function kernels. -/
def applyInPlace (f : F → F) (size : Nat) (io : List F) : Res (List F) :=
  forLoop (fun i io => do
    let z ← getAt io i
    setAt io i (f z)) 0 size io

/-- `vector_exp` (src/vector_math.cc:190-205). -/
def expTo (size : Nat) (inp out : List F) : Res (List F) := applyTo FloatOps.exp size inp out

/-- `vector_exp` in place (src/vector_math.cc:207-221). -/
def exp (size : Nat) (io : List F) : Res (List F) := applyInPlace FloatOps.exp size io

/-- `vector_log` (src/vector_math.cc:224-239). -/
def logTo (size : Nat) (inp out : List F) : Res (List F) := applyTo FloatOps.log size inp out

/-- `vector_log` in place (src/vector_math.cc:241-255). -/
def log (size : Nat) (io : List F) : Res (List F) := applyInPlace FloatOps.log size io

/-- `vector_lgamma` (src/vector_math.cc:257-264). -/
def lgammaTo (size : Nat) (inp out : List F) : Res (List F) := applyTo FloatOps.lgamma size inp out

/-- `vector_lgamma` in place (src/vector_math.cc:266-272). -/
def lgamma (size : Nat) (io : List F) : Res (List F) := applyInPlace FloatOps.lgamma size io

/-- `vector_lgamma_nu` (src/vector_math.cc:276-283). -/
def lgammaNuTo (size : Nat) (inp out : List F) : Res (List F) :=
  applyTo FloatOps.lgammaNu size inp out

/-- `vector_lgamma_nu` in place (src/vector_math.cc:285-291). -/
def lgammaNu (size : Nat) (io : List F) : Res (List F) := applyInPlace FloatOps.lgammaNu size io

end VectorMath

end Dist
