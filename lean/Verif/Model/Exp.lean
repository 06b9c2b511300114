import Mathlib.Analysis.SpecialFunctions.Log.Basic
import Verif.Base.Float32
import Verif.Base.Res

/-!
# `fast_exp`

`fast_exp` (include/distributions/special.hpp:88-90) is `fmath::exp`
(include/distributions/vendor/fmath.hpp:433-460), the branch selected by `#if 1`.  A `float` is
a value of `V`: not a number, an infinity, or a real number; each operation on two finite
numbers rounds its result by `rnd`, which is a parameter.  Simplified: a finite result never
overflows to an infinity.  The factor `fi.f` is assembled bit by bit as in the code.
-/

namespace Dist.Exp

/-- The value of a `float`. -/
inductive V where
  | nan
  | inf (negative : Bool)
  | fin (x : ℝ)

/-- Value of a bit pattern (the union `fi`, include/distributions/vendor/fmath.hpp:104-107). -/
noncomputable def V.ofBits (b : BitVec 32) : V :=
  match F32.val b with
  | .nan => .nan
  | .inf s => .inf s
  | .fin q => .fin (q : ℝ)

noncomputable def V.neg : V → V
  | .nan => .nan
  | .inf s => .inf (!s)
  | .fin x => .fin (-x)

/-- Floating-point addition. -/
noncomputable def V.add (rnd : ℝ → ℝ) : V → V → V
  | .nan, _ => .nan
  | _, .nan => .nan
  | .fin x, .fin y => .fin (rnd (x + y))
  | .inf s, .fin _ => .inf s
  | .fin _, .inf s => .inf s
  | .inf s, .inf t => if s = t then .inf s else .nan

noncomputable def V.sub (rnd : ℝ → ℝ) (x y : V) : V := V.add rnd x y.neg

/-- Sign of a product with an infinity of sign `s`; zero times infinity is not a number. -/
noncomputable def V.scaleInf (s : Bool) (y : ℝ) : V :=
  if y = 0 then .nan else .inf (s ^^ decide (y < 0))

/-- Floating-point multiplication. -/
noncomputable def V.mul (rnd : ℝ → ℝ) : V → V → V
  | .nan, _ => .nan
  | _, .nan => .nan
  | .fin x, .fin y => .fin (rnd (x * y))
  | .inf s, .fin y => V.scaleInf s y
  | .fin x, .inf s => V.scaleInf s x
  | .inf s, .inf t => .inf (s ^^ t)

/-- Comparison, false when one side is not a number. -/
noncomputable def V.lt : V → V → Bool
  | .nan, _ => false
  | _, .nan => false
  | .fin x, .fin y => decide (x < y)
  | .inf s, .inf t => s && !t
  | .inf s, .fin _ => s
  | .fin _, .inf t => !t

/-- `_mm_min_ss`: the second operand unless the first is smaller
(include/distributions/vendor/fmath.hpp:446). -/
noncomputable def V.minss (x y : V) : V := if x.lt y then x else y

/-- `_mm_max_ss`: the second operand unless the first is larger
(include/distributions/vendor/fmath.hpp:447). -/
noncomputable def V.maxss (x y : V) : V := if y.lt x then x else y

/-- Nearest integer, ties to even: the default rounding mode of the conversion below. -/
noncomputable def rint (x : ℝ) : ℤ :=
  if x - ⌊x⌋ < 1 / 2 then ⌊x⌋
  else if 1 / 2 < x - ⌊x⌋ then ⌊x⌋ + 1
  else if ⌊x⌋ % 2 = 0 then ⌊x⌋ else ⌊x⌋ + 1

/-- `_mm_cvtss_si32` (include/distributions/vendor/fmath.hpp:444 and 450): the nearest integer;
for what does not fit an `int` the "integer indefinite" value `-2^31`. -/
noncomputable def cvtss : V → ℤ
  | .fin x => if -2 ^ 31 ≤ rint x ∧ rint x < 2 ^ 31 then rint x else -2 ^ 31
  | _ => -2 ^ 31

/-- `ExpVar<10>` (include/distributions/vendor/fmath.hpp:138-173): `log2` is `logf(2.0f)` and
`pow2 i` is the `float` `pow(2.0f, i / 1024)`, both supplied by the C library. -/
structure ExpVar where
  log2 : ℝ
  pow2 : ℕ → BitVec 32

/-- include/distributions/vendor/fmath.hpp:160. -/
noncomputable def ExpVar.a (rnd : ℝ → ℝ) (c : ExpVar) : ℝ := rnd (1024 / c.log2)

/-- include/distributions/vendor/fmath.hpp:161. -/
noncomputable def ExpVar.b (rnd : ℝ → ℝ) (c : ExpVar) : ℝ := rnd (c.log2 / 1024)

/-- `tbl[i] = fi.i & mask(23)`, include/distributions/vendor/fmath.hpp:168-173. -/
def ExpVar.tbl (c : ExpVar) (i : ℕ) : BitVec 32 := c.pow2 i &&& BitVec.ofNat 32 (2 ^ 23 - 1)

/-- `f88`, the bit pattern of `88.0f`, include/distributions/vendor/fmath.hpp:143. -/
def f88 : ℤ := 0x42b00000

/-- The clamp, include/distributions/vendor/fmath.hpp:442-448.  The test compares the *value* of
`x`, converted to an integer and stripped of its sign bit, with the bit pattern of `88.0f`. -/
noncomputable def clamp (x : V) : V :=
  let limit := cvtss x % 2 ^ 31
  if f88 < limit then (x.minss (.fin 88)).maxss (.fin (-88)) else x

/-- The integer `r`, include/distributions/vendor/fmath.hpp:450. -/
noncomputable def reduce (rnd : ℝ → ℝ) (c : ExpVar) (x1 : V) : ℤ :=
  cvtss (V.mul rnd x1 (.fin (c.a rnd)))

/-- `fi.i = ((u + 127) << 23) | expVar.tbl[v]`, include/distributions/vendor/fmath.hpp:451-455,
with the shift as the processor does it, dropping what leaves the word. -/
noncomputable def assemble (c : ExpVar) (r : ℤ) : BitVec 32 :=
  let v := (r % 2 ^ 10).toNat
  let u := r / 2 ^ 10
  (BitVec.ofInt 32 (u + 127) <<< 23) ||| c.tbl v

/-- Lines 450-456 of include/distributions/vendor/fmath.hpp after the clamp, with the wrapping
shift. -/
noncomputable def machine (rnd : ℝ → ℝ) (c : ExpVar) (x1 : V) : V :=
  let r := reduce rnd c x1
  let t := V.sub rnd x1 (V.mul rnd (.fin (rnd (r : ℝ))) (.fin (c.b rnd)))
  V.mul rnd (V.add rnd (.fin 1) t) (V.ofBits (assemble c r))

/-- The left shift of a signed number is defined when the number is nonnegative and the result
fits the unsigned type. -/
def ShiftDefined (r : ℤ) : Prop := 0 ≤ r / 2 ^ 10 + 127 ∧ (r / 2 ^ 10 + 127) * 2 ^ 23 < 2 ^ 32

instance (r : ℤ) : Decidable (ShiftDefined r) := by unfold ShiftDefined; infer_instance

/-- `fast_exp` as compiled for the processor: shifts wrap. -/
noncomputable def fastExpMachine (rnd : ℝ → ℝ) (c : ExpVar) (x : V) : V := machine rnd c (clamp x)

/-- `fast_exp` (include/distributions/special.hpp:88-90) as C++: a shift out of range is
undefined behaviour. -/
noncomputable def fastExp (rnd : ℝ → ℝ) (c : ExpVar) (x : V) : Res V :=
  if ShiftDefined (reduce rnd c (clamp x)) then .ok (fastExpMachine rnd c x) else .ub

end Dist.Exp
