import Verif.Base.Rounded
import Verif.Model.Exp
import Verif.Model.Special
import Verif.Lemmas.FastLog

/-!
# The library's own single-precision arithmetic

`Single lib` is the instance of `FloatOps` the C++ code is compiled to: every operation rounds to
the nearest single-precision number, `fast_log`, `fast_lgamma`, `fast_lgamma_nu` and
`fast_log_factorial` are the table-driven functions of special.hpp applied to the bit pattern of
their argument, and `fast_exp` is the one of fmath.hpp.  `lib` is the C library: `lgammaf`, which
`fast_lgamma` calls below `2.5`, and the tables `fast_exp` is built from.

Simplified: the exponent is not bounded above, so that there are no infinities, and there is no
NaN; a number beyond the range of `float` has no bit pattern, and there the table-driven functions
are given the pattern zero.  The theorems about `Single` state ranges that exclude this.
-/

namespace Dist

/-- What the code takes from the C library: `lgammaf` (special.hpp:122, 247) and the constants of
`ExpVar` (vendor/fmath.hpp:138-173). -/
structure Libm where
  lgammaf : ℝ → ℝ
  expVar : Exp.ExpVar

/-- A `float`  (the type of every score, e.g. include/distributions/special.hpp:82). -/
structure Single (lib : Libm) where
  val : ℝ

namespace Single

open Classical in
/-- The bit pattern of a number, as `*(const int *) &v` reads it (special.hpp:129 and
vendor/fmath.hpp:104-107). -/
noncomputable def bits (x : ℝ) : BitVec 32 :=
  if h : ∃ b : BitVec 32, ∃ q : ℚ, F32.val b = .fin q ∧ (q : ℝ) = x then h.choose else 0

/-- The number of a bit pattern. -/
noncomputable def ofBits (b : BitVec 32) : RR nearest :=
  match F32.val b with
  | .fin q => ⟨q⟩
  | _ => ⟨0⟩

/-- The number a call returned. -/
noncomputable def result : Res (RR nearest) → ℝ
  | .ok r => r.val
  | _ => 0

/-- `fast_log` (special.hpp:82-85) with the table of `FastLog(14)` (src/special.cc:31-43). -/
noncomputable def logf (x : ℝ) : ℝ := result (Special.fastLog (Special.log2R nearest) (bits x))

/-- The type `fast_lgamma` evaluates its polynomial in (special.hpp:155-168): the coefficients are
`float`, the accumulator is a `double`.  Simplified: the rounding of doubles is left out. -/
structure Wide where
  val : ℝ

open Classical in
noncomputable instance : FloatOps Wide where
  add a b := ⟨a.val + b.val⟩
  sub a b := ⟨a.val - b.val⟩
  mul a b := ⟨a.val * b.val⟩
  div a b := ⟨a.val / b.val⟩
  neg a := ⟨-a.val⟩
  ofInt n := ⟨n⟩
  lit n d := ⟨nearest ((n : ℝ) / (d : ℝ))⟩
  lt a b := decide (a.val < b.val)
  le a b := decide (a.val ≤ b.val)
  log a := ⟨Real.log a.val⟩
  exp a := ⟨Real.exp a.val⟩
  pow a b := ⟨a.val ^ b.val⟩
  sqrt a := ⟨Real.sqrt a.val⟩
  lgamma a := ⟨Real.log (Real.Gamma a.val)⟩
  lgammaNu a := ⟨Real.log (Real.Gamma (a.val / 2 + 1 / 2)) - Real.log (Real.Gamma (a.val / 2))⟩
  logFactorial n := ⟨Real.log (Nat.factorial n)⟩
  pi := ⟨Real.pi⟩
  logPi := ⟨Real.log Real.pi⟩

/-- The argument of `fast_lgamma`, widened. -/
noncomputable def wide (b : BitVec 32) : Wide := ⟨(ofBits b).val⟩

/-- The sum `fast_lgamma` returned, as the `float` it is converted to (special.hpp:170). -/
noncomputable def narrow : Res Wide → ℝ
  | .ok r => nearest r.val
  | _ => 0

/-- `fast_lgamma` (special.hpp:114-171). -/
noncomputable def lgammaf (lib : Libm) (x : ℝ) : ℝ :=
  narrow (Special.fastLgamma wide (fun y => ⟨lib.lgammaf y.val⟩) (bits x))

/-- `fast_lgamma_nu` (special.hpp:239-273). -/
noncomputable def lgammaNuf (lib : Libm) (x : ℝ) : ℝ :=
  result (Special.fastLgammaNu ofBits (fun y => ⟨lib.lgammaf y.val⟩) (bits x))

/-- `fast_log_factorial` (special.hpp:208-214). -/
noncomputable def logFactorialf (lib : Libm) (n : ℕ) : ℝ :=
  narrow (Special.fastLogFactorial wide (fun y => ⟨lib.lgammaf y.val⟩) n)

/-- `fast_exp` (special.hpp:87-89). -/
noncomputable def expf (lib : Libm) (x : ℝ) : ℝ :=
  match Exp.fastExp nearest lib.expVar (.fin x) with
  | .ok (.fin y) => y
  | _ => 0

attribute [irreducible] logf lgammaf lgammaNuf logFactorialf expf

variable {lib : Libm}

open Classical in
noncomputable instance : FloatOps (Single lib) where
  add a b := ⟨nearest (a.val + b.val)⟩
  sub a b := ⟨nearest (a.val - b.val)⟩
  mul a b := ⟨nearest (a.val * b.val)⟩
  div a b := ⟨nearest (a.val / b.val)⟩
  neg a := ⟨-a.val⟩
  ofInt n := ⟨nearest n⟩
  lit n d := ⟨nearest ((n : ℝ) / (d : ℝ))⟩
  lt a b := decide (a.val < b.val)
  le a b := decide (a.val ≤ b.val)
  log a := ⟨logf a.val⟩
  exp a := ⟨expf lib a.val⟩
  pow a b := ⟨nearest (a.val ^ b.val)⟩
  sqrt a := ⟨nearest (Real.sqrt a.val)⟩
  lgamma a := ⟨lgammaf lib a.val⟩
  lgammaNu a := ⟨lgammaNuf lib a.val⟩
  logFactorial n := ⟨logFactorialf lib n⟩
  pi := ⟨nearest Real.pi⟩
  logPi := ⟨nearest (Real.log Real.pi)⟩

end Single

end Dist
