import Mathlib.Tactic.Common

/-!
# Law-free interface to floating point

`FloatOps F` lists the floating-point operations the modelled code uses.  It
assumes no laws at all, so a theorem proved for every `F` holds bit for bit for
IEEE float32, with any rounding, with any `fast_log`/`fast_lgamma`
implementation, and in the presence of NaN and infinities.
-/

namespace Dist

class FloatOps (F : Type) where
  add : F → F → F
  sub : F → F → F
  mul : F → F → F
  div : F → F → F
  neg : F → F
  /-- conversion from an integer type -/
  ofInt : Int → F
  /-- decimal literal `num / den` in the source text -/
  lit : Int → Nat → F
  /-- `x < y` and `x <= y` as the hardware decides them -/
  lt : F → F → Bool
  le : F → F → Bool
  /-- `fast_log` -/
  log : F → F
  /-- `fast_exp` -/
  exp : F → F
  /-- `powf` -/
  pow : F → F → F
  /-- `sqrt` -/
  sqrt : F → F
  /-- `fast_lgamma` -/
  lgamma : F → F
  /-- `fast_lgamma_nu(nu)`, meant to approximate `lgamma(nu/2 + 1/2) - lgamma(nu/2)` -/
  lgammaNu : F → F
  /-- `fast_log_factorial(n)` on `uint32_t` -/
  logFactorial : Nat → F
  /-- the source constant for `pi` -/
  pi : F
  /-- the source constants for `log(pi)` (nich.hpp:194, niw.hpp:286, random.hpp:175) -/
  logPi : F

/-- `x == y` as the hardware decides it. -/
def FloatOps.eqf {F : Type} [FloatOps F] (x y : F) : Bool := FloatOps.le x y && FloatOps.le y x

/-! Arithmetic notation for `FloatOps`, switched on with `open scoped FloatNotation`. -/
namespace FloatNotation

variable {F : Type} [FloatOps F]

scoped instance instAdd : Add F := ⟨FloatOps.add⟩
scoped instance instSub : Sub F := ⟨FloatOps.sub⟩
scoped instance instMul : Mul F := ⟨FloatOps.mul⟩
scoped instance instDiv : Div F := ⟨FloatOps.div⟩
scoped instance instNeg : Neg F := ⟨FloatOps.neg⟩

end FloatNotation

end Dist
