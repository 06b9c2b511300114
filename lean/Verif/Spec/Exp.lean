import Mathlib.Analysis.SpecialFunctions.Pow.Real
import Mathlib.Analysis.SpecialFunctions.Log.Basic
import Verif.Model.Exp

/-!
# What `fast_exp` assumes of the C library
-/

namespace Dist.Spec

open Dist.Exp

/-- The entries of the table are floats in `[1, 2)` at most one ulp from `2^(i/1024)`. -/
def PowAccurate (c : ExpVar) : Prop :=
  ∀ i < 1024, ∃ q : ℚ, F32.val (c.pow2 i) = .fin q ∧ 1 ≤ q ∧ q < 2 ∧
    |(q : ℝ) - 2 ^ ((i : ℝ) / 1024)| ≤ 2⁻¹ ^ 23

/-- `logf(2)` without error. -/
def LogExact (c : ExpVar) : Prop := c.log2 = Real.log 2

/-- `logf(2)` within half an ulp. -/
def LogNear (c : ExpVar) : Prop := |c.log2 - Real.log 2| ≤ 2⁻¹ ^ 25

/-- What one would want of `fast_exp`: close to the exponential where that is a normal float, tiny
and not negative below, and above never less than its value at `88`. -/
structure FastExpSound (rnd : ℝ → ℝ) (c : ExpVar) : Prop where
  accurate : ∀ x : ℝ, -87 ≤ x → x ≤ 88 → ∃ y, fastExp rnd c (.fin x) = .ok (.fin y) ∧
    |y - Real.exp x| < 2⁻¹ ^ 22 * Real.exp x
  tiny : ∀ x : ℝ, x < -87 → ∃ y, fastExp rnd c (.fin x) = .ok (.fin y) ∧ 0 ≤ y ∧ y ≤ 2⁻¹ ^ 124
  saturates : ∀ x : ℝ, 88 < x → fastExp rnd c (.fin x) = .ok (.inf false) ∨
    ∃ y, fastExp rnd c (.fin x) = .ok (.fin y) ∧ Real.exp 88 / 2 ≤ y

end Dist.Spec
