import Mathlib.Data.Rat.Defs
import Mathlib.Tactic.NormNum
import Mathlib.Tactic.Linarith
import Mathlib.Data.Rat.Cast.Order
import Mathlib.Algebra.Order.Field.Basic
import Mathlib.Algebra.Order.Field.Rat
import Mathlib.Tactic.SplitIfs

/-!
# IEEE single precision, bit by bit

The table-driven functions of special.hpp look at the bits of their argument.  A
`float` is here its 32-bit pattern; `val` is the number it stands for and `lt`,
`le` are the comparisons of the standard (false as soon as one side is a NaN).
-/

namespace Dist.F32

/-- The value of a bit pattern. -/
inductive Val where
  | nan
  | inf (negative : Bool)
  | fin (q : ℚ)
deriving DecidableEq

/-- Biased exponent. -/
def expo (b : BitVec 32) : Nat := b.toNat / 2 ^ 23 % 256

/-- Fraction field. -/
def man (b : BitVec 32) : Nat := b.toNat % 2 ^ 23

/-- Absolute value of a finite pattern: normal numbers have the hidden bit, subnormal
numbers and zero do not. -/
def magnitude (b : BitVec 32) : ℚ :=
  if expo b = 0 then (man b : ℚ) / 2 ^ 149
  else ((2 ^ 23 + man b : ℕ) : ℚ) * 2 ^ expo b / 2 ^ 150

def val (b : BitVec 32) : Val :=
  if expo b = 255 then if man b = 0 then .inf b.msb else .nan
  else .fin (if b.msb then -magnitude b else magnitude b)

def Val.lt : Val → Val → Bool
  | .nan, _ => false
  | _, .nan => false
  | .fin a, .fin b => decide (a < b)
  | .inf s, .inf t => s && !t
  | .inf s, .fin _ => s
  | .fin _, .inf t => !t

def Val.le : Val → Val → Bool
  | .nan, _ => false
  | _, .nan => false
  | .fin a, .fin b => decide (a ≤ b)
  | .inf s, .inf t => s || !t
  | .inf s, .fin _ => s
  | .fin _, .inf t => !t

/-- The three classes of numbers the code sees. -/
def IsNaN (b : BitVec 32) : Prop := expo b = 255 ∧ man b ≠ 0

instance (b : BitVec 32) : Decidable (IsNaN b) := by unfold IsNaN; infer_instance

/-- Positive normal numbers, `2^-126` up to the largest finite float. -/
def PosNormal (b : BitVec 32) : Prop := b.msb = false ∧ 1 ≤ expo b ∧ expo b ≤ 254

instance (b : BitVec 32) : Decidable (PosNormal b) := by unfold PosNormal; infer_instance

/-- Conversion of an unsigned integer: exact up to 24 significant bits, otherwise rounded to
nearest, ties to even.  A carry out of the fraction moves into the exponent field. -/
def ofNat (n : Nat) : BitVec 32 :=
  if n = 0 then 0
  else
    let e := Nat.log2 n
    let m :=
      if e ≤ 23 then n * 2 ^ (23 - e)
      else
        let q := n / 2 ^ (e - 23)
        let r := n % 2 ^ (e - 23)
        if 2 * r < 2 ^ (e - 23) ∨ (2 * r = 2 ^ (e - 23) ∧ q % 2 = 0) then q else q + 1
    BitVec.ofNat 32 ((e + 127) * 2 ^ 23 + (m - 2 ^ 23))

theorem man_lt (b : BitVec 32) : man b < 2 ^ 23 := Nat.mod_lt _ (by norm_num)
theorem expo_lt (b : BitVec 32) : expo b < 256 := Nat.mod_lt _ (by norm_num)

theorem toNat_eq (b : BitVec 32) :
    b.toNat = (if b.msb then 2 ^ 31 else 0) + expo b * 2 ^ 23 + man b := by
  have hb := b.isLt
  unfold expo man
  rw [BitVec.msb_eq_decide]
  simp only [decide_eq_true_eq]
  split_ifs with h <;> norm_num at * <;> omega

theorem val_nan {b : BitVec 32} : val b = .nan ↔ IsNaN b := by
  unfold val IsNaN
  split_ifs <;> simp_all

theorem val_posNormal {b : BitVec 32} (h : PosNormal b) :
    val b = .fin (((2 ^ 23 + man b : ℕ) : ℚ) * 2 ^ expo b / 2 ^ 150) := by
  obtain ⟨hs, h1, h2⟩ := h
  unfold val magnitude
  have h0 : expo b ≠ 0 := by omega
  rw [if_neg (by omega), hs]
  simp [h0]

end Dist.F32
