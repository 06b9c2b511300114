import Mathlib.Analysis.SpecialFunctions.Log.Basic
import Mathlib.Analysis.SpecialFunctions.Gamma.Basic
import Mathlib.Analysis.SpecialFunctions.Sqrt
import Mathlib.Analysis.SpecialFunctions.Pow.Real
import Verif.Base.FloatOps

/-!
# Exact arithmetic with infinities

`XE` is a second exact instance of `FloatOps`: a number is a real, an infinity or `nan`, and
the operations follow the IEEE rules for infinities (zero is always the positive zero).  It is
used where the code itself stores or produces infinities.  Nothing is rounded.
-/

namespace Dist

inductive XE where
  | nan
  | ninf
  | pinf
  | fin (r : ℝ)

namespace XE

/-- IEEE addition. -/
noncomputable def add : XE → XE → XE
  | fin a, fin b => fin (a + b)
  | nan, _ => nan
  | _, nan => nan
  | pinf, ninf => nan
  | ninf, pinf => nan
  | pinf, _ => pinf
  | _, pinf => pinf
  | ninf, _ => ninf
  | _, ninf => ninf

def neg : XE → XE
  | nan => nan
  | ninf => pinf
  | pinf => ninf
  | fin r => fin (-r)

open Classical in
/-- An infinity with the sign of `r`; `nan` for zero. -/
noncomputable def infSign (r : ℝ) : XE := if 0 < r then pinf else if r < 0 then ninf else nan

noncomputable def mul : XE → XE → XE
  | fin a, fin b => fin (a * b)
  | nan, _ => nan
  | _, nan => nan
  | pinf, fin r => infSign r
  | fin r, pinf => infSign r
  | ninf, fin r => infSign (-r)
  | fin r, ninf => infSign (-r)
  | pinf, pinf => pinf
  | ninf, ninf => pinf
  | pinf, ninf => ninf
  | ninf, pinf => ninf

open Classical in
noncomputable def div : XE → XE → XE
  | fin a, fin b => if b = 0 then infSign a else fin (a / b)
  | nan, _ => nan
  | _, nan => nan
  | fin _, _ => fin 0
  | pinf, fin r => if r < 0 then ninf else pinf
  | ninf, fin r => if r < 0 then pinf else ninf
  | _, _ => nan

open Classical in
noncomputable def lt : XE → XE → Bool
  | fin a, fin b => decide (a < b)
  | nan, _ => false
  | _, nan => false
  | ninf, ninf => false
  | ninf, _ => true
  | _, ninf => false
  | pinf, _ => false
  | fin _, pinf => true

open Classical in
noncomputable def le : XE → XE → Bool
  | fin a, fin b => decide (a ≤ b)
  | nan, _ => false
  | _, nan => false
  | ninf, _ => true
  | _, ninf => false
  | _, pinf => true
  | pinf, fin _ => false

open Classical in
noncomputable def log : XE → XE
  | fin a => if 0 < a then fin (Real.log a) else if a = 0 then ninf else nan
  | pinf => pinf
  | _ => nan

noncomputable def exp : XE → XE
  | fin a => fin (Real.exp a)
  | pinf => pinf
  | ninf => fin 0
  | nan => nan

open Classical in
/-- A function known on positive reals, `+inf` at `+inf`, and not described elsewhere. -/
noncomputable def onPos (f : ℝ → ℝ) : XE → XE
  | fin a => if 0 < a then fin (f a) else nan
  | pinf => pinf
  | _ => nan

open Classical in
/-- `sqrt`. -/
noncomputable def sqrt : XE → XE
  | fin a => if 0 ≤ a then fin (Real.sqrt a) else nan
  | pinf => pinf
  | _ => nan

open Classical in
noncomputable instance : FloatOps XE where
  add := add
  sub a b := add a (neg b)
  mul := mul
  div := div
  neg := neg
  ofInt n := fin n
  lit n d := fin ((n : ℝ) / (d : ℝ))
  lt := lt
  le := le
  log := log
  exp := exp
  pow a b := match a, b with
    | fin a, fin b => if 0 < a then fin (a ^ b) else nan
    | _, _ => nan
  sqrt := sqrt
  lgamma := onPos fun a => Real.log (Real.Gamma a)
  lgammaNu := onPos fun a =>
    Real.log (Real.Gamma (a / 2 + 1 / 2)) - Real.log (Real.Gamma (a / 2))
  logFactorial n := fin (Real.log (Nat.factorial n))
  pi := fin Real.pi
  logPi := fin (Real.log Real.pi)

open FloatOps FloatNotation

@[simp] theorem fin_inj {a b : ℝ} : fin a = fin b ↔ a = b := by
  constructor
  · intro h; injection h
  · rintro rfl; rfl

@[simp] theorem fin_add (a b : ℝ) : (fin a + fin b : XE) = fin (a + b) := rfl
@[simp] theorem fin_sub (a b : ℝ) : (fin a - fin b : XE) = fin (a - b) := by
  show fin (a + -b) = _; rw [sub_eq_add_neg]
@[simp] theorem fin_mul (a b : ℝ) : (fin a * fin b : XE) = fin (a * b) := rfl
@[simp] theorem fin_neg (a : ℝ) : (-fin a : XE) = fin (-a) := rfl
theorem fin_div (a b : ℝ) (h : b ≠ 0) : (fin a / fin b : XE) = fin (a / b) := by
  show div _ _ = _; simp [div, h]
@[simp] theorem fin_add_ninf (a : ℝ) : (fin a + ninf : XE) = ninf := rfl
@[simp] theorem ninf_add_fin (a : ℝ) : (ninf + fin a : XE) = ninf := rfl
@[simp] theorem ninf_sub_fin (a : ℝ) : (ninf - fin a : XE) = ninf := rfl
@[simp] theorem fin_sub_ninf (a : ℝ) : (fin a - ninf : XE) = pinf := rfl
@[simp] theorem ninf_sub_ninf : (ninf - ninf : XE) = nan := rfl
@[simp] theorem nan_add (x : XE) : (nan + x : XE) = nan := by cases x <;> rfl
@[simp] theorem add_nan (x : XE) : (x + nan : XE) = nan := by cases x <;> rfl
@[simp] theorem nan_sub (x : XE) : (nan - x : XE) = nan := by cases x <;> rfl
@[simp] theorem sub_nan (x : XE) : (x - nan : XE) = nan := by cases x <;> rfl
@[simp] theorem ofInt_eq (n : Int) : (ofInt n : XE) = fin n := rfl
@[simp] theorem lit_eq (n : Int) (d : Nat) : (lit n d : XE) = fin ((n : ℝ) / (d : ℝ)) := rfl
@[simp] theorem exp_fin (a : ℝ) : (FloatOps.exp (fin a) : XE) = fin (Real.exp a) := rfl
@[simp] theorem exp_ninf : (FloatOps.exp ninf : XE) = fin 0 := rfl
@[simp] theorem exp_nan : (FloatOps.exp nan : XE) = nan := rfl
@[simp] theorem log_nan : (FloatOps.log nan : XE) = nan := rfl
theorem log_fin {a : ℝ} (h : 0 < a) : (FloatOps.log (fin a) : XE) = fin (Real.log a) := by
  show log _ = _; simp [log, h]
@[simp] theorem log_zero : (FloatOps.log (fin 0) : XE) = ninf := by
  show log _ = _; simp [log]
@[simp] theorem logFactorial_eq (n : Nat) :
    (logFactorial n : XE) = fin (Real.log (Nat.factorial n)) := rfl

@[simp] theorem lt_fin (a b : ℝ) : FloatOps.lt (fin a) (fin b) = true ↔ a < b := by
  show lt _ _ = true ↔ _; simp [lt]
@[simp] theorem lt_ninf (x : XE) : FloatOps.lt x ninf = false := by
  cases x <;> rfl
@[simp] theorem ninf_lt_fin (a : ℝ) : FloatOps.lt ninf (fin a) = true := rfl

end XE

end Dist
