import Mathlib.Analysis.SpecialFunctions.Log.Basic
import Mathlib.Analysis.SpecialFunctions.Gamma.Basic
import Mathlib.Analysis.SpecialFunctions.Sqrt
import Mathlib.Analysis.SpecialFunctions.Pow.Real
import Verif.Base.FloatOps

/-!
# Exact arithmetic: real numbers with one exceptional value

`XR` is the instance of `FloatOps` used for theorems "in exact arithmetic".  A
number is a real (`fin r`) or `nan`.  Every operation on `nan` gives `nan`; so do
division by zero, `log`/`lgamma` outside the positive reals and `sqrt` of a
negative number.  Comparisons with `nan` are false.  A theorem that concludes
`... = fin r` therefore also states that no exceptional operation took place.
Rounding is not modelled, source constants for `pi` and `log(pi)` stand for the exact
numbers; `fast_log`, `fast_exp`, `fast_lgamma`, ... are the exact
functions they approximate. -/

namespace Dist

inductive XR where
  | nan
  | fin (r : ℝ)

namespace XR

open Classical in
/-- Apply a partial real function. -/
noncomputable def lift1 (dom : ℝ → Prop) (f : ℝ → ℝ) : XR → XR
  | fin a => if dom a then fin (f a) else nan
  | nan => nan

open Classical in
noncomputable def lift2 (dom : ℝ → ℝ → Prop) (f : ℝ → ℝ → ℝ) : XR → XR → XR
  | fin a, fin b => if dom a b then fin (f a b) else nan
  | _, _ => nan

open Classical in
noncomputable def cmp (p : ℝ → ℝ → Prop) : XR → XR → Bool
  | fin a, fin b => decide (p a b)
  | _, _ => false

noncomputable instance : FloatOps XR where
  add := lift2 (fun _ _ => True) (· + ·)
  sub := lift2 (fun _ _ => True) (· - ·)
  mul := lift2 (fun _ _ => True) (· * ·)
  div := lift2 (fun _ b => b ≠ 0) (· / ·)
  neg := lift1 (fun _ => True) (- ·)
  ofInt n := fin n
  lit n d := fin ((n : ℝ) / (d : ℝ))
  lt := cmp (· < ·)
  le := cmp (· ≤ ·)
  log := lift1 (fun a => 0 < a) Real.log
  exp := lift1 (fun _ => True) Real.exp
  pow := lift2 (fun a _ => 0 < a) (· ^ ·)
  sqrt := lift1 (fun a => 0 ≤ a) Real.sqrt
  lgamma := lift1 (fun a => 0 < a) fun a => Real.log (Real.Gamma a)
  lgammaNu := lift1 (fun a => 0 < a) fun a =>
    Real.log (Real.Gamma (a / 2 + 1 / 2)) - Real.log (Real.Gamma (a / 2))
  logFactorial n := fin (Real.log (Nat.factorial n))
  pi := fin Real.pi
  logPi := fin (Real.log Real.pi)

open FloatOps FloatNotation

@[simp] theorem fin_inj {a b : ℝ} : fin a = fin b ↔ a = b := by
  constructor
  · intro h; injection h
  · rintro rfl; rfl

@[simp] theorem fin_ne_nan {a : ℝ} : fin a ≠ nan := by simp
@[simp] theorem nan_ne_fin {a : ℝ} : nan ≠ fin a := by simp

@[simp] theorem fin_add (a b : ℝ) : (fin a + fin b : XR) = fin (a + b) := by
  show lift2 _ _ _ _ = _; simp [lift2]
@[simp] theorem fin_sub (a b : ℝ) : (fin a - fin b : XR) = fin (a - b) := by
  show lift2 _ _ _ _ = _; simp [lift2]
@[simp] theorem fin_mul (a b : ℝ) : (fin a * fin b : XR) = fin (a * b) := by
  show lift2 _ _ _ _ = _; simp [lift2]
theorem fin_div (a b : ℝ) (h : b ≠ 0) : (fin a / fin b : XR) = fin (a / b) := by
  show lift2 _ _ _ _ = _; simp [lift2, h]
@[simp] theorem fin_div_zero (a : ℝ) : (fin a / fin 0 : XR) = nan := by
  show lift2 _ _ _ _ = _; simp [lift2]
@[simp] theorem fin_neg (a : ℝ) : (-fin a : XR) = fin (-a) := by
  show lift1 _ _ _ = _; simp [lift1]

@[simp] theorem nan_add (x : XR) : (nan + x : XR) = nan := rfl
@[simp] theorem add_nan (x : XR) : (x + nan : XR) = nan := by cases x <;> rfl
@[simp] theorem nan_sub (x : XR) : (nan - x : XR) = nan := rfl
@[simp] theorem sub_nan (x : XR) : (x - nan : XR) = nan := by cases x <;> rfl
@[simp] theorem nan_mul (x : XR) : (nan * x : XR) = nan := rfl
@[simp] theorem mul_nan (x : XR) : (x * nan : XR) = nan := by cases x <;> rfl
@[simp] theorem nan_div (x : XR) : (nan / x : XR) = nan := rfl
@[simp] theorem div_nan (x : XR) : (x / nan : XR) = nan := by cases x <;> rfl
@[simp] theorem neg_nan : (-nan : XR) = nan := rfl
@[simp] theorem log_nan : (log nan : XR) = nan := rfl
@[simp] theorem exp_nan : (exp nan : XR) = nan := rfl
@[simp] theorem lgamma_nan : (lgamma nan : XR) = nan := rfl

@[simp] theorem ofInt_eq (n : Int) : (ofInt n : XR) = fin n := rfl
@[simp] theorem lit_eq (n : Int) (d : Nat) : (lit n d : XR) = fin ((n : ℝ) / (d : ℝ)) := rfl
@[simp] theorem pi_eq : (FloatOps.pi : XR) = fin Real.pi := rfl
@[simp] theorem logPi_eq : (FloatOps.logPi : XR) = fin (Real.log Real.pi) := rfl
@[simp] theorem logFactorial_eq (n : Nat) :
    (logFactorial n : XR) = fin (Real.log (Nat.factorial n)) := rfl

theorem log_fin {a : ℝ} (h : 0 < a) : (log (fin a) : XR) = fin (Real.log a) := by
  show lift1 _ _ _ = _; simp [lift1, h]
theorem log_fin_nonpos {a : ℝ} (h : a ≤ 0) : (log (fin a) : XR) = nan := by
  show lift1 _ _ _ = _; simp [lift1, not_lt.mpr h]
@[simp] theorem exp_fin (a : ℝ) : (exp (fin a) : XR) = fin (Real.exp a) := by
  show lift1 _ _ _ = _; simp [lift1]
theorem pow_fin {a : ℝ} (h : 0 < a) (b : ℝ) : (FloatOps.pow (fin a) (fin b) : XR) = fin (a ^ b) := by
  show lift2 _ _ _ _ = _; simp [lift2, h]
theorem sqrt_fin {a : ℝ} (h : 0 ≤ a) : (sqrt (fin a) : XR) = fin (Real.sqrt a) := by
  show lift1 _ _ _ = _; simp [lift1, h]
theorem lgamma_fin {a : ℝ} (h : 0 < a) :
    (lgamma (fin a) : XR) = fin (Real.log (Real.Gamma a)) := by
  show lift1 _ _ _ = _; simp [lift1, h]
theorem lgamma_fin_nonpos {a : ℝ} (h : a ≤ 0) : (lgamma (fin a) : XR) = nan := by
  show lift1 _ _ _ = _; simp [lift1, not_lt.mpr h]
theorem lgammaNu_fin {a : ℝ} (h : 0 < a) : (lgammaNu (fin a) : XR) =
    fin (Real.log (Real.Gamma (a / 2 + 1 / 2)) - Real.log (Real.Gamma (a / 2))) := by
  show lift1 _ _ _ = _; simp [lift1, h]

@[simp] theorem lt_fin (a b : ℝ) : FloatOps.lt (fin a) (fin b) = true ↔ a < b := by
  show cmp _ _ _ = true ↔ _; simp [cmp]
@[simp] theorem le_fin (a b : ℝ) : FloatOps.le (fin a) (fin b) = true ↔ a ≤ b := by
  show cmp _ _ _ = true ↔ _; simp [cmp]
theorem lt_fin_false {a b : ℝ} : FloatOps.lt (fin a) (fin b) = false ↔ b ≤ a := by
  rw [← not_iff_not, Bool.not_eq_false, lt_fin, not_le]
theorem le_fin_false {a b : ℝ} : FloatOps.le (fin a) (fin b) = false ↔ b < a := by
  rw [← not_iff_not, Bool.not_eq_false, le_fin, not_lt]

end XR

end Dist
