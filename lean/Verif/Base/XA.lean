import Verif.Base.XR

/-!
# Exact arithmetic with the functions of the library on negative arguments

`XA` is `XR` except that `log` and `lgamma` are the functions the library computes on all of the
reals.  `fast_log` reads the exponent and mantissa bits only (special.hpp:57-67), so it
approximates `log |x|` (`C47_sign_blind`); `fast_lgamma` calls `lgammaf` below 2.5
(special.hpp:121-123), which returns `log |Γ(x)|`.  Mathlib's `Real.log x` is `log |x|` as well.
The exceptional cases left are `log 0` and the poles `0, -1, -2, ...` of `Γ`. -/

namespace Dist

/-- The numbers of `XR`, with other functions. -/
def XA := XR

namespace XA

/-- A real number. -/
def fin (r : ℝ) : XA := XR.fin r

/-- The exceptional value. -/
def nan : XA := XR.nan

noncomputable instance : FloatOps XA where
  add := XR.lift2 (fun _ _ => True) (· + ·)
  sub := XR.lift2 (fun _ _ => True) (· - ·)
  mul := XR.lift2 (fun _ _ => True) (· * ·)
  div := XR.lift2 (fun _ b => b ≠ 0) (· / ·)
  neg := XR.lift1 (fun _ => True) (- ·)
  ofInt n := fin n
  lit n d := fin ((n : ℝ) / (d : ℝ))
  lt := XR.cmp (· < ·)
  le := XR.cmp (· ≤ ·)
  log := XR.lift1 (fun a => a ≠ 0) fun a => Real.log |a|
  exp := XR.lift1 (fun _ => True) Real.exp
  pow := XR.lift2 (fun a _ => 0 < a) (· ^ ·)
  sqrt := XR.lift1 (fun a => 0 ≤ a) Real.sqrt
  lgamma := XR.lift1 (fun a => ∀ n : ℕ, a ≠ -n) fun a => Real.log |Real.Gamma a|
  lgammaNu := XR.lift1 (fun a => 0 < a) fun a =>
    Real.log (Real.Gamma (a / 2 + 1 / 2)) - Real.log (Real.Gamma (a / 2))
  logFactorial n := fin (Real.log (Nat.factorial n))
  pi := fin Real.pi
  logPi := fin (Real.log Real.pi)

open FloatOps FloatNotation

@[simp] theorem fin_inj {a b : ℝ} : fin a = fin b ↔ a = b := XR.fin_inj

@[simp] theorem fin_add (a b : ℝ) : (fin a + fin b : XA) = fin (a + b) := XR.fin_add a b
@[simp] theorem fin_sub (a b : ℝ) : (fin a - fin b : XA) = fin (a - b) := XR.fin_sub a b
@[simp] theorem fin_mul (a b : ℝ) : (fin a * fin b : XA) = fin (a * b) := XR.fin_mul a b
theorem fin_div (a b : ℝ) (h : b ≠ 0) : (fin a / fin b : XA) = fin (a / b) := XR.fin_div a b h
@[simp] theorem fin_div_zero (a : ℝ) : (fin a / fin 0 : XA) = nan := XR.fin_div_zero a
@[simp] theorem ofInt_eq (n : Int) : (ofInt n : XA) = fin n := rfl
@[simp] theorem log_nan : (log nan : XA) = nan := rfl
@[simp] theorem add_nan (x : XA) : (x + nan : XA) = nan := XR.add_nan x

theorem log_fin {a : ℝ} (h : a ≠ 0) : (log (fin a) : XA) = fin (Real.log a) := by
  show XR.lift1 _ _ _ = _; simp [XR.lift1, fin, h]

theorem lgamma_fin {a : ℝ} (h : ∀ n : ℕ, a ≠ -n) :
    (lgamma (fin a) : XA) = fin (Real.log (Real.Gamma a)) := by
  show XR.lift1 _ _ _ = _; simp [XR.lift1, fin, h]

/-- Agreement wherever `XR` is defined. -/
def Extends (x : XR) (y : XA) : Prop := ∀ r, x = .fin r → y = fin r

theorem Extends.fin (r : ℝ) : Extends (.fin r) (XA.fin r) := by
  intro s h; rw [XR.fin_inj.mp h]

variable {x y : XR} {x' y' : XA}

theorem Extends.add (h : Extends x x') (k : Extends y y') : Extends (x + y) (x' + y') := by
  intro r e
  rcases x with _ | a <;> rcases y with _ | b <;> simp at e
  rw [h a rfl, k b rfl, fin_add, e]

theorem Extends.sub (h : Extends x x') (k : Extends y y') : Extends (x - y) (x' - y') := by
  intro r e
  rcases x with _ | a <;> rcases y with _ | b <;> simp at e
  rw [h a rfl, k b rfl, fin_sub, e]

theorem Extends.mul (h : Extends x x') (k : Extends y y') : Extends (x * y) (x' * y') := by
  intro r e
  rcases x with _ | a <;> rcases y with _ | b <;> simp at e
  rw [h a rfl, k b rfl, fin_mul, e]

theorem Extends.div (h : Extends x x') (k : Extends y y') : Extends (x / y) (x' / y') := by
  intro r e
  rcases x with _ | a <;> rcases y with _ | b <;> try simp at e
  by_cases hb : b = 0
  · subst hb; simp at e
  · rw [XR.fin_div _ _ hb] at e
    rw [h a rfl, k b rfl, fin_div _ _ hb, XR.fin_inj.mp e]

theorem Extends.log (h : Extends x x') : Extends (FloatOps.log x) (FloatOps.log x') := by
  intro r e
  rcases x with _ | a
  · simp at e
  · by_cases ha : 0 < a
    · rw [XR.log_fin ha] at e
      rw [h a rfl, log_fin ha.ne', XR.fin_inj.mp e]
    · rw [XR.log_fin_nonpos (not_lt.mp ha)] at e; simp at e

theorem Extends.lgamma (h : Extends x x') : Extends (FloatOps.lgamma x) (FloatOps.lgamma x') := by
  intro r e
  rcases x with _ | a
  · simp at e
  · by_cases ha : 0 < a
    · rw [XR.lgamma_fin ha] at e
      rw [h a rfl, lgamma_fin (fun n hn => by
        have : (0 : ℝ) ≤ n := Nat.cast_nonneg n
        linarith), XR.fin_inj.mp e]
    · rw [XR.lgamma_fin_nonpos (not_lt.mp ha)] at e; simp at e

theorem Extends.ofInt (n : Int) : Extends (FloatOps.ofInt n) (FloatOps.ofInt n) := by
  intro r e; simpa using e

end XA
end Dist
