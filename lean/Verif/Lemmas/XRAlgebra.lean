import Verif.Base.XR

/-! # Algebra of exact arithmetic: the laws that survive `nan` -/

namespace Dist.XR

open FloatOps FloatNotation

theorem add_comm (a b : XR) : a + b = b + a := by
  cases a <;> cases b <;> simp [_root_.add_comm]
theorem add_assoc (a b c : XR) : a + b + c = a + (b + c) := by
  cases a <;> cases b <;> cases c <;> simp [_root_.add_assoc]
theorem mul_comm (a b : XR) : a * b = b * a := by
  cases a <;> cases b <;> simp [_root_.mul_comm]
theorem mul_assoc (a b c : XR) : a * b * c = a * (b * c) := by
  cases a <;> cases b <;> cases c <;> simp [_root_.mul_assoc]
theorem sub_eq (a b : XR) : a - b = a + -b := by
  cases a <;> cases b <;> simp [_root_.sub_eq_add_neg]
theorem neg_add (a b : XR) : -(a + b) = -a + -b := by
  cases a <;> cases b <;> simp [_root_.add_comm]
theorem neg_neg (a : XR) : - -a = a := by cases a <;> simp
theorem neg_mul (a b : XR) : -a * b = -(a * b) := by cases a <;> cases b <;> simp
theorem mul_neg (a b : XR) : a * -b = -(a * b) := by cases a <;> cases b <;> simp
theorem zero_add (a : XR) : fin 0 + a = a := by cases a <;> simp
theorem add_zero (a : XR) : a + fin 0 = a := by cases a <;> simp
theorem one_mul (a : XR) : fin 1 * a = a := by cases a <;> simp
theorem mul_add (a b c : XR) : a * (b + c) = a * b + a * c := by
  cases a <;> cases b <;> cases c <;> simp [_root_.mul_add]
theorem add_mul (a b c : XR) : (a + b) * c = a * c + b * c := by
  cases a <;> cases b <;> cases c <;> simp [_root_.add_mul]
theorem div_two (a : XR) : a / fin 2 = fin (1 / 2) * a := by
  cases a with
  | nan => simp
  | fin r => rw [fin_div _ _ (by norm_num), fin_mul]; congr 1; ring

theorem lgammaNu_fin_nonpos {a : ℝ} (h : a ≤ 0) : (lgammaNu (fin a) : XR) = nan := by
  show lift1 _ _ _ = _; simp [lift1, not_lt.mpr h]

theorem add_left_comm (a b c : XR) : a + (b + c) = b + (a + c) := by
  rw [← add_assoc, add_comm a b, add_assoc]

instance : Std.Associative (α := XR) (· + ·) := ⟨add_assoc⟩
instance : Std.Commutative (α := XR) (· + ·) := ⟨add_comm⟩
instance : Std.Associative (α := XR) (· * ·) := ⟨mul_assoc⟩
instance : Std.Commutative (α := XR) (· * ·) := ⟨mul_comm⟩

end Dist.XR
