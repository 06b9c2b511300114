import Verif.Base.Rounded
import Mathlib.Tactic.Linarith
import Mathlib.Tactic.Positivity

/-! # Accumulated rounding errors -/

namespace Dist

/-- `r` is `x` after `k` roundings, in units of the bound `B` of `x`.  The unit is twice the relative
error of one rounding, which covers the absolute error for subnormal numbers. -/
structure RelErr (k : ℕ) (B r x : ℝ) : Prop where
  bound : |x| ≤ B
  err : |r - x| ≤ ((1 + 2⁻¹ ^ 23) ^ k - 1) * B

namespace RelErr

variable {k l : ℕ} {B C r s x z : ℝ}

theorem nonneg (h : RelErr k B r x) : 0 ≤ B := (abs_nonneg _).trans h.bound

theorem refl (x : ℝ) : RelErr 0 |x| x x := ⟨le_rfl, by simp⟩

theorem pow_ge (k : ℕ) : (1 : ℝ) ≤ (1 + 2⁻¹ ^ 23) ^ k := one_le_pow₀ (by norm_num)

theorem value (h : RelErr k B r x) : |r| ≤ (1 + 2⁻¹ ^ 23) ^ k * B := by
  have h1 := h.bound
  have h2 := h.err
  calc |r| = |(r - x) + x| := by rw [sub_add_cancel]
    _ ≤ |r - x| + |x| := abs_add_le _ _
    _ ≤ ((1 + 2⁻¹ ^ 23) ^ k - 1) * B + B := add_le_add h2 h1
    _ = _ := by ring

theorem mono (h : RelErr k B r x) (hkl : k ≤ l) : RelErr l B r x := by
  refine ⟨h.bound, h.err.trans ?_⟩
  have := h.nonneg
  gcongr
  norm_num

theorem weaken (h : RelErr k B r x) (hBC : B ≤ C) : RelErr k C r x := by
  refine ⟨h.bound.trans hBC, h.err.trans ?_⟩
  have := pow_ge k
  exact mul_le_mul_of_nonneg_left hBC (by linarith)

theorem rnd {rd : ℝ → ℝ} (hr : Rounding rd) (h : RelErr k B r x) (hB : 2⁻¹ ^ 126 ≤ B) :
    RelErr (k + 1) B (rd r) x := by
  refine ⟨h.bound, ?_⟩
  have h1 := hr.error r
  have h2 := h.value
  have h3 := pow_ge k
  have hB0 := h.nonneg
  have h4 : (2⁻¹ : ℝ) ^ 150 ≤ 2⁻¹ ^ 24 * ((1 + 2⁻¹ ^ 23) ^ k * B) := by
    calc (2⁻¹ : ℝ) ^ 150 = 2⁻¹ ^ 24 * (1 * 2⁻¹ ^ 126) := by norm_num
      _ ≤ 2⁻¹ ^ 24 * ((1 + 2⁻¹ ^ 23) ^ k * B) := by gcongr
  have h5 : |rd r - r| ≤ 2⁻¹ ^ 23 * ((1 + 2⁻¹ ^ 23) ^ k * B) := by
    refine h1.trans ((add_le_add (mul_le_mul_of_nonneg_left h2 (by positivity)) h4).trans
      (le_of_eq ?_))
    ring
  calc |rd r - x| = |(rd r - r) + (r - x)| := by rw [sub_add_sub_cancel]
    _ ≤ _ := abs_add_le _ _
    _ ≤ 2⁻¹ ^ 23 * ((1 + 2⁻¹ ^ 23) ^ k * B) + ((1 + 2⁻¹ ^ 23) ^ k - 1) * B := add_le_add h5 h.err
    _ = _ := by rw [pow_succ]; ring

theorem add (h : RelErr k B r x) (h' : RelErr k C s z) : RelErr k (B + C) (r + s) (x + z) := by
  refine ⟨(abs_add_le _ _).trans (add_le_add h.bound h'.bound), ?_⟩
  calc |r + s - (x + z)| = |(r - x) + (s - z)| := by ring_nf
    _ ≤ _ := (abs_add_le _ _).trans (add_le_add h.err h'.err)
    _ = _ := by ring

theorem mul (h : RelErr k B r x) (h' : RelErr l C s z) :
    RelErr (k + l) (B * C) (r * s) (x * z) := by
  have hB := h.nonneg
  have hC := h'.nonneg
  refine ⟨by rw [abs_mul]; exact mul_le_mul h.bound h'.bound (abs_nonneg _) hB, ?_⟩
  have e : r * s - x * z = (r - x) * s + x * (s - z) := by ring
  rw [e]
  have h1 : |(r - x) * s| ≤ ((1 + 2⁻¹ ^ 23) ^ k - 1) * B * ((1 + 2⁻¹ ^ 23) ^ l * C) := by
    rw [abs_mul]
    exact mul_le_mul h.err h'.value (abs_nonneg _)
      (mul_nonneg (by have := pow_ge k; linarith) hB)
  have h2 : |x * (s - z)| ≤ B * (((1 + 2⁻¹ ^ 23) ^ l - 1) * C) := by
    rw [abs_mul]
    exact mul_le_mul h.bound h'.err (abs_nonneg _) hB
  refine (abs_add_le _ _).trans ((add_le_add h1 h2).trans (le_of_eq ?_))
  rw [pow_add]
  ring

end RelErr

end Dist
