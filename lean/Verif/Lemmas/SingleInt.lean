import Verif.Lemmas.SingleCell
import Mathlib.Analysis.SpecialFunctions.Gamma.Basic

/-! # Large single-precision numbers are integers -/

namespace Dist

namespace Single

/-- A single of absolute value at least `2^23` is an integer. -/
theorem int_of_large {x : ℝ} (h : 2 ^ 23 ≤ |x|) : ∃ k : ℤ, nearest x = k := by
  have hx0 : 0 < |x| := lt_of_lt_of_le (by positivity) h
  have hq : (0 : ℤ) ≤ quantum x := by
    unfold quantum
    refine le_max_of_le_left ?_
    have : (23 : ℤ) ≤ Int.log 2 |x| := by
      rw [← Int.zpow_le_iff_le_log (by norm_num) hx0]
      exact_mod_cast h
    omega
  obtain ⟨n, hn⟩ := Int.eq_ofNat_of_zero_le hq
  refine ⟨roundEven (x / 2 ^ quantum x) * 2 ^ n, ?_⟩
  unfold nearest
  generalize roundEven (x / 2 ^ quantum x) = m
  rw [hn]
  push_cast
  rfl

/-- Rounding an integer gives an integer. -/
theorem int_round (z : ℤ) : ∃ k : ℤ, nearest z = k := by
  rcases le_or_gt (2 ^ 23) |(z : ℝ)| with h | h
  · exact int_of_large h
  · refine ⟨z, nearest.int ?_⟩
    have : ((|z| : ℤ) : ℝ) < ((2 ^ 23 : ℤ) : ℝ) := by
      push_cast
      exact h.trans_eq (by norm_num)
    have : |z| < 2 ^ 23 := by exact_mod_cast this
    exact this.le.trans (by norm_num)

/-- A lower bound of `log Γ`. -/
theorem log_Gamma_ge {x : ℝ} (h : 2 ^ 20 ≤ x) : 10 * x ≤ Real.log (Real.Gamma x) := by
  have hx : 0 < x := lt_of_lt_of_le (by positivity) h
  obtain ⟨n, hn⟩ : ∃ n : ℕ, ⌊x⌋₊ = n + 1 := by
    have : 2 ^ 20 ≤ ⌊x⌋₊ := Nat.le_floor (by exact_mod_cast h)
    exact ⟨⌊x⌋₊ - 1, by omega⟩
  have h1 : ((n : ℝ) + 1) ≤ x := by
    have := Nat.floor_le hx.le
    rw [hn] at this; exact_mod_cast this
  have h2 : x < n + 1 + 1 := by
    have := Nat.lt_floor_add_one x
    rw [hn] at this; exact_mod_cast this
  have e20 : (2 : ℝ) ^ 20 = 2 ^ 19 + 2 ^ 19 := by norm_num
  have e19 : (2 : ℝ) ≤ 2 ^ 19 := by norm_num
  have hn2 : (2 : ℝ) ^ 19 ≤ n := by linarith
  have hn0 : (0 : ℝ) < n := lt_of_lt_of_le (by positivity) hn2
  have hm := (log_Gamma_lipschitz (a := (n : ℝ) + 1) (b := x) (by linarith) h1).1
  rw [Real.Gamma_nat_eq_factorial] at hm
  have hf : (0 : ℝ) < n.factorial := by exact_mod_cast n.factorial_pos
  have he := Real.pow_div_factorial_le_exp (x := (n : ℝ)) hn0.le n
  have hl := Real.log_le_log (by positivity) he
  rw [Real.log_exp, Real.log_div (by positivity) hf.ne', Real.log_pow] at hl
  have hlog : 19 * Real.log 2 ≤ Real.log n := by
    have := Real.log_le_log (by positivity) hn2
    rwa [Real.log_pow, Nat.cast_ofNat] at this
  have d1 := Real.log_two_gt_d9
  have h13 : (13 : ℝ) ≤ Real.log n := by linarith
  have : (n : ℝ) * 13 ≤ n * Real.log n := by gcongr
  have e19' : (100 : ℝ) ≤ 2 ^ 19 := by norm_num
  linarith

/-- `fast_lgamma` returns integers from `2^20` on. -/
theorem lgammaf_int {lib : Libm} {x : ℝ} (hs : nearest x = x) (h1 : 2 ^ 20 ≤ x) (h2 : x < 2 ^ 32) :
    ∃ k : ℤ, lgammaf lib x = k := by
  have hn : IsNormal x := ⟨hs, le_trans (by norm_num) h1, h2.trans (by norm_num)⟩
  have ha := lgammaf_near (lib := lib) hn (le_trans (by norm_num) h1) h2
  have hg := log_Gamma_ge h1
  have hb : 2 ^ 23 ≤ |lgammaf lib x| := by
    refine le_trans ?_ (le_abs_self _)
    have := (abs_le.1 ha).1
    norm_num at this h1 ⊢
    linarith
  obtain ⟨k, hk⟩ := int_of_large hb
  exact ⟨k, by rw [← hk, lgammaf_single]⟩

end Single

end Dist
