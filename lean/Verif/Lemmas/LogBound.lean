import Mathlib.Analysis.SpecialFunctions.Log.Deriv
import Mathlib.Data.Nat.Choose.Basic
import Mathlib.Data.Nat.Log
import Mathlib.Tactic.Linarith
import Verif.Lemmas.PartitionSum

/-! # Checking decimal values of logarithms of large integers

`logCheck tol z v` evaluates a partial sum of the logarithm series in rational arithmetic; if
it returns `true` then `v` is within `tol` of the real `log z`. -/

namespace Dist

/-- `∑ i < n, x^(i+1)/(i+1)`. -/
def logSeries (x : ℚ) : ℕ → ℚ
  | 0 => 0
  | n + 1 => logSeries x n + x ^ (n + 1) / ((n : ℚ) + 1)

theorem logSeries_cast (x : ℚ) (n : ℕ) : ((logSeries x n : ℚ) : ℝ) =
    ∑ i ∈ Finset.range n, (x : ℝ) ^ (i + 1) / ((i : ℝ) + 1) := by
  induction n with
  | zero => simp [logSeries]
  | succ n ih => rw [logSeries, Finset.sum_range_succ, Rat.cast_add, ih]; push_cast; rfl

/-- An approximation of `log 2`. -/
def logTwo : ℚ := logSeries (1 / 2) 70

theorem logTwo_error : |Real.log 2 - (logTwo : ℝ)| ≤ (1 / 2) ^ 70 := by
  have h := Real.abs_log_sub_add_sum_range_le (x := 1 / 2) (by norm_num [abs_of_pos]) 70
  have h2 : Real.log (1 - 1 / 2) = -Real.log 2 := by
    rw [show (1 : ℝ) - 1 / 2 = 2⁻¹ by norm_num, Real.log_inv]
  have h3 : ((logTwo : ℚ) : ℝ) =
      ∑ i ∈ Finset.range 70, ((1 : ℝ) / 2) ^ (i + 1) / ((i : ℝ) + 1) := by
    rw [logTwo, logSeries_cast]; push_cast; rfl
  rw [h2, ← h3] at h
  rw [abs_sub_comm, sub_eq_add_neg]
  refine h.trans (le_of_eq ?_)
  rw [abs_of_pos (by norm_num : (0 : ℝ) < 1 / 2)]
  norm_num

/-- `v` is within `tol` of `log z`. -/
def logCheck (tol : ℚ) (z : ℕ) (v : ℚ) : Bool :=
  let k := Nat.log2 (z * 3 / 2)
  let x : ℚ := 1 - (z : ℚ) / 2 ^ k
  decide (0 < z) && decide (|x| ≤ 1 / 2) &&
    decide (|(k : ℚ) * logTwo - logSeries x 45 - v| + k / 2 ^ 70 + 2 * |x| ^ 46 ≤ tol)

theorem logCheck_sound {tol : ℚ} {z : ℕ} {v : ℚ} (h : logCheck tol z v = true) :
    |Real.log z - (v : ℝ)| ≤ (tol : ℝ) := by
  unfold logCheck at h
  simp only [Bool.and_eq_true, decide_eq_true_eq] at h
  generalize Nat.log2 (z * 3 / 2) = k at h
  obtain ⟨⟨hz, hx⟩, ht⟩ := h
  set x : ℚ := 1 - (z : ℚ) / 2 ^ k with hxd
  have hxr : |(x : ℝ)| ≤ 1 / 2 := by
    have : ((|x| : ℚ) : ℝ) ≤ ((1 / 2 : ℚ) : ℝ) := by exact_mod_cast hx
    rw [Rat.cast_abs] at this
    norm_num at this ⊢
    exact this
  have hz' : (0 : ℝ) < z := by exact_mod_cast hz
  have hlog : Real.log z = k * Real.log 2 + Real.log (1 - (x : ℝ)) := by
    have : (1 : ℝ) - (x : ℝ) = z / 2 ^ k := by rw [hxd]; push_cast; ring
    rw [this, Real.log_div hz'.ne' (by positivity), Real.log_pow]
    ring
  have h1 := Real.abs_log_sub_add_sum_range_le (x := (x : ℝ)) (by linarith) 45
  rw [← logSeries_cast] at h1
  have h2 : |(x : ℝ)| ^ (45 + 1) / (1 - |(x : ℝ)|) ≤ 2 * |(x : ℝ)| ^ 46 := by
    rw [div_le_iff₀ (by linarith)]
    have h0 : 0 ≤ |(x : ℝ)| ^ 46 := by positivity
    have h1 := mul_le_mul_of_nonneg_left (show 1 ≤ 2 * (1 - |(x : ℝ)|) by linarith) h0
    calc |(x : ℝ)| ^ (45 + 1) = |(x : ℝ)| ^ 46 * 1 := by rw [mul_one]
      _ ≤ |(x : ℝ)| ^ 46 * (2 * (1 - |(x : ℝ)|)) := h1
      _ = _ := by ring
  have h3 := logTwo_error
  have h4 : ((|(k : ℚ) * logTwo - logSeries x 45 - v| + k / 2 ^ 70 + 2 * |x| ^ 46 : ℚ) : ℝ) ≤
      (tol : ℝ) := by exact_mod_cast ht
  push_cast at h4
  have h5 : |Real.log z - (v : ℝ)| ≤ |(k : ℝ) * (logTwo : ℝ) - (logSeries x 45 : ℝ) - v| +
      k * |Real.log 2 - (logTwo : ℝ)| + |(logSeries x 45 : ℝ) + Real.log (1 - (x : ℝ))| := by
    have e : Real.log z - (v : ℝ) = ((k : ℝ) * (logTwo : ℝ) - (logSeries x 45 : ℝ) - v) +
        k * (Real.log 2 - (logTwo : ℝ)) + ((logSeries x 45 : ℝ) + Real.log (1 - (x : ℝ))) := by
      rw [hlog]; ring
    rw [e]
    refine (abs_add_le _ _).trans (add_le_add ((abs_add_le _ _).trans (add_le_add le_rfl ?_)) le_rfl)
    rw [abs_mul, abs_of_nonneg (Nat.cast_nonneg k)]
  have h6 : (k : ℝ) * |Real.log 2 - (logTwo : ℝ)| ≤ k / 2 ^ 70 := by
    have : (k : ℝ) / 2 ^ 70 = k * (1 / 2) ^ 70 := by rw [div_eq_mul_inv, one_div, inv_pow]
    rw [this]
    exact mul_le_mul_of_nonneg_left h3 (Nat.cast_nonneg k)
  linarith

/-! ## The partition sums, computed -/

/-- One more value in front of `[Z n, …, Z 0]`. -/
def nextPart (w : ℕ → ℕ) (n : ℕ) : List ℕ → ℕ → ℕ
  | [], _ => 0
  | z :: zs, k => n.descFactorial k / k.factorial * (w (k + 1) * z) + nextPart w n zs (k + 1)

/-- `[Z n, …, Z 0]`. -/
def partList (w : ℕ → ℕ) : ℕ → List ℕ
  | 0 => [1]
  | n + 1 => let l := partList w n; nextPart w n l 0 :: l

theorem nextPart_eq (w : ℕ → ℕ) (n : ℕ) : ∀ (j k : ℕ), k + j = n + 1 →
    nextPart w n ((List.range j).reverse.map (partRec w)) k =
      ∑ i ∈ Finset.range j, n.choose (k + i) * (w (k + i + 1) * partRec w (n - (k + i))) := by
  intro j
  induction j with
  | zero => intro k _; simp [nextPart]
  | succ j ih =>
    intro k hk
    rw [List.range_succ, List.reverse_append, List.reverse_singleton, List.singleton_append,
      List.map_cons, nextPart, ih (k + 1) (by omega), Finset.sum_range_succ', add_comm,
      ← Nat.choose_eq_descFactorial_div_factorial]
    have : j = n - k := by omega
    rw [add_zero, this]
    congr 1
    refine Finset.sum_congr rfl ?_
    intro i _
    rw [show k + 1 + i = k + (i + 1) by omega]

theorem partList_eq (w : ℕ → ℕ) : ∀ n, partList w n =
    (List.range (n + 1)).reverse.map (partRec w) := by
  intro n
  induction n with
  | zero => simp [partList, partRec]
  | succ n ih =>
    rw [partList, ih, List.range_succ (n := n + 1), List.reverse_append, List.reverse_singleton,
      List.singleton_append, List.map_cons]
    rw [nextPart_eq w n (n + 1) 0 (by omega), partRec,
      ← Fin.sum_univ_eq_sum_range
        (fun i => n.choose (0 + i) * (w (0 + i + 1) * partRec w (n - (0 + i))))]
    simp

end Dist
