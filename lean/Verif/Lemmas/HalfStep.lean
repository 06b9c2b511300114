import Mathlib.Analysis.Calculus.Deriv.MeanValue
import Verif.Lemmas.StirlingReal

/-! # `log Γ(x + 1/2) - log Γ(x)` -/

namespace Dist.LG

open Real

/-- `log Γ(ν/2 + 1/2) - log Γ(ν/2)`. -/
noncomputable def halfStep (x : ℝ) : ℝ := log (Gamma (x + 1 / 2)) - log (Gamma x)

theorem log_one_add_le {u : ℝ} (hu : 0 ≤ u) : log (1 + u) ≤ u - u ^ 2 / 2 + u ^ 3 / 3 := by
  have h : MonotoneOn (fun u : ℝ => u - u ^ 2 / 2 + u ^ 3 / 3 - log (1 + u)) (Set.Ici 0) := by
    have hd : ∀ u : ℝ, 0 ≤ u → HasDerivAt (fun u : ℝ => u - u ^ 2 / 2 + u ^ 3 / 3 - log (1 + u))
        (1 - u + u ^ 2 - 1 / (1 + u)) u := fun u hu => by
      have h1 := ((hasDerivAt_id u).const_add 1).log (by simp only [id]; linarith)
      have h2 := ((hasDerivAt_id u).sub ((hasDerivAt_pow 2 u).div_const 2)).add
        ((hasDerivAt_pow 3 u).div_const 3)
      refine (h2.sub h1).congr_deriv ?_
      simp only [id]
      norm_num
    refine monotoneOn_of_deriv_nonneg (convex_Ici 0)
      (fun u hu => (hd u hu).continuousAt.continuousWithinAt)
      (fun u hu => (hd u (interior_subset hu)).differentiableAt.differentiableWithinAt) ?_
    intro u hu
    have hu : 0 ≤ u := interior_subset hu
    rw [(hd u hu).deriv, sub_nonneg, div_le_iff₀ (by linarith)]
    have : 0 ≤ u ^ 3 := by positivity
    nlinarith
  have := h (Set.mem_Ici.2 le_rfl) (Set.mem_Ici.2 hu) hu
  simp at this
  linarith

theorem le_log_one_add {u : ℝ} (hu : 0 ≤ u) :
    u - u ^ 2 / 2 + u ^ 3 / 3 - u ^ 4 / 4 ≤ log (1 + u) := by
  have h : MonotoneOn (fun u : ℝ => log (1 + u) - (u - u ^ 2 / 2 + u ^ 3 / 3 - u ^ 4 / 4))
      (Set.Ici 0) := by
    have hd : ∀ u : ℝ, 0 ≤ u →
        HasDerivAt (fun u : ℝ => log (1 + u) - (u - u ^ 2 / 2 + u ^ 3 / 3 - u ^ 4 / 4))
        (1 / (1 + u) - (1 - u + u ^ 2 - u ^ 3)) u := fun u hu => by
      have h1 := ((hasDerivAt_id u).const_add 1).log (by simp only [id]; linarith)
      have h2 := (((hasDerivAt_id u).sub ((hasDerivAt_pow 2 u).div_const 2)).add
        ((hasDerivAt_pow 3 u).div_const 3)).sub ((hasDerivAt_pow 4 u).div_const 4)
      refine (h1.sub h2).congr_deriv ?_
      simp only [id]
      norm_num
    refine monotoneOn_of_deriv_nonneg (convex_Ici 0)
      (fun u hu => (hd u hu).continuousAt.continuousWithinAt)
      (fun u hu => (hd u (interior_subset hu)).differentiableAt.differentiableWithinAt) ?_
    intro u hu
    have hu : 0 ≤ u := interior_subset hu
    rw [(hd u hu).deriv, sub_nonneg, le_div_iff₀ (by linarith)]
    have : 0 ≤ u ^ 4 := by positivity
    nlinarith
  have := h (Set.mem_Ici.2 le_rfl) (Set.mem_Ici.2 hu) hu
  simp at this
  linarith

theorem halfStep_eq {x : ℝ} (hx : 0 < x) : halfStep x =
    x * log (1 + 1 / (2 * x)) + log x / 2 - 1 / 2 + (rest (x + 1 / 2) - rest x) := by
  have h : log (1 + 1 / (2 * x)) = log (x + 1 / 2) - log x := by
    rw [← log_div (by positivity) hx.ne']
    congr 1
    field_simp
  rw [h, halfStep, rest, rest]
  ring

theorem phi_diff {x : ℝ} (hx : 1 ≤ x) :
    phi3 (x + 1 / 2) - phi2 x + 1 / (24 * x ^ 2) ≤ 1 / (40 * x ^ 3) ∧
    -(1 / (100 * x ^ 3)) ≤ phi2 (x + 1 / 2) - phi3 x + 1 / (24 * x ^ 2) := by
  have hx0 : 0 < x := by linarith
  have hz : 0 < x + 1 / 2 := by linarith
  have e : 1 / (12 * (x + 1 / 2)) - 1 / (12 * x) + 1 / (24 * x ^ 2) =
      1 / (48 * x ^ 2 * (x + 1 / 2)) := by
    field_simp
    ring
  have b1 : 1 / (48 * x ^ 2 * (x + 1 / 2)) ≤ 1 / (48 * x ^ 3) := by
    refine one_div_le_one_div_of_le (by positivity) ?_
    nlinarith [pow_pos hx0 2]
  have b1' : 0 ≤ 1 / (48 * x ^ 2 * (x + 1 / 2)) := by positivity
  have b2 : 1 / (1260 * (x + 1 / 2) ^ 5) ≤ 1 / (360 * (x + 1 / 2) ^ 3) := by
    refine one_div_le_one_div_of_le (by positivity) ?_
    have h1 : (1 : ℝ) ≤ (x + 1 / 2) ^ 2 := one_le_pow₀ (by linarith)
    have h3 : 0 < (x + 1 / 2) ^ 3 := by positivity
    nlinarith
  have b3 : 1 / (360 * (x + 1 / 2) ^ 3) ≤ 1 / (360 * x ^ 3) := by
    refine one_div_le_one_div_of_le (by positivity) ?_
    have : x ^ 3 ≤ (x + 1 / 2) ^ 3 := by gcongr; linarith
    linarith
  have b4 : 1 / (1260 * x ^ 5) ≤ 1 / (1260 * x ^ 3) := by
    refine one_div_le_one_div_of_le (by positivity) ?_
    have h1 : (1 : ℝ) ≤ x ^ 2 := one_le_pow₀ hx
    have h3 : 0 < x ^ 3 := by positivity
    nlinarith
  have i1 : 1 / (48 * x ^ 3) = 1 / 48 * (1 / x ^ 3) := by field_simp
  have i2 : 1 / (360 * x ^ 3) = 1 / 360 * (1 / x ^ 3) := by field_simp
  have i3 : 1 / (1260 * x ^ 3) = 1 / 1260 * (1 / x ^ 3) := by field_simp
  have i4 : 1 / (40 * x ^ 3) = 1 / 40 * (1 / x ^ 3) := by field_simp
  have i5 : 1 / (100 * x ^ 3) = 1 / 100 * (1 / x ^ 3) := by field_simp
  have i0 : 0 ≤ 1 / x ^ 3 := by positivity
  unfold phi3 phi2
  constructor <;> linarith

/-- The asymptotic formula. -/
theorem halfStep_asymp {x : ℝ} (hx : 1 ≤ x) :
    |halfStep x - (log x / 2 - 1 / (8 * x))| ≤ 1 / (36 * x ^ 3) := by
  have hx0 : 0 < x := by linarith
  have hu : 0 ≤ 1 / (2 * x) := by positivity
  have l1 := mul_le_mul_of_nonneg_left (log_one_add_le hu) hx0.le
  have l2 := mul_le_mul_of_nonneg_left (le_log_one_add hu) hx0.le
  have e1 : x * (1 / (2 * x) - (1 / (2 * x)) ^ 2 / 2 + (1 / (2 * x)) ^ 3 / 3) =
      1 / 2 - 1 / (8 * x) + 1 / (24 * x ^ 2) := by field_simp; ring
  have e2 : x * (1 / (2 * x) - (1 / (2 * x)) ^ 2 / 2 + (1 / (2 * x)) ^ 3 / 3 -
      (1 / (2 * x)) ^ 4 / 4) = 1 / 2 - 1 / (8 * x) + 1 / (24 * x ^ 2) - 1 / (64 * x ^ 3) := by
    field_simp; ring
  rw [e1] at l1
  rw [e2] at l2
  obtain ⟨p1, p2⟩ := phi_diff hx
  obtain ⟨s1, s2⟩ := stirling hx
  obtain ⟨s3, s4⟩ := stirling (by linarith : 1 ≤ x + 1 / 2)
  have i1 : 1 / (64 * x ^ 3) = 1 / 64 * (1 / x ^ 3) := by field_simp
  have i4 : 1 / (40 * x ^ 3) = 1 / 40 * (1 / x ^ 3) := by field_simp
  have i5 : 1 / (100 * x ^ 3) = 1 / 100 * (1 / x ^ 3) := by field_simp
  have i6 : 1 / (36 * x ^ 3) = 1 / 36 * (1 / x ^ 3) := by field_simp
  have i0 : 0 ≤ 1 / x ^ 3 := by positivity
  rw [halfStep_eq hx0, abs_le]
  constructor <;> linarith

/-- Moving the argument. -/
theorem halfStep_shift {n : ℝ} (hn : 0 < n) (N : ℕ) : halfStep (n / 2) =
    halfStep (n / 2 + N) + ∑ k ∈ Finset.range (2 * N), (-1) ^ k * log (n + k) := by
  induction N with
  | zero => simp
  | succ N ih =>
    have h1 : 0 < n / 2 + N := by positivity
    have h2 : halfStep (n / 2 + N) = halfStep (n / 2 + (N + 1 : ℕ)) +
        (log (n + (2 * N : ℕ)) - log (n + (2 * N + 1 : ℕ))) := by
      unfold halfStep
      have e1 : n / 2 + ((N + 1 : ℕ) : ℝ) = n / 2 + N + 1 := by push_cast; ring
      have e2 : n / 2 + N + 1 + 1 / 2 = n / 2 + N + 1 / 2 + 1 := by ring
      have e3 : n + ((2 * N : ℕ) : ℝ) = 2 * (n / 2 + N) := by push_cast; ring
      have e4 : n + ((2 * N + 1 : ℕ) : ℝ) = 2 * (n / 2 + N + 1 / 2) := by push_cast; ring
      have h3 : 0 < n / 2 + N + 1 / 2 := by linarith
      rw [e1, e2, e3, e4, Gamma_add_one h1.ne', Gamma_add_one h3.ne',
        log_mul h1.ne' (Gamma_pos_of_pos h1).ne', log_mul h3.ne' (Gamma_pos_of_pos h3).ne',
        log_mul two_ne_zero h1.ne', log_mul two_ne_zero h3.ne']
      ring
    rw [ih, h2, show 2 * (N + 1) = 2 * N + 1 + 1 by ring, Finset.sum_range_succ,
      Finset.sum_range_succ, pow_succ, pow_mul]
    norm_num
    ring

end Dist.LG
