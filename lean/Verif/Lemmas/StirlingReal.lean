import Mathlib.Analysis.SpecialFunctions.Stirling
import Mathlib.Analysis.SpecialFunctions.Gamma.BohrMollerup
import Mathlib.Analysis.SpecialFunctions.Complex.LogBounds

/-! # Stirling's formula for the real gamma function, with error bounds -/

namespace Dist.LG

open Real Filter Topology

/-- `log Γ` without its main part. -/
noncomputable def rest (x : ℝ) : ℝ :=
  log (Gamma x) - ((x - 1 / 2) * log x - x + log (2 * π) / 2)

/-- The step of `rest`. -/
noncomputable def step (x : ℝ) : ℝ := (x + 1 / 2) * log (1 + 1 / x) - 1

theorem rest_step {x : ℝ} (hx : 0 < x) : rest x = rest (x + 1) + step x := by
  unfold rest step
  have h1 : 1 + 1 / x = (x + 1) / x := by field_simp
  rw [Gamma_add_one hx.ne', log_mul hx.ne' (Gamma_pos_of_pos hx).ne', h1,
    log_div (by positivity) hx.ne']
  ring

/-- The step through `u = 1/(2x+1)`. -/
theorem step_eq {x : ℝ} (hx : 0 < x) : step x =
    (2 * x + 1) * (1 / 2 * log ((1 + 1 / (2 * x + 1)) / (1 - 1 / (2 * x + 1)))) - 1 := by
  have h : (1 + 1 / (2 * x + 1)) / (1 - 1 / (2 * x + 1)) = 1 + 1 / x := by
    field_simp; ring
  rw [h, step]; ring

theorem step_lower {x : ℝ} (hx : 0 < x) :
    (1 / (2 * x + 1)) ^ 2 / 3 + (1 / (2 * x + 1)) ^ 4 / 5 + (1 / (2 * x + 1)) ^ 6 / 7 ≤ step x := by
  have h0 : (0 : ℝ) < 2 * x + 1 := by positivity
  set u := 1 / (2 * x + 1) with hu
  have hu0 : 0 < u := by positivity
  have hu1 : u < 1 := by rw [hu, div_lt_one h0]; linarith
  have h := sum_range_le_log_div hu0.le hu1 4
  simp only [Finset.sum_range_succ, Finset.sum_range_zero] at h
  rw [step_eq hx, ← hu]
  have hxu : 2 * x + 1 = 1 / u := by rw [hu]; simp
  rw [hxu]
  have := mul_le_mul_of_nonneg_left h (show 0 ≤ 1 / u by positivity)
  refine le_trans (le_of_eq ?_) (sub_le_sub_right this 1)
  push_cast
  field_simp
  ring

theorem step_upper {x : ℝ} (hx : 0 < x) :
    step x ≤ (1 / (2 * x + 1)) ^ 2 / 3 + (1 / (2 * x + 1)) ^ 4 / 5 + (1 / (2 * x + 1)) ^ 6 / 7 +
      (1 / (2 * x + 1)) ^ 8 / (1 - (1 / (2 * x + 1)) ^ 2) := by
  have h0 : (0 : ℝ) < 2 * x + 1 := by positivity
  set u := 1 / (2 * x + 1) with hu
  have hu0 : 0 < u := by positivity
  have hu1 : u < 1 := by rw [hu, div_lt_one h0]; linarith
  have h := log_div_le_sum_range_add hu0.le hu1 4
  simp only [Finset.sum_range_succ, Finset.sum_range_zero] at h
  rw [step_eq hx, ← hu]
  have hxu : 2 * x + 1 = 1 / u := by rw [hu]; simp
  rw [hxu]
  have := mul_le_mul_of_nonneg_left h (show 0 ≤ 1 / u by positivity)
  refine le_trans (sub_le_sub_right this 1) (le_of_eq ?_)
  have h1 : 1 - u ^ 2 ≠ 0 := by nlinarith
  push_cast
  field_simp
  ring

/-- Two terms of Stirling's series. -/
noncomputable def phi2 (x : ℝ) : ℝ := 1 / (12 * x) - 1 / (360 * x ^ 3)

/-- Three terms of Stirling's series. -/
noncomputable def phi3 (x : ℝ) : ℝ := phi2 x + 1 / (1260 * x ^ 5)

theorem phi2_step {x : ℝ} (hx : 1 ≤ x) : phi2 x - phi2 (x + 1) ≤ step x := by
  refine le_trans ?_ (step_lower (by linarith))
  obtain ⟨w, hw, rfl⟩ : ∃ w, 0 ≤ w ∧ x = 1 + w := ⟨x - 1, by linarith, by ring⟩
  unfold phi2
  rw [← sub_nonneg]
  field_simp
  ring_nf
  positivity

theorem phi3_step {x : ℝ} (hx : 1 ≤ x) : step x ≤ phi3 x - phi3 (x + 1) := by
  refine le_trans (step_upper (by linarith)) ?_
  obtain ⟨w, hw, rfl⟩ : ∃ w, 0 ≤ w ∧ x = 1 + w := ⟨x - 1, by linarith, by ring⟩
  have h1 : 1 - (1 / (2 * (1 + w) + 1)) ^ 2 = 4 * (1 + w) * (2 + w) / (2 * (1 + w) + 1) ^ 2 := by
    field_simp; ring
  rw [h1]
  unfold phi3 phi2
  rw [← sub_nonneg]
  field_simp
  ring_nf
  positivity

theorem log_Gamma_add_nat {x : ℝ} (hx : 0 < x) (n : ℕ) :
    log (Gamma (x + n)) = log (Gamma x) + ∑ m ∈ Finset.range n, log (x + m) := by
  induction n with
  | zero => simp
  | succ n ih =>
    have h : 0 < x + n := by positivity
    rw [Finset.sum_range_succ, ← add_assoc, ← ih, Nat.cast_succ, ← add_assoc, Gamma_add_one h.ne',
      log_mul h.ne' (Gamma_pos_of_pos h).ne']
    ring

theorem rest_eq {x : ℝ} (hx : 0 < x) {n : ℕ} (hn : n ≠ 0) : rest (x + (n + 1 : ℕ)) =
    (log (Gamma x) - BohrMollerup.logGammaSeq x n) + (log (Stirling.stirlingSeq n) - log √π) +
      ((x + 1) - (x + 1 / 2) * log (1 + (x + 1) / n) - n * log (1 + (x + 1) / n)) := by
  have hn0 : (0 : ℝ) < n := by positivity
  have h1 : 1 + (x + 1) / n = (x + (n + 1 : ℕ)) / n := by push_cast; field_simp; ring
  rw [rest, log_Gamma_add_nat hx, Stirling.log_stirlingSeq_formula, BohrMollerup.logGammaSeq, h1,
    log_div (by positivity) hn0.ne', log_mul two_ne_zero hn0.ne', log_mul two_ne_zero pi_pos.ne',
    log_sqrt pi_pos.le, log_div hn0.ne' (exp_pos 1).ne', log_exp]
  push_cast
  ring

theorem rest_tendsto {x : ℝ} (hx : 0 < x) :
    Tendsto (fun n : ℕ => rest (x + n)) atTop (𝓝 0) := by
  rw [← tendsto_add_atTop_iff_nat 1]
  have hcast : Tendsto (fun n : ℕ => (n : ℝ)) atTop atTop := tendsto_natCast_atTop_atTop
  have h1 := tendsto_const_nhds (x := log (Gamma x)) |>.sub (BohrMollerup.tendsto_log_gamma hx)
  have h2 : Tendsto (fun n => log (Stirling.stirlingSeq n) - log √π) atTop (𝓝 0) := by
    have := (continuousAt_log (sqrt_pos.2 pi_pos).ne').tendsto.comp
      Stirling.tendsto_stirlingSeq_sqrt_pi
    simpa using this.sub_const (log √π)
  have h3 := (tendsto_mul_log_one_add_div_atTop (x + 1)).comp hcast
  have h4 : Tendsto (fun n : ℕ => log (1 + (x + 1) / n)) atTop (𝓝 0) := by
    have : Tendsto (fun n : ℕ => 1 + (x + 1) / (n : ℝ)) atTop (𝓝 (1 + 0)) :=
      tendsto_const_nhds.add (tendsto_const_nhds.div_atTop hcast)
    rw [add_zero] at this
    have h := (continuousAt_log one_ne_zero).tendsto.comp this
    rw [log_one] at h
    exact h
  have h5 := (h1.add h2).add (((tendsto_const_nhds (x := x + 1)).sub
    (h4.const_mul (x + 1 / 2))).sub h3)
  simp only [sub_self, mul_zero, sub_zero, add_zero] at h5
  refine h5.congr' ?_
  filter_upwards [eventually_ne_atTop 0] with n hn
  rw [rest_eq hx hn]
  rfl

/-- A function whose steps stay below those of `rest` stays below `rest`. -/
theorem le_rest {phi : ℝ → ℝ} (hphi : ∀ x : ℝ, Tendsto (fun n : ℕ => phi (x + n)) atTop (𝓝 0))
    (h : ∀ x, 1 ≤ x → phi x - phi (x + 1) ≤ step x) {x : ℝ} (hx : 1 ≤ x) : phi x ≤ rest x := by
  have hn : ∀ n : ℕ, rest (x + n) - phi (x + n) ≤ rest x - phi x := by
    intro n
    induction n with
    | zero => simp
    | succ n ih =>
      have h0 : (0 : ℝ) ≤ n := by positivity
      have h1 := h (x + n) (by linarith)
      have h2 := rest_step (x := x + n) (by linarith)
      rw [Nat.cast_succ, ← add_assoc]
      linarith
  have h1 := (rest_tendsto (x := x) (by linarith)).sub (hphi x)
  rw [sub_zero] at h1
  have := le_of_tendsto' h1 hn
  linarith

theorem rest_le {phi : ℝ → ℝ} (hphi : ∀ x : ℝ, Tendsto (fun n : ℕ => phi (x + n)) atTop (𝓝 0))
    (h : ∀ x, 1 ≤ x → step x ≤ phi x - phi (x + 1)) {x : ℝ} (hx : 1 ≤ x) : rest x ≤ phi x := by
  have hn : ∀ n : ℕ, phi (x + n) - rest (x + n) ≤ phi x - rest x := by
    intro n
    induction n with
    | zero => simp
    | succ n ih =>
      have h0 : (0 : ℝ) ≤ n := by positivity
      have h1 := h (x + n) (by linarith)
      have h2 := rest_step (x := x + n) (by linarith)
      rw [Nat.cast_succ, ← add_assoc]
      linarith
  have h1 := (hphi x).sub (rest_tendsto (x := x) (by linarith))
  rw [sub_zero] at h1
  have := le_of_tendsto' h1 hn
  linarith

theorem shift_atTop (x : ℝ) : Tendsto (fun n : ℕ => x + n) atTop atTop :=
  tendsto_atTop_add_const_left _ _ tendsto_natCast_atTop_atTop

theorem inv_tendsto (c : ℝ) (hc : 0 < c) (k : ℕ) (hk : k ≠ 0) (x : ℝ) :
    Tendsto (fun n : ℕ => 1 / (c * (x + n) ^ k)) atTop (𝓝 0) :=
  tendsto_const_nhds.div_atTop
    (((tendsto_pow_atTop hk).comp (shift_atTop x)).const_mul_atTop hc)

theorem phi2_tendsto (x : ℝ) : Tendsto (fun n : ℕ => phi2 (x + n)) atTop (𝓝 0) := by
  have h1 := inv_tendsto 12 (by norm_num) 1 one_ne_zero x
  have h3 := inv_tendsto 360 (by norm_num) 3 (by norm_num) x
  simpa [phi2] using h1.sub h3

theorem phi3_tendsto (x : ℝ) : Tendsto (fun n : ℕ => phi3 (x + n)) atTop (𝓝 0) := by
  have h5 := inv_tendsto 1260 (by norm_num) 5 (by norm_num) x
  simpa [phi3] using (phi2_tendsto x).add h5

/-- **Stirling's formula with error bounds.** -/
theorem stirling {x : ℝ} (hx : 1 ≤ x) : phi2 x ≤ rest x ∧ rest x ≤ phi3 x :=
  ⟨le_rest phi2_tendsto (fun _ h => phi2_step h) hx,
    rest_le phi3_tendsto (fun _ h => phi3_step h) hx⟩

end Dist.LG
