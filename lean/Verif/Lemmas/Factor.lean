import Verif.Lemmas.Single
import Mathlib.Analysis.SpecialFunctions.Log.Deriv

/-! # Errors of non-negative quantities as a factor -/

namespace Dist

/-- `r` is `x` up to a factor between `exp (-δ)` and `exp δ`. -/
structure Factor (δ r x : ℝ) : Prop where
  nonneg : 0 ≤ x
  lower : x * Real.exp (-δ) ≤ r
  upper : r ≤ x * Real.exp δ

/-- One rounding of a normal number. -/
noncomputable def ulp : ℝ := 1 / 2 ^ 22

namespace Factor

variable {δ ε r s x y : ℝ}

theorem refl (hx : 0 ≤ x) : Factor 0 x x := ⟨hx, by simp, by simp⟩

theorem nonneg' (h : Factor δ r x) : 0 ≤ r :=
  (mul_nonneg h.nonneg (Real.exp_pos _).le).trans h.lower

theorem mono (h : Factor δ r x) (hd : δ ≤ ε) : Factor ε r x := by
  have h0 := h.nonneg
  refine ⟨h0, le_trans ?_ h.lower, h.upper.trans ?_⟩ <;> gcongr

theorem trans (h : Factor δ r s) (h' : Factor ε s x) : Factor (δ + ε) r x := by
  refine ⟨h'.nonneg, ?_, ?_⟩
  · calc x * Real.exp (-(δ + ε)) = x * Real.exp (-ε) * Real.exp (-δ) := by
          rw [mul_assoc, ← Real.exp_add]; congr 2; ring
      _ ≤ s * Real.exp (-δ) := by gcongr; exact h'.lower
      _ ≤ r := h.lower
  · calc r ≤ s * Real.exp δ := h.upper
      _ ≤ x * Real.exp ε * Real.exp δ := by gcongr; exact h'.upper
      _ = x * Real.exp (δ + ε) := by rw [mul_assoc, ← Real.exp_add]; congr 2; ring

theorem add (h : Factor δ r x) (h' : Factor δ s y) : Factor δ (r + s) (x + y) := by
  refine ⟨add_nonneg h.nonneg h'.nonneg, ?_, ?_⟩
  · rw [add_mul]; exact add_le_add h.lower h'.lower
  · rw [add_mul]; exact add_le_add h.upper h'.upper

theorem mul (h : Factor δ r x) (h' : Factor ε s y) : Factor (δ + ε) (r * s) (x * y) := by
  have hr := h.nonneg'
  have hx := h.nonneg
  have hy := h'.nonneg
  refine ⟨mul_nonneg hx hy, ?_, ?_⟩
  · calc x * y * Real.exp (-(δ + ε)) = x * Real.exp (-δ) * (y * Real.exp (-ε)) := by
          rw [neg_add, Real.exp_add]; ring
      _ ≤ r * s := mul_le_mul h.lower h'.lower (by positivity) hr
  · calc r * s ≤ x * Real.exp δ * (y * Real.exp ε) := mul_le_mul h.upper h'.upper h'.nonneg' (by positivity)
      _ = _ := by rw [Real.exp_add]; ring

theorem inv (h : Factor δ r x) (hx : 0 < x) : Factor δ r⁻¹ x⁻¹ := by
  have hr : 0 < r := lt_of_lt_of_le (by positivity) h.lower
  refine ⟨by positivity, ?_, ?_⟩
  · rw [Real.exp_neg, ← mul_inv]
    exact inv_anti₀ hr h.upper
  · have := inv_anti₀ (by positivity) h.lower
    rwa [mul_inv, Real.exp_neg, inv_inv] at this

theorem div (h : Factor δ r x) (h' : Factor ε s y) (hy : 0 < y) : Factor (δ + ε) (r / s) (x / y) := by
  rw [div_eq_mul_inv, div_eq_mul_inv]
  exact h.mul (h'.inv hy)

theorem pos (h : Factor δ r x) (hx : 0 < x) : 0 < r := lt_of_lt_of_le (by positivity) h.lower

theorem log (h : Factor δ r x) (hx : 0 < x) : |Real.log r - Real.log x| ≤ δ := by
  have hr := h.pos hx
  have h1 := Real.log_le_log (by positivity) h.lower
  have h2 := Real.log_le_log hr h.upper
  rw [Real.log_mul hx.ne' (Real.exp_pos _).ne', Real.log_exp] at h1 h2
  rw [abs_le]
  constructor <;> linarith

/-- One rounding. -/
theorem round (hr : 1 / 2 ^ 126 ≤ r) : Factor ulp (nearest r) r := by
  have h0 : 0 < r := lt_of_lt_of_le (by positivity) hr
  have he := nearest.error r
  rw [abs_of_pos h0] at he
  have h1 : (2⁻¹ : ℝ) ^ 150 ≤ 2⁻¹ ^ 24 * r := by
    calc (2⁻¹ : ℝ) ^ 150 = 2⁻¹ ^ 24 * (1 / 2 ^ 126) := by norm_num
      _ ≤ _ := by gcongr
  have h2 : |nearest r - r| ≤ 1 / 2 ^ 23 * r := by
    refine he.trans ?_
    have : (1 / 2 ^ 23 : ℝ) = 2⁻¹ ^ 24 + 2⁻¹ ^ 24 := by norm_num
    rw [this, add_mul]
    linarith
  obtain ⟨l, u⟩ := abs_le.1 h2
  have e1 : (1 : ℝ) + ulp ≤ Real.exp ulp := by
    rw [add_comm]; exact Real.add_one_le_exp _
  have e2 : Real.exp (-ulp) ≤ 1 / (1 + ulp) := by
    rw [Real.exp_neg, ← one_div]
    have : (0 : ℝ) < 1 + ulp := by unfold ulp; norm_num
    gcongr
  have e3 : 1 / (1 + ulp) ≤ 1 - 1 / 2 ^ 23 := by unfold ulp; norm_num
  refine ⟨h0.le, ?_, ?_⟩
  · calc r * Real.exp (-ulp) ≤ r * (1 - 1 / 2 ^ 23) := by gcongr; exact e2.trans e3
      _ ≤ _ := by linarith
  · have : (1 : ℝ) + 1 / 2 ^ 23 ≤ 1 + ulp := by unfold ulp; norm_num
    calc nearest r ≤ r * (1 + 1 / 2 ^ 23) := by linarith
      _ ≤ r * Real.exp ulp := by gcongr; linarith

theorem ulp_nonneg : 0 ≤ ulp := by unfold ulp; norm_num

theorem nearest_zero : nearest 0 = 0 := by simp [nearest]

/-- A rounding after a computation. -/
theorem rnd (h : Factor δ r x) (hx : x = 0 ∨ 1 / 2 ^ 126 ≤ r) : Factor (ulp + δ) (nearest r) x := by
  rcases hx with rfl | hr
  · have : r = 0 := le_antisymm (by simpa using h.upper) (by simpa using h.lower)
    subst this
    rw [nearest_zero]
    exact ⟨le_rfl, by simp, by simp⟩
  · exact (round hr).trans h

/-- A count converted to `float`. -/
theorem ofInt {n : ℤ} (hn : 0 ≤ n) : Factor ulp (nearest (n : ℝ)) (n : ℝ) := by
  have hn' : (0 : ℝ) ≤ n := by exact_mod_cast hn
  have := (refl hn').rnd (by
    rcases eq_or_lt_of_le hn with h | h
    · left; rw [← h]; norm_num
    · right
      have : (1 : ℝ) ≤ n := by exact_mod_cast h
      refine le_trans ?_ this
      norm_num)
  simpa using this

/-- The quantity itself is not much smaller than the exact one. -/
theorem half (h : Factor δ r x) (hd : δ ≤ 1 / 2) : x / 2 ≤ r := by
  have : (1 : ℝ) / 2 ≤ Real.exp (-δ) := by
    have := Real.add_one_le_exp (-δ)
    linarith
  calc x / 2 = x * (1 / 2) := by ring
    _ ≤ x * Real.exp (-δ) := by have := h.nonneg; gcongr
    _ ≤ r := h.lower

theorem double (h : Factor δ r x) (hd : δ ≤ 1 / 2) : r ≤ x * 2 := by
  have : Real.exp δ ≤ 2 := by
    have h1 : Real.exp δ ≤ Real.exp (1 / 2) := Real.exp_le_exp.2 hd
    have h2 : Real.exp (1 / 2) ≤ 2 := by
      have := Real.exp_one_lt_d9
      have e : Real.exp (1 / 2) * Real.exp (1 / 2) = Real.exp 1 := by
        rw [← Real.exp_add]; norm_num
      nlinarith [Real.exp_pos (1 / 2)]
    exact h1.trans h2
  refine h.upper.trans ?_
  have := h.nonneg
  gcongr

end Factor

namespace Single

open FloatOps FloatNotation

variable {lib : Libm}

theorem val_add (a b : Single lib) : (a + b).val = nearest (a.val + b.val) := rfl
theorem val_sub (a b : Single lib) : (a - b).val = nearest (a.val - b.val) := rfl
theorem val_mul (a b : Single lib) : (a * b).val = nearest (a.val * b.val) := rfl
theorem val_div (a b : Single lib) : (a / b).val = nearest (a.val / b.val) := rfl
theorem val_neg (a : Single lib) : (-a).val = -a.val := rfl
theorem val_ofInt (n : ℤ) : (ofInt n : Single lib).val = nearest (n : ℝ) := rfl
theorem val_lit (n : ℤ) (d : ℕ) : (lit n d : Single lib).val = nearest ((n : ℝ) / (d : ℝ)) := rfl
theorem val_log (a : Single lib) : (FloatOps.log a).val = logf a.val := rfl
theorem val_exp (a : Single lib) : (FloatOps.exp a).val = expf lib a.val := rfl
theorem val_lgamma (a : Single lib) : (FloatOps.lgamma a).val = lgammaf lib a.val := rfl
theorem val_lgammaNu (a : Single lib) : (FloatOps.lgammaNu a).val = lgammaNuf lib a.val := rfl
theorem val_pi : (FloatOps.pi : Single lib).val = nearest Real.pi := rfl

end Single

/-- The final logarithm. -/
theorem Single.logf_factor {δ r x : ℝ} (h : Factor δ r x) (h1 : 1 / 2 ^ 126 ≤ r) (h2 : r < 2 ^ 127) :
    |Single.logf (nearest r) - Real.log x| ≤ 1 / 2 ^ 13 + ulp + δ := by
  have hr : 0 < r := lt_of_lt_of_le (by positivity) h1
  have hx : 0 < x := by
    rcases eq_or_lt_of_le h.nonneg with h0 | h0
    · have := h.upper; rw [← h0, zero_mul] at this; linarith
    · exact h0
  have hf := Factor.round h1
  have hn : IsNormal (nearest r) := by
    refine ⟨nearest.idem r, ?_, ?_⟩
    · have e : nearest ((1 : ℤ) * (2 : ℝ) ^ (-126 : ℤ)) = (1 : ℤ) * (2 : ℝ) ^ (-126 : ℤ) :=
        nearest.exact_of_le (by norm_num) (by norm_num)
      have e' : ((1 : ℤ) : ℝ) * (2 : ℝ) ^ (-126 : ℤ) = 1 / 2 ^ 126 := by
        rw [zpow_neg]; norm_num
      rw [e'] at e
      rw [← e]
      exact nearest.rounding.mono h1
    · have e : nearest ((1 : ℤ) * (2 : ℝ) ^ (127 : ℤ)) = (1 : ℤ) * (2 : ℝ) ^ (127 : ℤ) :=
        nearest.exact_of_le (by norm_num) (by norm_num)
      have e' : ((1 : ℤ) : ℝ) * (2 : ℝ) ^ (127 : ℤ) = 2 ^ 127 := by norm_cast
      rw [e'] at e
      have := nearest.rounding.mono h2.le
      rw [e] at this
      refine this.trans_lt ?_
      norm_num
  have h3 := Single.logf_near hn
  have h4 := (hf.trans h).log hx
  calc |Single.logf (nearest r) - Real.log x|
      ≤ |Single.logf (nearest r) - Real.log (nearest r)| + |Real.log (nearest r) - Real.log x| :=
        abs_sub_le _ _ _
    _ ≤ 1 / 2 ^ 13 + (ulp + δ) := add_le_add h3.le h4
    _ = _ := by ring

/-- Scores close to the logarithms of probabilities that sum to one. -/
theorem sum_exp_near {ι : Type*} (s : Finset ι) (f p : ι → ℝ) {ε : ℝ} (h0 : 0 ≤ ε) (h1 : ε ≤ 1 / 2)
    (hp : ∀ i ∈ s, 0 < p i) (hf : ∀ i ∈ s, |f i - Real.log (p i)| ≤ ε) (hs : ∑ i ∈ s, p i = 1) :
    |∑ i ∈ s, Real.exp (f i) - 1| ≤ 2 * ε := by
  have up : ∑ i ∈ s, Real.exp (f i) ≤ Real.exp ε := by
    calc ∑ i ∈ s, Real.exp (f i) ≤ ∑ i ∈ s, p i * Real.exp ε := by
          refine Finset.sum_le_sum fun i hi => ?_
          have := (abs_le.1 (hf i hi)).2
          calc Real.exp (f i) ≤ Real.exp (Real.log (p i) + ε) := Real.exp_le_exp.2 (by linarith)
            _ = _ := by rw [Real.exp_add, Real.exp_log (hp i hi)]
      _ = _ := by rw [← Finset.sum_mul, hs, one_mul]
  have lo : Real.exp (-ε) ≤ ∑ i ∈ s, Real.exp (f i) := by
    calc Real.exp (-ε) = ∑ i ∈ s, p i * Real.exp (-ε) := by rw [← Finset.sum_mul, hs, one_mul]
      _ ≤ _ := by
          refine Finset.sum_le_sum fun i hi => ?_
          have := (abs_le.1 (hf i hi)).1
          calc p i * Real.exp (-ε) = Real.exp (Real.log (p i) + -ε) := by
                rw [Real.exp_add, Real.exp_log (hp i hi)]
            _ ≤ _ := Real.exp_le_exp.2 (by linarith)
  have l1 := Real.add_one_le_exp (-ε)
  have u1 : Real.exp ε ≤ 1 + 2 * ε := by
    have h := Real.exp_bound' h0 (by linarith) (n := 2) (by norm_num)
    simp [Finset.sum_range_succ] at h
    nlinarith
  rw [abs_le]
  constructor <;> linarith

end Dist
