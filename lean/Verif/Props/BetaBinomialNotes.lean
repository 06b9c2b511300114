import Mathlib.Analysis.Real.Pi.Bounds
import Mathlib.Analysis.Complex.ExponentialBounds
import Verif.Props.BetaBinomial
import Verif.Model.Special

/-!
# C92: the histogram of the beta-binomial script and the approximations of log gamma
-/

namespace Dist

open BetaBinom LogGammaNotes LG

theorem countP_range_le (n k : ℕ) (h : k < n) : (List.range n).countP (fun i => decide (i ≤ k)) = k + 1 := by
  induction n with
  | zero => omega
  | succ n ih =>
    rw [List.range_succ, List.countP_append]
    rcases Nat.lt_succ_iff_lt_or_eq.1 h with h | rfl
    · rw [ih h]
      simp [h]
    · have : (List.range k).countP (fun i => decide (i ≤ k)) = k := by
        rw [List.countP_eq_length.2 fun i hi => by simpa using (List.mem_range.1 hi).le, List.length_range]
      rw [this]
      simp

/-- On a full axis every value has its own cell. -/
theorem numpyCell_full {N x : ℕ} (hN : 0 < N) (hx : x ≤ N) : numpyCell (N + 1) 0 N x = x := by
  have h0 : (0 : ℕ) ≠ N := by omega
  have hN' : (0 : ℚ) < N := by exact_mod_cast hN
  unfold numpyCell
  simp only [if_neg h0]
  split_ifs with h
  · have : x = N := by exact_mod_cast h
    omega
  · have hx' : x < N := lt_of_le_of_ne hx fun e => h (by exact_mod_cast e)
    have e : (fun i : ℕ => decide ((((0 : ℕ) : ℚ) + i * ((N : ℚ) - ((0 : ℕ) : ℚ)) / ((N + 1 : ℕ) : ℚ)) ≤ x)) =
        fun i => decide (i ≤ x) := by
      funext i
      rw [decide_eq_decide]
      push_cast
      rw [zero_add, sub_zero, div_le_iff₀ (by positivity)]
      constructor
      · intro h1
        by_contra h2
        have : x + 1 ≤ i := by omega
        have h3 : i * N ≤ x * (N + 1) := by exact_mod_cast h1
        nlinarith
      · intro h1
        have : i * N ≤ x * (N + 1) := by nlinarith
        exact_mod_cast this
    rw [e, countP_range_le _ _ (by omega)]
    omega

/-- Every value has a cell. -/
theorem numpyCell_lt {bins lo hi x : ℕ} (hb : 0 < bins) (h2 : x ≤ hi) : numpyCell bins lo hi x < bins := by
  unfold numpyCell
  simp only
  split_ifs with h h' h'
  · omega
  all_goals try omega
  all_goals
    have hb' : (bins : ℚ) ≠ 0 := by exact_mod_cast hb.ne'
    have h2' : (x : ℚ) ≤ hi := by exact_mod_cast h2
    refine lt_of_le_of_lt (Nat.sub_le_sub_right (?_ : _ ≤ bins) 1) (by omega)
    rw [List.range_succ, List.countP_append, List.countP_singleton, if_neg]
    · exact (List.countP_le_length).trans (by simp)
    · rw [decide_eq_true_eq, mul_div_cancel_left₀ _ hb']
      first
        | linarith
        | (have := lt_of_le_of_ne h2' h'; linarith)

/-- The smallest value is in the first cell. -/
theorem numpyCell_min {bins lo hi : ℕ} (hb : 0 < bins) (h : lo < hi) : numpyCell bins lo hi lo = 0 := by
  have h' : ((hi : ℚ) - lo) > 0 := by have : (lo : ℚ) < hi := by exact_mod_cast h
                                      linarith
  have hb' : (0 : ℚ) < bins := by exact_mod_cast hb
  unfold numpyCell
  simp only [if_neg h.ne]
  rw [if_neg (by have : (lo : ℚ) < hi := by exact_mod_cast h
                 exact this.ne)]
  have e : (fun i : ℕ => decide ((lo : ℚ) + i * ((hi : ℚ) - lo) / bins ≤ lo)) = fun i => decide (i ≤ 0) := by
    funext i
    rw [decide_eq_decide]
    constructor
    · intro h1
      by_contra h2
      have h3 : (0 : ℚ) < i := by exact_mod_cast Nat.pos_of_ne_zero (by omega)
      have : 0 < (i : ℚ) * ((hi : ℚ) - lo) / bins := by positivity
      linarith
    · intro h1
      obtain rfl : i = 0 := by omega
      simp
  rw [e, countP_range_le _ _ (by omega)]

theorem histogram2d_ok (bins : ℕ) {samples : List (ℕ × ℕ)} {lo₁ hi₁ lo₂ hi₂ : ℕ}
    (h1 : (samples.map Prod.fst).min? = some lo₁) (h2 : (samples.map Prod.fst).max? = some hi₁)
    (h3 : (samples.map Prod.snd).min? = some lo₂) (h4 : (samples.map Prod.snd).max? = some hi₂) :
    histogram2d bins samples = .ok fun i j => samples.countP fun p =>
      decide (numpyCell bins lo₁ hi₁ p.1 = i ∧ numpyCell bins lo₂ hi₂ p.2 = j) := by
  unfold histogram2d
  rw [h1, h2, h3, h4]

theorem exists_bounds {l : List ℕ} (h : l ≠ []) : ∃ lo hi, l.min? = some lo ∧ l.max? = some hi ∧
    lo ∈ l ∧ hi ∈ l ∧ ∀ x ∈ l, lo ≤ x ∧ x ≤ hi := by
  obtain ⟨lo, h1⟩ : ∃ lo, l.min? = some lo := by
    rcases e : l.min? with _ | lo
    · exact (h (List.min?_eq_none_iff.1 e)).elim
    · exact ⟨lo, rfl⟩
  obtain ⟨hi, h2⟩ : ∃ hi, l.max? = some hi := by
    rcases e : l.max? with _ | hi
    · exact (h (List.max?_eq_none_iff.1 e)).elim
    · exact ⟨hi, rfl⟩
  have a1 := List.min?_eq_some_iff.1 h1
  have a2 := List.max?_eq_some_iff.1 h2
  exact ⟨lo, hi, h1, h2, a1.1, a2.1, fun x hx => ⟨a1.2 x hx, a2.2 x hx⟩⟩

/-- **C92, the histogram of full axes.** If both counts take the values `0` and `N` somewhere in the
samples, the histogram counts every pair in its own cell. -/
theorem C92_histogram (N : ℕ) (hN : 0 < N) (samples : List (ℕ × ℕ)) (h : ∀ p ∈ samples, p.1 ≤ N ∧ p.2 ≤ N)
    (h1 : ∃ p ∈ samples, p.1 = 0) (h2 : ∃ p ∈ samples, p.1 = N) (h3 : ∃ p ∈ samples, p.2 = 0)
    (h4 : ∃ p ∈ samples, p.2 = N) :
    ∃ hist, histogram2d (N + 1) samples = .ok hist ∧ ∀ j k, hist j k = samples.count (j, k) := by
  have ends : ∀ f : ℕ × ℕ → ℕ, (∀ p ∈ samples, f p ≤ N) → (∃ p ∈ samples, f p = 0) → (∃ p ∈ samples, f p = N) →
      (samples.map f).min? = some 0 ∧ (samples.map f).max? = some N := by
    intro f hf hz hn
    refine ⟨List.min?_eq_some_iff.2 ⟨?_, fun b _ => Nat.zero_le b⟩, List.max?_eq_some_iff.2 ⟨?_, ?_⟩⟩
    · exact List.mem_map.2 hz
    · exact List.mem_map.2 hn
    · intro b hb
      obtain ⟨p, hp, rfl⟩ := List.mem_map.1 hb
      exact hf p hp
  obtain ⟨a1, a2⟩ := ends Prod.fst (fun p hp => (h p hp).1) h1 h2
  obtain ⟨a3, a4⟩ := ends Prod.snd (fun p hp => (h p hp).2) h3 h4
  refine ⟨_, histogram2d_ok _ a1 a2 a3 a4, fun j k => ?_⟩
  rw [List.count]
  refine List.countP_congr fun p hp => ?_
  rw [numpyCell_full hN (h p hp).1, numpyCell_full hN (h p hp).2, decide_eq_true_eq, beq_iff_eq, Prod.ext_iff]

example : ∃ hist, histogram2d 3 [(0, 2), (2, 1), (2, 1), (1, 0)] = .ok hist ∧ hist 2 1 = 2 ∧ hist 1 1 = 0 := by
  obtain ⟨hist, e, h⟩ := C92_histogram 2 (by norm_num) [(0, 2), (2, 1), (2, 1), (1, 0)] (by decide) (by decide)
    (by decide) (by decide) (by decide)
  exact ⟨hist, e, by rw [h]; decide, by rw [h]; decide⟩

/-- **C92, the histogram of other axes (finding).** If no sample has a first count of zero, the histogram
counts samples in its first row all the same, so that rows are not counts: numpy spreads the cells over the
range of the samples. -/
theorem C92_histogram_shifted (N : ℕ) (samples : List (ℕ × ℕ)) (h0 : ∀ p ∈ samples, p.1 ≠ 0)
    (hd : ∃ p ∈ samples, ∃ q ∈ samples, p.1 ≠ q.1) :
    ∃ hist, histogram2d (N + 1) samples = .ok hist ∧ ∃ j, hist 0 j ≠ 0 ∧ ∀ k, samples.count (0, k) = 0 := by
  obtain ⟨p, hp, q, hq, hpq⟩ := hd
  have hne : samples ≠ [] := List.ne_nil_of_mem hp
  obtain ⟨lo₁, hi₁, a1, a2, b1, b2, c⟩ := exists_bounds (l := samples.map Prod.fst) (by simpa using hne)
  obtain ⟨lo₂, hi₂, a3, a4, -⟩ := exists_bounds (l := samples.map Prod.snd) (by simpa using hne)
  refine ⟨_, histogram2d_ok _ a1 a2 a3 a4, ?_⟩
  obtain ⟨r, hr, rfl⟩ := List.mem_map.1 b1
  have hlt : r.1 < hi₁ := by
    have u := c _ (List.mem_map_of_mem (f := Prod.fst) hp)
    have v := c _ (List.mem_map_of_mem (f := Prod.fst) hq)
    omega
  refine ⟨numpyCell (N + 1) lo₂ hi₂ r.2, ?_, fun k => List.count_eq_zero.2 fun hk => h0 _ hk rfl⟩
  rw [← Nat.pos_iff_ne_zero, List.countP_pos_iff]
  exact ⟨r, hr, by simp [numpyCell_min (Nat.succ_pos N) hlt]⟩

example : ∃ hist, histogram2d 4 [(1, 0), (2, 3)] = .ok hist ∧ ∃ j, hist 0 j ≠ 0 ∧
    ∀ k, [(1, 0), (2, 3)].count (0, k) = 0 :=
  C92_histogram_shifted 3 [(1, 0), (2, 3)] (by decide) (by decide)

theorem sum_cells (bins : ℕ) (samples : List (ℕ × ℕ)) (f g : ℕ × ℕ → ℕ) (hf : ∀ p ∈ samples, f p < bins)
    (hg : ∀ p ∈ samples, g p < bins) :
    ∑ i ∈ Finset.range bins, ∑ j ∈ Finset.range bins, samples.countP (fun p => decide (f p = i ∧ g p = j)) =
      samples.length := by
  induction samples with
  | nil => simp
  | cons p samples ih =>
    have h1 := hf p List.mem_cons_self
    have h2 := hg p List.mem_cons_self
    simp only [List.countP_cons, decide_eq_true_eq, Finset.sum_add_distrib]
    rw [ih (fun q hq => hf q (List.mem_cons_of_mem _ hq)) (fun q hq => hg q (List.mem_cons_of_mem _ hq)),
      List.length_cons]
    congr 1
    rw [Finset.sum_eq_single (f p), Finset.sum_eq_single (g p)]
    · simp
    · intro b _ hb
      rw [if_neg fun e => hb e.2.symm]
    · intro hb
      simp at hb
      omega
    · intro b _ hb
      exact Finset.sum_eq_zero fun j _ => if_neg fun e => hb e.1.symm
    · intro hb
      simp at hb
      omega

/-- **C92, the mass of the histogram (finding).** Adding one to every cell without changing the number of
samples makes the probabilities that `two_d_hist` returns add up to more than one. -/
theorem C92_histogram_mass (N : ℕ) (samples : List (ℕ × ℕ)) (hne : samples ≠ []) :
    ∃ logp, twoDHist N samples = .ok logp ∧
      ∑ i ∈ Finset.range (N + 1), ∑ j ∈ Finset.range (N + 1), Real.exp (logp i j) =
        1 + ((N : ℝ) + 1) ^ 2 / samples.length := by
  obtain ⟨lo₁, hi₁, a1, a2, b1, b2, c⟩ := exists_bounds (l := samples.map Prod.fst) (by simpa using hne)
  obtain ⟨lo₂, hi₂, a3, a4, b3, b4, d⟩ := exists_bounds (l := samples.map Prod.snd) (by simpa using hne)
  have hl : (0 : ℝ) < samples.length := by exact_mod_cast List.length_pos_iff.2 hne
  unfold twoDHist
  rw [histogram2d_ok _ a1 a2 a3 a4, Res.ok_bind, Res.pure_eq]
  refine ⟨_, rfl, ?_⟩
  have e : ∀ n : ℕ, Real.exp (Real.log ((n + 1 : ℕ) / samples.length)) = ((n : ℝ) + 1) / samples.length := by
    intro n
    rw [Real.exp_log (by positivity)]
    push_cast
    rfl
  simp only [e]
  have s := sum_cells (N + 1) samples (fun p => numpyCell (N + 1) lo₁ hi₁ p.1) (fun p => numpyCell (N + 1) lo₂ hi₂ p.2)
    (fun p hp => numpyCell_lt (Nat.succ_pos N) (c _ (List.mem_map_of_mem hp)).2)
    (fun p hp => numpyCell_lt (Nat.succ_pos N) (d _ (List.mem_map_of_mem hp)).2)
  have s' : (∑ i ∈ Finset.range (N + 1), ∑ j ∈ Finset.range (N + 1), ((samples.countP (fun p =>
      decide (numpyCell (N + 1) lo₁ hi₁ p.1 = i ∧ numpyCell (N + 1) lo₂ hi₂ p.2 = j)) : ℕ) : ℝ)) = samples.length := by
    exact_mod_cast s
  simp only [← Finset.sum_div, Finset.sum_add_distrib, s', Finset.sum_const, Finset.card_range, nsmul_eq_mul, mul_one]
  field_simp
  push_cast
  ring

example : ∃ logp, twoDHist 1 [(0, 1), (1, 1)] = .ok logp ∧
    ∑ i ∈ Finset.range 2, ∑ j ∈ Finset.range 2, Real.exp (logp i j) = 3 := by
  obtain ⟨f, e, h⟩ := C92_histogram_mass 1 [(0, 1), (1, 1)] (by decide)
  exact ⟨f, e, h.trans (by norm_num)⟩

/-! ## Approximations of log gamma -/

/-- **C92, the fourth-order approximation (finding).** The fourth-order approximation reads the
coefficients of the fifth order and drops the constant, so that it is the fifth-order one less its constant,
divided by the argument. -/
theorem C92_fourth_order (lgamma : ℝ → ℝ) (a : ℕ → ℝ) (x : ℝ) (hx : 5 / 2 ≤ x) :
    gammalnApproxFourthOrder lgamma a x = (gammalnApproxFifthOrder a x - a 5) / x := by
  have h0 : x ≠ 0 := by linarith
  unfold gammalnApproxFourthOrder gammalnApproxFifthOrder
  rw [if_neg (by linarith)]
  field_simp
  ring

/-- At 4, with the coefficients in the library, which the same script generated: less than 1/2 where log gamma
is log 6. -/
example (lgamma : ℝ → ℝ) :
    let a (i : ℕ) : ℝ := ((Special.lgammaCoeff5.map fun t : ℤ × ℤ => (t.1 : ℝ) * (10 : ℝ) ^ t.2)[12 + i]?).getD 0
    gammalnApproxFourthOrder lgamma a 4 < 1 / 2 ∧ |gammalnApproxFifthOrder a 4 - 1.7917| < 0.001 ∧
      Real.log (Real.Gamma 4) = Real.log 6 := by
  intro a
  have e0 : a 0 = (-590835916227661 : ℤ) * (10 : ℝ) ^ (-19 : ℤ) := rfl
  have e1 : a 1 = (230360287241638 : ℤ) * (10 : ℝ) ^ (-17 : ℤ) := rfl
  have e2 : a 2 = (-394700765609741 : ℤ) * (10 : ℝ) ^ (-16 : ℤ) := rfl
  have e3 : a 3 = (431111842393875 : ℤ) * (10 : ℝ) ^ (-15 : ℤ) := rfl
  have e4 : a 4 = (-811912357807159 : ℤ) * (10 : ℝ) ^ (-15 : ℤ) := rfl
  have e5 : a 5 = (138451874256134 : ℤ) * (10 : ℝ) ^ (-15 : ℤ) := rfl
  refine ⟨?_, ?_, ?_⟩
  · rw [C92_fourth_order _ _ _ (by norm_num), gammalnApproxFifthOrder, e0, e1, e2, e3, e4, e5]
    norm_num
  · rw [gammalnApproxFifthOrder, e0, e1, e2, e3, e4, e5]
    norm_num [abs_lt]
  · have := Real.Gamma_nat_eq_factorial 3
    rw [show (4 : ℝ) = ((3 : ℕ) : ℝ) + 1 by norm_num, this]
    norm_num [Nat.factorial]

/-- **C92, Gauss's approximation (finding).** Pi is written without its decimal point, so that the
approximation exceeds log gamma by about 6.9 everywhere. -/
theorem C92_gauss (lgamma : ℝ → ℝ) (x : ℝ) (hx : 5 / 2 ≤ x) :
    6.8 < gammalnGauss lgamma x - Real.log (Real.Gamma x) ∧
      gammalnGauss lgamma x - Real.log (Real.Gamma x) < 7.1 := by
  have hx0 : 0 < x := by linarith
  have hs := stirling (x := x) (by linarith)
  have hu : 0 < x - 1 / 2 := by linarith
  have hlog : Real.log (x - 1 / 2) = Real.log x + Real.log (1 - 1 / (2 * x)) := by
    rw [← Real.log_mul hx0.ne' (by
      have : 1 / (2 * x) < 1 := by rw [div_lt_one (by positivity)]; linarith
      linarith)]
    congr 1
    field_simp
  have ht : 1 / (2 * x) < 1 := by rw [div_lt_one (by positivity)]; linarith
  have hw : (0 : ℝ) < 1 - 1 / (2 * x) := by linarith
  have l1 : Real.log (1 - 1 / (2 * x)) ≤ -(1 / (2 * x)) := by
    have := Real.log_le_sub_one_of_pos hw
    linarith
  have l2 : -(1 / (2 * x - 1)) ≤ Real.log (1 - 1 / (2 * x)) := by
    have := Real.one_sub_inv_le_log_of_pos hw
    refine le_trans (le_of_eq ?_) this
    have : 2 * x - 1 ≠ 0 := by linarith
    field_simp
    ring
  have m1 : (x - 1 / 2) * Real.log (1 - 1 / (2 * x)) ≤ -(1 / 2) + 0.1 := by
    refine (mul_le_mul_of_nonneg_left l1 hu.le).trans ?_
    have : (x - 1 / 2) * -(1 / (2 * x)) = -(1 / 2) + 1 / (4 * x) := by field_simp; ring
    rw [this]
    have : 1 / (4 * x) ≤ 0.1 := by rw [div_le_iff₀ (by positivity)]; linarith
    linarith
  have m2 : -(1 / 2) ≤ (x - 1 / 2) * Real.log (1 - 1 / (2 * x)) := by
    refine le_trans (le_of_eq ?_) (mul_le_mul_of_nonneg_left l2 hu.le)
    have : 2 * x - 1 ≠ 0 := by linarith
    field_simp
  have r1 : 0 < phi2 x := by
    unfold phi2
    have : 1 / (360 * x ^ 3) < 1 / (12 * x) := by
      rw [div_lt_div_iff₀ (by positivity) (by positivity)]
      nlinarith [sq_nonneg x]
    linarith
  have r2 : phi3 x < 0.04 := by
    unfold phi3 phi2
    have a1 : 1 / (12 * x) ≤ 1 / 30 := by
      rw [div_le_div_iff₀ (by positivity) (by positivity)]; linarith
    have a2 : 0 < 1 / (360 * x ^ 3) := by positivity
    have a3 : 1 / (1260 * x ^ 5) ≤ 1 / 1260 := by
      rw [div_le_div_iff₀ (by positivity) (by positivity)]
      have : 1 ≤ x ^ 5 := one_le_pow₀ (by linarith)
      linarith
    linarith
  have hpi1 := Real.pi_gt_d6
  have hpi2 := Real.pi_lt_d6
  have hK : Real.log (2 * 3141592) - Real.log (2 * Real.pi) = Real.log (3141592 / Real.pi) := by
    rw [← Real.log_div (by norm_num) (by positivity)]
    congr 1
    field_simp
  have k1 : 13.7 < Real.log (3141592 / Real.pi) := by
    rw [Real.lt_log_iff_exp_lt (by positivity)]
    refine lt_of_lt_of_le (b := 999999) ?_ ?_
    · have h := Real.exp_one_lt_d9
      have e : Real.exp 13.7 ^ 10 = Real.exp 1 ^ 137 := by
        rw [← Real.exp_nat_mul, ← Real.exp_nat_mul]; norm_num
      refine lt_of_pow_lt_pow_left₀ 10 (by norm_num) ?_
      rw [e]
      exact lt_of_lt_of_le (pow_lt_pow_left₀ h (Real.exp_pos 1).le (by norm_num)) (by norm_num)
    · rw [le_div_iff₀ Real.pi_pos]
      linarith
  have k2 : Real.log (3141592 / Real.pi) < 14 := by
    rw [Real.log_lt_iff_lt_exp (by positivity)]
    refine lt_of_le_of_lt (b := 1000000) ?_ ?_
    · rw [div_le_iff₀ Real.pi_pos]
      linarith
    · have h := Real.exp_one_gt_d9
      have e : Real.exp 14 = Real.exp 1 ^ 14 := by rw [← Real.exp_nat_mul]; norm_num
      rw [e]
      exact lt_of_lt_of_le (by norm_num) (pow_le_pow_left₀ (by norm_num) h.le 14)
  have hg : gammalnGauss lgamma x - Real.log (Real.Gamma x) =
      Real.log (3141592 / Real.pi) / 2 + ((x - 1 / 2) * Real.log (1 - 1 / (2 * x)) + 1 / 2) - rest x := by
    unfold gammalnGauss rest
    rw [if_neg (by linarith)]
    simp only
    rw [hlog, ← hK]
    ring
  rw [hg]
  constructor <;> linarith [hs.1, hs.2]

end Dist
