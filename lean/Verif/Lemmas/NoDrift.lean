import Verif.Lemmas.SingleWelford

/-!
# Adding and subtracting the same number over and over in single precision

Rounded to nearest with ties to even, `((x + y) - y) + y) - y = (x + y) - y`.  The theorem is due
to Reiser and Knuth (The Art of Computer Programming, volume 2, section 4.2.2).
-/

namespace Dist

namespace nearest

/-- Numbers with the exponent `k` and all 24 bits. -/
structure Normal (c : ℝ) (m k : ℤ) : Prop where
  eq : c = m * 2 ^ k
  lower : 2 ^ 23 ≤ m
  upper : m < 2 ^ 24
  exp : -149 ≤ k

namespace Normal

variable {c : ℝ} {m k : ℤ}

theorem pos (h : Normal c m k) : 0 < c := by
  rw [h.eq]
  have : (0 : ℝ) < m := by exact_mod_cast (by have := h.lower; omega : 0 < m)
  positivity

theorem two_pow (k : ℤ) (j : ℕ) : (2 : ℝ) ^ (k + j) = 2 ^ j * 2 ^ k := by
  rw [zpow_add₀ (by norm_num), mul_comm]; norm_cast

theorem half (k : ℤ) : (2 : ℝ) ^ (k - 1) = 2 ^ k / 2 := by rw [zpow_sub₀ (by norm_num)]; norm_num

theorem quarter (k : ℤ) : (2 : ℝ) ^ (k - 2) = 2 ^ k / 4 := by rw [zpow_sub₀ (by norm_num)]; norm_num

theorem ge (h : Normal c m k) : (2 : ℝ) ^ (k + 23) ≤ c := by
  have := two_pow k 23
  push_cast at this
  rw [this, h.eq]
  have : ((2 : ℝ) ^ 23) ≤ m := by exact_mod_cast h.lower
  gcongr

theorem le (h : Normal c m k) : c ≤ 2 ^ (k + 24) - 2 ^ k := by
  have := two_pow k 24
  push_cast at this
  rw [this, h.eq]
  have : (m : ℝ) ≤ 2 ^ 24 - 1 := by
    have := h.upper
    have : m ≤ 2 ^ 24 - 1 := by omega
    exact_mod_cast this
  have hp : (0 : ℝ) < 2 ^ k := by positivity
  nlinarith

theorem single (h : Normal c m k) : nearest c = c := by
  rw [h.eq]
  exact exact_of_le (by have := h.lower; have := h.upper; rw [abs_le]; omega) h.exp

/-- Rounding back from above. -/
theorem above (h : Normal c m k) {t : ℝ} (h0 : 0 ≤ t) (ht : t < 2 ^ (k - 1) ∨ t = 2 ^ (k - 1) ∧ Even m) :
    nearest (c + t) = c := by
  have hp : (0 : ℝ) < 2 ^ k := by positivity
  have ht' : t ≤ 2 ^ k / 2 := by rw [← half]; rcases ht with h | h; exacts [h.le, h.1.le]
  have h1 : (2 : ℝ) ^ (k + 23) ≤ c + t := h.ge.trans (by linarith)
  have h2 : c + t < 2 ^ (k + 24) := by have := h.le; linarith
  have e : (c + t) / 2 ^ k = m + t / 2 ^ k := by rw [add_div, h.eq, mul_div_cancel_right₀ _ hp.ne']
  rcases ht with ht | ⟨ht, hm⟩
  · rw [eval m k h1 h2 h.exp, h.eq]
    rw [e, add_sub_cancel_left, abs_of_nonneg (by positivity), div_lt_iff₀ hp]
    rw [half] at ht; linarith
  · rw [eval_tie_down m k h1 h2 h.exp _ hm, h.eq]
    rw [e, ht, half]; field_simp

/-- Rounding back from below, away from a power of two. -/
theorem below (h : Normal c m k) (hm : 2 ^ 23 < m) {t : ℝ} (h0 : 0 ≤ t)
    (ht : t < 2 ^ (k - 1) ∨ t = 2 ^ (k - 1) ∧ Even m) : nearest (c - t) = c := by
  have hp : (0 : ℝ) < 2 ^ k := by positivity
  have ht' : t ≤ 2 ^ k / 2 := by rw [← half]; rcases ht with h | h; exacts [h.le, h.1.le]
  have h1 : (2 : ℝ) ^ (k + 23) ≤ c - t := by
    have := two_pow k 23
    push_cast at this
    rw [this, h.eq]
    have : (2 : ℝ) ^ 23 + 1 ≤ m := by exact_mod_cast hm
    nlinarith
  have h2 : c - t < 2 ^ (k + 24) := by have := h.le; linarith
  have e : (c - t) / 2 ^ k = m - t / 2 ^ k := by rw [sub_div, h.eq, mul_div_cancel_right₀ _ hp.ne']
  rcases ht with ht | ⟨ht, hm⟩
  · rw [eval m k h1 h2 h.exp, h.eq]
    rw [e, show (m : ℝ) - t / 2 ^ k - m = -(t / 2 ^ k) by ring, abs_neg, abs_of_nonneg (by positivity),
      div_lt_iff₀ hp]
    rw [half] at ht; linarith
  · rw [eval_tie_up m k h1 h2 h.exp _ hm, h.eq]
    rw [e, ht, half]; field_simp

/-- The number below a power of two. -/
theorem pred (h : Normal c (2 ^ 23) k) (hk : -148 ≤ k) : Normal (c - 2 ^ (k - 1)) (2 ^ 24 - 1) (k - 1) := by
  refine ⟨?_, by norm_num, by norm_num, by omega⟩
  rw [h.eq, half]
  push_cast
  ring

/-- Rounding back from below at a power of two. -/
theorem below_power (h : Normal c (2 ^ 23) k) (hk : -148 ≤ k) {t : ℝ} (h0 : 0 ≤ t) (ht : t ≤ 2 ^ (k - 2)) :
    nearest (c - t) = c := by
  rcases eq_or_lt_of_le h0 with h0 | h0
  · rw [← h0, sub_zero, h.single]
  have hp : (0 : ℝ) < 2 ^ k := by positivity
  have hp' := quarter k
  have hp1 := half k
  have e23 := two_pow k 23
  have e22 : (2 : ℝ) ^ (k - 1 + 23) = 2 ^ 22 * 2 ^ k := by
    rw [show k - 1 + 23 = k + (22 : ℕ) by push_cast; ring, two_pow]
  have e23' : (2 : ℝ) ^ (k - 1 + 24) = 2 ^ 23 * 2 ^ k := by
    rw [show k - 1 + 24 = k + (23 : ℕ) by push_cast; ring, two_pow]
  have hc := h.eq
  push_cast at hc
  have h1 : (2 : ℝ) ^ (k - 1 + 23) ≤ c - t := by
    rw [e22, hc]; nlinarith
  have h2 : c - t < 2 ^ (k - 1 + 24) := by
    rw [e23', hc]; linarith
  have e : (c - t) / 2 ^ (k - 1) = 2 ^ 24 - t / 2 ^ (k - 1) := by
    rw [sub_div, hc, hp1]; field_simp; norm_num; ring
  have fin : ((2 ^ 24 : ℤ) : ℝ) * 2 ^ (k - 1) = c := by rw [hc, hp1]; push_cast; ring
  rcases lt_or_eq_of_le ht with ht | ht
  · rw [eval (2 ^ 24) (k - 1) h1 h2 (by omega), fin]
    rw [e, show (2 : ℝ) ^ 24 - t / 2 ^ (k - 1) - ((2 ^ 24 : ℤ) : ℝ) = -(t / 2 ^ (k - 1)) by push_cast; ring, abs_neg,
      abs_of_nonneg (by positivity), div_lt_iff₀ (by positivity), hp1]
    rw [hp'] at ht; linarith
  · rw [eval_tie_up (2 ^ 24) (k - 1) h1 h2 (by omega) _ (by decide), fin]
    rw [e, ht, hp', hp1]
    push_cast
    field_simp
    norm_num

/-- What rounds to a number is near it: above. -/
theorem above_le (h : Normal c m k) {t : ℝ} (h0 : 0 ≤ t) (ht : nearest (c + t) = c) :
    t < 2 ^ (k - 1) ∨ t = 2 ^ (k - 1) ∧ Even m := by
  have hp : (0 : ℝ) < 2 ^ k := by positivity
  have hs := half k
  by_contra hcon
  push Not at hcon
  obtain ⟨h1, h2⟩ := hcon
  -- the next number
  have key : c + 2 ^ k ≤ nearest (c + 2 ^ (k - 1)) ∨ (2 ^ (k - 1) < t) := by
    rcases lt_or_eq_of_le h1 with h1 | h1
    · exact .inr h1
    · left
      have hodd := h2 h1.symm
      have g1 : (2 : ℝ) ^ (k + 23) ≤ c + 2 ^ (k - 1) := h.ge.trans (by linarith)
      have g2 : c + 2 ^ (k - 1) < 2 ^ (k + 24) := by have := h.le; linarith
      rw [eval_tie_up (m + 1) k g1 g2 h.exp _ (Int.even_add_one.2 hodd)]
      · rw [h.eq]; push_cast; linarith
      · rw [add_div, h.eq, mul_div_cancel_right₀ _ hp.ne', hs]; push_cast; field_simp; ring
  rcases key with key | key
  · have := monotone (add_le_add_right h1 c)
    linarith
  · -- strictly more than half
    obtain ⟨u, hu1, hu2, hu3⟩ : ∃ u, 2 ^ (k - 1) < u ∧ u ≤ t ∧ u < 2 ^ k :=
      ⟨min t ((2 ^ (k - 1) + 2 ^ k) / 2), lt_min key (by linarith), min_le_left _ _,
        lt_of_le_of_lt (min_le_right _ _) (by linarith)⟩
    have g1 : (2 : ℝ) ^ (k + 23) ≤ c + u := h.ge.trans (by linarith)
    have g2 : c + u < 2 ^ (k + 24) := by have := h.le; linarith
    have : nearest (c + u) = c + 2 ^ k := by
      rw [eval (m + 1) k g1 g2 h.exp, h.eq]
      · push_cast; ring
      · rw [add_div, h.eq, mul_div_cancel_right₀ _ hp.ne']
        push_cast
        have a1 : u / 2 ^ k < 1 := (div_lt_one hp).2 hu3
        have a2 : 1 / 2 < u / 2 ^ k := by rw [lt_div_iff₀ hp]; linarith
        rw [abs_lt]; constructor <;> linarith
    have := monotone (add_le_add_right hu2 c)
    linarith

/-- What rounds to a number is near it: below. -/
theorem below_le (h : Normal c m k) {t : ℝ} (h0 : 0 ≤ t) (ht : nearest (c - t) = c) :
    t < 2 ^ (k - 1) ∨ t = 2 ^ (k - 1) ∧ Even m := by
  have hp : (0 : ℝ) < 2 ^ k := by positivity
  have hs := half k
  have ho : ∀ u, 0 ≤ u → u ≤ t → nearest (c - u) = c := fun u hu hut =>
    le_antisymm (le_of_le h.single (by linarith)) (by
      rw [← ht]; rw [ht]; conv_lhs => rw [← ht]
      exact monotone (by linarith))
  by_contra hcon
  push Not at hcon
  obtain ⟨h1, h2⟩ := hcon
  rcases eq_or_lt_of_le h.lower with hm | hm
  · -- the number below is half as far
    have hm2 : Even m := by rw [← hm]; decide
    have h1 : 2 ^ (k - 1) < t := lt_of_le_of_ne h1 fun e => h2 e.symm hm2
    have he : nearest (c - 2 ^ (k - 1)) = c - 2 ^ (k - 1) := by
      rcases eq_or_lt_of_le h.exp with hk | hk
      · exfalso
        -- half of the smallest number
        have : nearest (c - 2 ^ k) = c - 2 ^ k := by
          have : c - 2 ^ k = ((m - 1 : ℤ) : ℝ) * 2 ^ k := by rw [h.eq]; push_cast; ring
          rw [this]
          exact exact_of_le (by rw [← hm]; norm_num) h.exp
        obtain ⟨u, hu1, hu2, hu3⟩ : ∃ u, 2 ^ (k - 1) < u ∧ u ≤ t ∧ u < 2 ^ k :=
          ⟨min t ((2 ^ (k - 1) + 2 ^ k) / 2), lt_min h1 (by linarith), min_le_left _ _,
            lt_of_le_of_lt (min_le_right _ _) (by linarith)⟩
        have hu := ho u (by linarith) hu2
        have hpos : 0 < c - u := by
          rw [h.eq, ← hm]; push_cast; nlinarith
        have hq : quantum (c - u) = k := by
          have hl : Int.log 2 |c - u| < k + 23 := by
            apply log_lt hpos.ne'
            rw [abs_of_pos hpos]
            have := two_pow k 23
            push_cast at this
            rw [this, h.eq, ← hm]; push_cast; linarith
          unfold quantum
          omega
        have : nearest (c - u) = ((m - 1 : ℤ) : ℝ) * 2 ^ k := by
          unfold nearest
          rw [hq, roundEven.eq_of (n := m - 1)]
          rw [sub_div, h.eq, mul_div_cancel_right₀ _ hp.ne']
          push_cast
          have a1 : u / 2 ^ k < 1 := (div_lt_one hp).2 hu3
          have a2 : 1 / 2 < u / 2 ^ k := by rw [lt_div_iff₀ hp]; linarith
          rw [abs_lt]; constructor <;> linarith
        rw [hu, h.eq] at this
        push_cast at this
        linarith
      · exact (pred (hm ▸ h) (by omega)).single
    have := ho _ (by positivity) h1.le
    rw [he] at this
    have : (0 : ℝ) < 2 ^ (k - 1) := by positivity
    linarith
  · rcases lt_or_eq_of_le h1 with h1 | h1
    · obtain ⟨u, hu1, hu2, hu3⟩ : ∃ u, 2 ^ (k - 1) < u ∧ u ≤ t ∧ u < 2 ^ k :=
        ⟨min t ((2 ^ (k - 1) + 2 ^ k) / 2), lt_min h1 (by linarith), min_le_left _ _,
          lt_of_le_of_lt (min_le_right _ _) (by linarith)⟩
      have hu := ho u (by linarith) hu2
      have g1 : (2 : ℝ) ^ (k + 23) ≤ c - u := by
        have := two_pow k 23
        push_cast at this
        rw [this, h.eq]
        have : (2 : ℝ) ^ 23 + 1 ≤ m := by exact_mod_cast hm
        nlinarith
      have g2 : c - u < 2 ^ (k + 24) := by have := h.le; linarith
      have : nearest (c - u) = ((m - 1 : ℤ) : ℝ) * 2 ^ k := by
        rw [eval (m - 1) k g1 g2 h.exp]
        rw [sub_div, h.eq, mul_div_cancel_right₀ _ hp.ne']
        push_cast
        have a1 : u / 2 ^ k < 1 := (div_lt_one hp).2 hu3
        have a2 : 1 / 2 < u / 2 ^ k := by rw [lt_div_iff₀ hp]; linarith
        rw [abs_lt]; constructor <;> linarith
      rw [hu, h.eq] at this
      push_cast at this
      linarith
    · have hodd := h2 h1.symm
      have g1 : (2 : ℝ) ^ (k + 23) ≤ c - 2 ^ (k - 1) := by
        have := two_pow k 23
        push_cast at this
        rw [this, h.eq, hs]
        have : (2 : ℝ) ^ 23 + 1 ≤ m := by exact_mod_cast hm
        nlinarith
      have g2 : c - 2 ^ (k - 1) < 2 ^ (k + 24) := by have := h.le; linarith
      have : nearest (c - 2 ^ (k - 1)) = ((m - 1 : ℤ) : ℝ) * 2 ^ k := by
        rw [eval_tie_down (m - 1) k g1 g2 h.exp _ (by rw [Int.even_sub]; simp [hodd])]
        rw [sub_div, h.eq, mul_div_cancel_right₀ _ hp.ne', hs]
        push_cast
        field_simp
        ring
      rw [h1, ht, h.eq] at this
      push_cast at this
      linarith

/-- Every number that is not too small. -/
theorem of_single (hs : nearest c = c) (h : 2 ^ (-126 : ℤ) ≤ c) : ∃ m k, Normal c m k := by
  have hc : 0 < c := lt_of_lt_of_le (by positivity) h
  have hl : -126 ≤ Int.log 2 |c| := by
    rw [abs_of_pos hc]
    exact (Int.zpow_le_iff_le_log (by norm_num) hc).1 (by exact_mod_cast h)
  have hq : quantum c = Int.log 2 |c| - 23 := by unfold quantum; omega
  have e : c = roundEven (c / 2 ^ quantum c) * 2 ^ quantum c := by
    conv_lhs => rw [← hs]
    rfl
  have hp : (0 : ℝ) < 2 ^ quantum c := by positivity
  set m := roundEven (c / 2 ^ quantum c)
  have h1 : (2 : ℝ) ^ (quantum c + 23) ≤ c := by
    have := Int.zpow_log_le_self (b := 2) (by norm_num) (abs_pos.2 hc.ne')
    push_cast at this
    rw [abs_of_pos hc] at this hq
    rw [hq, show Int.log 2 c - 23 + 23 = Int.log 2 c by ring]
    exact this
  have h2 : c < 2 ^ (quantum c + 24) := by
    have := Int.lt_zpow_succ_log_self (b := 2) (by norm_num) |c|
    push_cast at this
    rw [abs_of_pos hc] at this hq
    rw [hq, show Int.log 2 c - 23 + 24 = Int.log 2 c + 1 by ring]
    exact this
  have t1 := two_pow (quantum c) 23
  have t2 := two_pow (quantum c) 24
  push_cast at t1 t2
  rw [t1, e] at h1
  rw [t2, e] at h2
  refine ⟨m, quantum c, e, ?_, ?_, by omega⟩
  · have : ((2 : ℝ) ^ 23) ≤ m := by
      by_contra hcon
      push Not at hcon
      have := mul_lt_mul_of_pos_right hcon hp
      rw [← e] at this h1
      linarith
    exact_mod_cast this
  · have : (m : ℝ) < 2 ^ 24 := by
      by_contra hcon
      push Not at hcon
      have := mul_le_mul_of_nonneg_right hcon hp.le
      rw [← e] at this h2
      linarith
    exact_mod_cast this

end Normal

/-- Small sums are exact. -/
theorem small_sum {a b : ℝ} (ha : nearest a = a) (hb : nearest b = b) (h : |a + b| ≤ 2 ^ (-125 : ℤ)) :
    nearest (a + b) = a + b := by
  obtain ⟨k, hk⟩ := multiple a
  obtain ⟨l, hl⟩ := multiple b
  rw [ha] at hk
  rw [hb] at hl
  have e : a + b = ((k + l : ℤ) : ℝ) * 2 ^ (-149 : ℤ) := by push_cast; rw [hk, hl]; ring
  have hp : (0 : ℝ) < 2 ^ (-149 : ℤ) := by positivity
  rw [e]
  refine exact_of_le ?_ (by norm_num)
  rw [e, abs_mul, abs_of_pos hp, show (2 : ℝ) ^ (-125 : ℤ) = 2 ^ 24 * 2 ^ (-149 : ℤ) by norm_num] at h
  have := le_of_mul_le_mul_right h hp
  exact_mod_cast this

/-- No single-precision number is nearer. -/
theorem best (y : ℝ) {z : ℝ} (hz : nearest z = z) : |nearest y - y| ≤ |z - y| := by
  rcases eq_or_ne y 0 with h0 | h0
  · rw [h0, Factor.nearest_zero, sub_zero, abs_zero]; positivity
  have hp : (0 : ℝ) < 2 ^ quantum y := by positivity
  have grid : ∀ n : ℤ, |nearest y - y| ≤ |n * 2 ^ quantum y - y| := by
    intro n
    have e : ∀ j : ℤ, |j * 2 ^ quantum y - y| = |(j : ℝ) - y / 2 ^ quantum y| * 2 ^ quantum y := by
      intro j
      rw [← abs_of_pos hp, ← abs_mul, abs_of_pos hp, sub_mul, div_mul_cancel₀ _ hp.ne']
    show |roundEven (y / 2 ^ quantum y) * 2 ^ quantum y - y| ≤ _
    rw [e, e]
    refine mul_le_mul_of_nonneg_right ?_ hp.le
    generalize y / 2 ^ quantum y = x
    have h := roundEven.abs_sub x
    rcases eq_or_ne n (roundEven x) with hn | hn
    · rw [hn]
    · have h1 : (1 : ℝ) ≤ |(n : ℝ) - roundEven x| := by
        have : 1 ≤ |n - roundEven x| := Int.one_le_abs (sub_ne_zero.2 hn)
        exact_mod_cast this
      have h2 : |(n : ℝ) - roundEven x| ≤ |(n : ℝ) - x| + |x - roundEven x| := abs_sub_le _ _ _
      rw [abs_sub_comm] at h
      rw [abs_sub_comm x] at h2
      linarith
  rcases le_or_gt (quantum y) (quantum z) with hq | hq
  · obtain ⟨j, hj⟩ := Int.eq_ofNat_of_zero_le (show 0 ≤ quantum z - quantum y by omega)
    have e : z = ((roundEven (z / 2 ^ quantum z) * 2 ^ j : ℤ) : ℝ) * 2 ^ quantum y := by
      conv_lhs => rw [← hz]
      unfold nearest
      rw [show (2 : ℝ) ^ quantum z = 2 ^ j * 2 ^ quantum y by
        rw [show quantum z = quantum y + j by omega, Normal.two_pow]]
      push_cast
      ring
    rw [e]
    exact grid _
  · have hy : quantum y = Int.log 2 |y| - 23 := by unfold quantum at hq ⊢; omega
    have hyb : (2 : ℝ) ^ (quantum y + 23) ≤ |y| := by
      have := Int.zpow_log_le_self (b := 2) (by norm_num) (abs_pos.2 h0)
      push_cast at this
      rw [hy, show Int.log 2 |y| - 23 + 23 = Int.log 2 |y| by ring]
      exact this
    have hzb : |z| ≤ 2 ^ (quantum y + 23) := by
      have := Int.lt_zpow_succ_log_self (b := 2) (by norm_num) |z|
      push_cast at this
      refine this.le.trans (zpow_le_zpow_right₀ (by norm_num) ?_)
      unfold quantum at hq ⊢
      omega
    have t := Normal.two_pow (quantum y) 23
    push_cast at t
    have tri : |y| - |z| ≤ |z - y| := by
      rw [abs_sub_comm]; exact abs_sub_abs_le_abs_sub y z
    rcases le_total 0 y with h0 | h0
    · refine (grid (2 ^ 23)).trans ?_
      rw [abs_of_nonneg h0] at hyb tri
      rw [show (((2 ^ 23 : ℤ)) : ℝ) = 2 ^ 23 by norm_num, ← t, abs_sub_comm, abs_of_nonneg (by linarith)]
      linarith
    · refine (grid (-2 ^ 23)).trans ?_
      rw [abs_of_nonpos h0] at hyb tri
      rw [show (((-2 ^ 23 : ℤ)) : ℝ) = -2 ^ 23 by norm_num, neg_mul, ← t, abs_of_nonneg (by linarith)]
      linarith

theorem no_drift_pos {a b : ℝ} (ha : nearest a = a) (hb : nearest b = b) (hc : 0 < nearest (a + b)) :
    nearest (nearest (nearest (nearest (a + b) - b) + b) - b) = nearest (nearest (a + b) - b) := by
  rcases le_or_gt |a + b| (2 ^ (-125 : ℤ)) with hsm | hsm
  · have e := small_sum ha hb hsm
    rw [e, add_sub_cancel_right, ha, e, add_sub_cancel_right, ha]
  have hab : 0 < a + b := by
    by_contra h
    push Not at h
    exact absurd (nonpos_of_nonpos h) (not_le.2 hc)
  rw [abs_of_pos hab] at hsm
  set c := nearest (a + b) with hcd
  have hcs : nearest c = c := idem _
  have p125 : nearest ((2 : ℝ) ^ (-125 : ℤ)) = 2 ^ (-125 : ℤ) :=
    Single.near_eq 1 (-125) (by push_cast; ring) (by norm_num) (by norm_num)
  have hcl : (2 : ℝ) ^ (-125 : ℤ) ≤ c := ge_of_ge p125 hsm.le
  obtain ⟨m, k, hN⟩ := Normal.of_single hcs (le_trans (by norm_num) hcl)
  have hk : -148 ≤ k := by
    have h1 : (2 : ℝ) ^ (-125 : ℤ) < 2 ^ (k + 24) := lt_of_le_of_lt hcl (by
      have := hN.le
      have : (0 : ℝ) < 2 ^ k := by positivity
      linarith)
    have := (zpow_lt_zpow_iff_right₀ (by norm_num : (1 : ℝ) < 2)).1 h1
    omega
  set d := nearest (c - b) with hdd
  have hds : nearest d = d := idem _
  have hbest : |d - (c - b)| ≤ |a - (c - b)| := best (c - b) ha
  have hs' : |d + b - c| ≤ |a + b - c| := by
    rw [show d + b - c = d - (c - b) by ring, show a + b - c = a - (c - b) by ring]; exact hbest
  have done : nearest (d + b) = c → nearest (nearest (d + b) - b) = d := fun h => by rw [h]
  rcases le_total c (a + b) with hs | hs
  · rw [abs_of_nonneg (sub_nonneg.2 hs)] at hs'
    have hup := hN.above_le (t := a + b - c) (by linarith) (by rw [add_sub_cancel])
    rcases le_total c (d + b) with hs2 | hs2
    · rw [abs_of_nonneg (sub_nonneg.2 hs2)] at hs'
      apply done
      have := hN.above (t := d + b - c) (by linarith) ?_
      · rwa [add_sub_cancel] at this
      · rcases hup with h | ⟨h, h'⟩
        · exact .inl (by linarith)
        · rcases lt_or_eq_of_le hs' with h2 | h2
          · exact .inl (by linarith)
          · exact .inr ⟨by linarith, h'⟩
    · rw [abs_of_nonpos (sub_nonpos.2 hs2)] at hs'
      obtain ⟨t, ht⟩ : ∃ t, t = c - (d + b) := ⟨_, rfl⟩
      have ht0 : 0 ≤ t := by linarith
      have hup' : t < 2 ^ (k - 1) ∨ t = 2 ^ (k - 1) ∧ Even m := by
        rcases hup with h | ⟨h, h'⟩
        · exact .inl (by linarith)
        · rcases lt_or_eq_of_le hs' with h2 | h2
          · exact .inl (by linarith)
          · exact .inr ⟨by linarith, h'⟩
      have edb : d + b = c - t := by rw [ht]; ring
      rcases eq_or_lt_of_le hN.lower with hm | hm
      · rw [← hm] at hN
        rcases le_or_gt t (2 ^ (k - 2)) with hq | hq
        · apply done
          rw [edb]
          exact hN.below_power hk ht0 hq
        · -- the sum falls on the number below a power of two
          have h4 := Normal.quarter k
          have h2 := Normal.half k
          have htle : t ≤ 2 ^ (k - 1) := by rcases hup' with h | h; exacts [h.le, h.1.le]
          have hP := hN.pred hk
          have ee : nearest (d + b) = c - 2 ^ (k - 1) := by
            rw [edb, show c - t = c - 2 ^ (k - 1) + (2 ^ (k - 1) - t) by ring]
            refine hP.above (by linarith) (.inl ?_)
            rw [show k - 1 - 1 = k - 2 by ring]
            linarith
          rw [ee]
          have ecb : c - b = d + t := by rw [ht]; ring
          have hdt : nearest (d + t) = d := by rw [← ecb]
          have big : 2 ^ (-125 : ℤ) < |d + t| := by
            by_contra hcon
            push Not at hcon
            have hb' : nearest (-b) = -b := by rw [neg, hb]
            have : nearest (c + -b) = c + -b := small_sum hcs hb' (by
              rw [← sub_eq_add_neg, ecb]; exact hcon)
            rw [← sub_eq_add_neg, ecb, hdt] at this
            have : (0 : ℝ) < 2 ^ (k - 2) := by positivity
            linarith
          rw [show c - 2 ^ (k - 1) - b = d - (2 ^ (k - 1) - t) by linarith]
          have heta0 : 0 ≤ 2 ^ (k - 1) - t := by linarith
          have heta : 2 ^ (k - 1) - t < 2 ^ (k - 2) := by linarith
          rcases le_total 0 (d + t) with hpos | hneg
          · rw [abs_of_nonneg hpos] at big
            have hd0 : (2 : ℝ) ^ (-125 : ℤ) ≤ d := by rw [← hdt]; exact ge_of_ge p125 big.le
            obtain ⟨md, kd, hD⟩ := Normal.of_single hds (le_trans (by norm_num) hd0)
            have hkd' : -148 ≤ kd := by
              have h1 : (2 : ℝ) ^ (-125 : ℤ) < 2 ^ (kd + 24) := lt_of_le_of_lt hd0 (by
                have := hD.le
                have : (0 : ℝ) < 2 ^ kd := by positivity
                linarith)
              have := (zpow_lt_zpow_iff_right₀ (by norm_num : (1 : ℝ) < 2)).1 h1
              omega
            have htd : t ≤ 2 ^ (kd - 1) := by
              rcases hD.above_le ht0 hdt with h | h
              exacts [h.le, h.1.le]
            have hkk : k - 2 < kd - 1 :=
              (zpow_lt_zpow_iff_right₀ (by norm_num : (1 : ℝ) < 2)).1 (lt_of_lt_of_le hq htd)
            have hle : (2 : ℝ) ^ (k - 2) ≤ 2 ^ (kd - 2) := zpow_le_zpow_right₀ (by norm_num) (by omega)
            rcases eq_or_lt_of_le hD.lower with hmd | hmd
            · rw [← hmd] at hD
              exact hD.below_power hkd' heta0 (heta.le.trans hle)
            · refine hD.below hmd heta0 (.inl ?_)
              have h5 := Normal.quarter kd
              have h6 := Normal.half kd
              have : (0 : ℝ) < 2 ^ kd := by positivity
              linarith
          · rw [abs_of_nonpos hneg] at big
            have hdt' : nearest (-d - t) = -d := by
              rw [show -d - t = -(d + t) by ring, neg, hdt]
            have hd0 : (2 : ℝ) ^ (-125 : ℤ) ≤ -d := by
              rw [← hdt']
              exact ge_of_ge p125 (by linarith)
            obtain ⟨md, kd, hD⟩ := Normal.of_single (by rw [neg, hds]) (le_trans (by norm_num) hd0)
            have htd : t ≤ 2 ^ (kd - 1) := by
              rcases hD.below_le ht0 hdt' with h | h
              exacts [h.le, h.1.le]
            have := hD.above heta0 (.inl (by linarith))
            rw [show -d + (2 ^ (k - 1) - t) = -(d - (2 ^ (k - 1) - t)) by ring, neg] at this
            linarith
      · apply done
        rw [edb]
        exact hN.below hm ht0 hup'
  · rw [abs_of_nonpos (sub_nonpos.2 hs)] at hs'
    have hdn := hN.below_le (t := c - (a + b)) (by linarith) (by rw [sub_sub_cancel])
    apply done
    rcases le_total c (d + b) with hs2 | hs2
    · rw [abs_of_nonneg (sub_nonneg.2 hs2)] at hs'
      have := hN.above (t := d + b - c) (by linarith) ?_
      · rwa [add_sub_cancel] at this
      · rcases hdn with h | ⟨h, h'⟩
        · exact .inl (by linarith)
        · rcases lt_or_eq_of_le hs' with h2 | h2
          · exact .inl (by linarith)
          · exact .inr ⟨by linarith, h'⟩
    · rw [abs_of_nonpos (sub_nonpos.2 hs2)] at hs'
      refine le_antisymm (le_of_le hcs hs2) ?_
      conv_lhs => rw [hcd]
      exact monotone (by linarith)

/-- **Reiser and Knuth.** After one addition and subtraction of the same number, further ones
change nothing. -/
theorem no_drift {a b : ℝ} (ha : nearest a = a) (hb : nearest b = b) :
    nearest (nearest (nearest (nearest (a + b) - b) + b) - b) = nearest (nearest (a + b) - b) := by
  rcases lt_trichotomy 0 (nearest (a + b)) with h | h | h
  · exact no_drift_pos ha hb h
  · rw [← h, zero_sub, neg, hb, neg_add_cancel, Factor.nearest_zero, zero_sub, neg, hb]
  · have ha' : nearest (-a) = -a := by rw [neg, ha]
    have hb' : nearest (-b) = -b := by rw [neg, hb]
    have e1 : nearest (-a + -b) = -nearest (a + b) := by rw [← neg, neg_add]
    have := no_drift_pos ha' hb' (by rw [e1]; linarith)
    rw [e1, show -nearest (a + b) - -b = -(nearest (a + b) - b) by ring, neg,
      show ∀ x : ℝ, -x + -b = -(x + b) by intro x; ring, neg,
      show ∀ x : ℝ, -x - -b = -(x - b) by intro x; ring, neg] at this
    linarith

end nearest

end Dist
