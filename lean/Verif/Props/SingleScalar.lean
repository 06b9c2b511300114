import Verif.Model.Scalar
import Verif.Props.SingleCountsAccuracy

/-!
# C78: the scalar functions in single precision
-/

namespace Dist

open FloatOps FloatNotation Scalar

namespace Single

variable {lib : Libm}

/-- `fast_lgamma` below `2.5` is the C library's. -/
theorem lgammaf_small {x : ℝ} (h : IsNormal x) (h1 : x < 5 / 2) : lgammaf lib x = nearest (lib.lgammaf x) := by
  obtain ⟨q, -, hq, h3⟩ := h.bits_spec
  rw [← h3] at h1
  have h1' : q < 5 / 2 := by
    have : (q : ℝ) < ((5 / 2 : ℚ) : ℝ) := by push_cast; exact h1
    exact_mod_cast this
  have hw : (wide (bits x)).val = q := ofBits_of hq
  unfold lgammaf Special.fastLgamma
  rw [hq, if_pos (by simp [F32.Val.lt, h1'])]
  show nearest (lib.lgammaf (wide (bits x)).val) = _
  rw [hw, h3]

set_option maxHeartbeats 1000000 in
/-- **C78 (`fast_log_beta` in single precision).** From `5/2` on, `fast_log_beta` is within
`(a + b)/10^4` of the logarithm of the Beta function. -/
theorem C78_fast_log_beta_single (a b : Single lib) (ha : nearest a.val = a.val) (hb : nearest b.val = b.val)
    (ha1 : 5 / 2 ≤ a.val) (hb1 : 5 / 2 ≤ b.val) (ha2 : a.val ≤ 2 ^ 30) (hb2 : b.val ≤ 2 ^ 30) :
    ∃ y : Single lib, fastLogBeta a b = .num y ∧
      |y.val - Real.log (Real.Gamma a.val * Real.Gamma b.val / Real.Gamma (a.val + b.val))| ≤
        (a.val + b.val) / 10 ^ 4 := by
  have h0 : nearest (((0 : ℤ) : ℝ) / ((1 : ℕ) : ℝ)) = 0 := by
    rw [show (((0 : ℤ) : ℝ) / ((1 : ℕ) : ℝ)) = 0 by norm_num]; exact Factor.nearest_zero
  refine ⟨lgamma a + lgamma b - lgamma (a + b), ?_, ?_⟩
  · have ea : FloatOps.le a (lit 0 1) = false := by
      show decide (a.val ≤ nearest (((0 : ℤ) : ℝ) / ((1 : ℕ) : ℝ))) = false
      rw [h0]; exact decide_eq_false (by linarith)
    have eb : FloatOps.le b (lit 0 1) = false := by
      show decide (b.val ≤ nearest (((0 : ℤ) : ℝ) / ((1 : ℕ) : ℝ))) = false
      rw [h0]; exact decide_eq_false (by linarith)
    unfold fastLogBeta
    rw [ea, eb]
    rfl
  simp only [val_add, val_sub, val_lgamma]
  generalize a.val = a at *
  generalize b.val = b at *
  have ga := Real.Gamma_pos_of_pos (show 0 < a by linarith)
  have gb := Real.Gamma_pos_of_pos (show 0 < b by linarith)
  have gab := Real.Gamma_pos_of_pos (show 0 < a + b by linarith)
  rw [Real.log_div (by positivity) gab.ne', Real.log_mul ga.ne' gb.ne']
  have na : IsNormal a := ⟨ha, le_trans (by norm_num) ha1, lt_of_le_of_lt ha2 (by norm_num)⟩
  have nb : IsNormal b := ⟨hb, le_trans (by norm_num) hb1, lt_of_le_of_lt hb2 (by norm_num)⟩
  have e1 := lgammaf_near (lib := lib) na ha1 (lt_of_le_of_lt ha2 (by norm_num))
  have e2 := lgammaf_near (lib := lib) nb hb1 (lt_of_le_of_lt hb2 (by norm_num))
  have ba := log_Gamma_bound (show 2 ≤ a by linarith) (ha2.trans (by norm_num))
  have bb := log_Gamma_bound (show 2 ≤ b by linarith) (hb2.trans (by norm_num))
  have hs2 : a + b ≤ 2 ^ 31 := by
    have : (2 : ℝ) ^ 31 = 2 ^ 30 + 2 ^ 30 := by norm_num
    linarith
  have bs := log_Gamma_bound (show 2 ≤ a + b by linarith) (hs2.trans (by norm_num))
  have r1 : |nearest (a + b) - (a + b)| ≤ 1 / 2 ^ 23 * (a + b) :=
    err_le (by rw [abs_of_pos (by linarith)]) (by
      have : (1 : ℝ) / 2 ^ 100 ≤ 1 := by norm_num
      linarith)
  have hsi := nearest.idem (a + b)
  generalize nearest (a + b) = s at *
  obtain ⟨r2, r3⟩ := abs_le.1 r1
  have hs5 : 5 / 2 ≤ s := by norm_num at r2 ⊢; linarith
  have hs32 : s < 2 ^ 32 := by norm_num at r3 hs2 ⊢; linarith
  have ns : IsNormal s := ⟨hsi, le_trans (by norm_num) hs5, hs32.trans (by norm_num)⟩
  have e3 := lgammaf_near (lib := lib) ns hs5 hs32
  have e4 := log_Gamma_near (x := a + b) (y := s) (d := 1 / 2 ^ 23 * (a + b)) (by linarith) (by linarith)
    (hs2.trans (by norm_num)) hs32.le r1
  generalize Real.log (Real.Gamma a) = A0 at *
  generalize Real.log (Real.Gamma b) = B0 at *
  generalize Real.log (Real.Gamma (a + b)) = S0 at *
  generalize Real.log (Real.Gamma s) = S1 at *
  generalize lgammaf lib a = A at *
  generalize lgammaf lib b = B at *
  generalize lgammaf lib s = S at *
  obtain ⟨a1, a2⟩ := abs_le.1 e1
  obtain ⟨b1, b2⟩ := abs_le.1 e2
  obtain ⟨c1, c2⟩ := abs_le.1 e3
  obtain ⟨d1, d2⟩ := abs_le.1 e4
  obtain ⟨f1, f2⟩ := abs_le.1 ba
  obtain ⟨g1, g2⟩ := abs_le.1 bb
  obtain ⟨h1, h2⟩ := abs_le.1 bs
  have k1 : |nearest (A + B) - (A + B)| ≤ 1 / 2 ^ 23 * (24 * (a + b)) := by
    refine err_le ?_ ?_
    · rw [abs_le]; constructor <;> norm_num at a1 a2 b1 b2 ⊢ <;> linarith
    · have : (1 : ℝ) / 2 ^ 100 ≤ 1 := by norm_num
      linarith
  generalize nearest (A + B) = T at *
  obtain ⟨k2, k3⟩ := abs_le.1 k1
  have k4 : |nearest (T - S) - (T - S)| ≤ 1 / 2 ^ 23 * (50 * (a + b)) := by
    refine err_le ?_ ?_
    · rw [abs_le]; constructor <;> norm_num at a1 a2 b1 b2 c1 c2 d1 d2 k2 k3 r2 r3 ⊢ <;> linarith
    · have : (1 : ℝ) / 2 ^ 100 ≤ 1 := by norm_num
      linarith
  generalize nearest (T - S) = R at *
  obtain ⟨k5, k6⟩ := abs_le.1 k4
  rw [abs_le]
  constructor <;> norm_num at a1 a2 b1 b2 c1 c2 d1 d2 k2 k3 k5 k6 r2 r3 ⊢ <;> linarith

/-- `fast_log_beta(3, 4)` is within `10^-3` of `log B(3, 4)`. -/
example : ∃ y : Single lib, fastLogBeta ⟨3⟩ ⟨4⟩ = .num y ∧
    |y.val - Real.log (Real.Gamma 3 * Real.Gamma 4 / Real.Gamma (3 + 4))| ≤ 1 / 10 ^ 3 := by
  obtain ⟨y, h1, h2⟩ := C78_fast_log_beta_single (lib := lib) ⟨3⟩ ⟨4⟩
    (near_eq 3 0 (by norm_num) (by norm_num) (by norm_num))
    (near_eq 4 0 (by norm_num) (by norm_num) (by norm_num))
    (by norm_num) (by norm_num) (by norm_num) (by norm_num)
  exact ⟨y, h1, h2.trans (by norm_num)⟩

/-- **C78 (`fast_log_binom` in single precision).** Where the C library has `lgammaf(2) = 0`,
`fast_log_binom(2^24, 1)` returns `0`: there is one way to pick one of sixteen million. The exact value
exceeds `16`. -/
theorem C78_fast_log_binom_lost (hlib : lib.lgammaf 2 = 0) :
    (fastLogBinom (⟨2 ^ 24⟩ : Single lib) ⟨1⟩).val = 0 ∧
      16 < Real.log ((2 ^ 24).choose 1 : ℕ) := by
  have hz := Factor.nearest_zero
  constructor
  · have n1 : nearest (((1 : ℤ) : ℝ) / ((1 : ℕ) : ℝ)) = 1 := by
      rw [show (((1 : ℤ) : ℝ) / ((1 : ℕ) : ℝ)) = 1 by norm_num]
      exact near_eq 1 0 (by norm_num) (by norm_num) (by norm_num)
    have n2 : nearest 2 = 2 := near_eq 1 1 (by norm_num) (by norm_num) (by norm_num)
    have e1 : nearest ((2 : ℝ) ^ 24 - 1) = 2 ^ 24 - 1 :=
      near_eq 16777215 0 (by norm_num) (by norm_num) (by norm_num)
    have e2 : nearest ((2 : ℝ) ^ 24) = 2 ^ 24 := near_eq 1 24 (by norm_num) (by norm_num) (by norm_num)
    -- a tie, broken towards the even significand
    have e3 : nearest ((2 : ℝ) ^ 24 + 1) = 2 ^ 24 := by
      have hl : Int.log 2 |(2 : ℝ) ^ 24 + 1| = 24 := by
        rw [abs_of_pos (by positivity)]
        refine le_antisymm ?_ ?_
        · have := (Int.lt_zpow_iff_log_lt (b := 2) (by norm_num) (by positivity : (0 : ℝ) < 2 ^ 24 + 1)
            (x := 25)).1 (by norm_num)
          omega
        · rw [← Int.zpow_le_iff_le_log (by norm_num) (by positivity)]
          norm_num
      have hq : quantum ((2 : ℝ) ^ 24 + 1) = 1 := by unfold quantum; rw [hl]; norm_num
      have hf : ⌊((2 : ℝ) ^ 24 + 1) / 2⌋ = 2 ^ 23 := by rw [Int.floor_eq_iff]; norm_num
      unfold nearest roundEven
      rw [hq, zpow_one, hf, if_pos (Or.inr ⟨by norm_num, by decide⟩)]
      norm_num
    have l2 : lgammaf lib 2 = 0 := by
      rw [lgammaf_small ⟨n2, by norm_num, by norm_num⟩ (by norm_num), hlib, hz]
    unfold fastLogBinom
    simp only [val_add, val_sub, val_lgamma, val_lit, n1]
    rw [e3, e1, sub_add_cancel, e2, show (1 : ℝ) + 1 = 2 by norm_num, n2, l2, zero_add, lgammaf_single,
      sub_self, hz]
  · have h : ((2 ^ 24).choose 1 : ℕ) = 2 ^ 24 := Nat.choose_one_right _
    rw [h]
    rw [show (((2 ^ 24 : ℕ)) : ℝ) = 2 ^ 24 by norm_num, Real.log_pow]
    have := Real.log_two_gt_d9
    norm_num
    linarith

end Single

end Dist
