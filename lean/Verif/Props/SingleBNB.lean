import Verif.Lemmas.SingleInt
import Verif.Model.BNB
import Verif.Spec.Distributions

/-!
# C77: the Beta-Negative-Binomial model in single precision

`score_value` is a sum of six values of `fast_lgamma`. From a million observations on these are
above `2^23`, where the single precision numbers are integers.
-/

namespace Dist

open FloatOps FloatNotation

namespace Single

variable {lib : Libm}

/-- **C77 (Beta-Negative-Binomial).** Once both posterior parameters are at least `2^20`, `score_value`
returns an integer for every value: no probability strictly between `1/e` and `1` is ever
reported. -/
theorem C77_bnb_integer (sh : BNB.Shared (Single lib)) (g : BNB.Group) (v : UInt32)
    (ha1 : 2 ^ 20 ≤ (sh.plusGroup g).alpha.val) (ha2 : (sh.plusGroup g).alpha.val ≤ 2 ^ 28)
    (hb1 : 2 ^ 20 ≤ (sh.plusGroup g).beta.val) (hb2 : (sh.plusGroup g).beta.val ≤ 2 ^ 28)
    (hr : sh.r.toNat ≤ 2 ^ 28) (hv : v.toNat ≤ 2 ^ 28) :
    ∃ k : ℤ, (g.scoreValue sh v).val = k := by
  have ha' : nearest (sh.plusGroup g).alpha.val = (sh.plusGroup g).alpha.val := nearest.idem _
  have hb' : nearest (sh.plusGroup g).beta.val = (sh.plusGroup g).beta.val := nearest.idem _
  unfold BNB.Group.scoreValue BNB.u32
  simp only [val_add, val_sub, val_lgamma, val_ofInt, Int.cast_natCast]
  generalize (sh.plusGroup g).alpha.val = a at *
  generalize (sh.plusGroup g).beta.val = b at *
  have hm := nearest.rounding.mono
  have pow : ∀ k : ℕ, nearest ((2 : ℝ) ^ k) = 2 ^ k := fun k =>
    near_eq 1 k (by simp) (by norm_num) (by omega)
  have up : ∀ (x : ℝ) (k : ℕ), x ≤ 2 ^ k → nearest x ≤ 2 ^ k := fun x k h => by
    rw [← pow k]; exact hm h
  have low : ∀ x : ℝ, 2 ^ 20 ≤ x → 2 ^ 20 ≤ nearest x := fun x h => by
    rw [← pow 20]; exact hm h
  have nn : ∀ x : ℝ, 0 ≤ x → 0 ≤ nearest x := fun x h => by
    rw [← Factor.nearest_zero]; exact hm h
  have r1 : nearest (sh.r.toNat : ℝ) ≤ 2 ^ 28 := up _ _ (by exact_mod_cast hr)
  have v1 : nearest (v.toNat : ℝ) ≤ 2 ^ 28 := up _ _ (by exact_mod_cast hv)
  have r0 := nn (sh.r.toNat : ℝ) (by positivity)
  have v0 := nn (v.toNat : ℝ) (by positivity)
  generalize nearest (sh.r.toNat : ℝ) = R at *
  generalize nearest (v.toNat : ℝ) = V at *
  have e29 : (2 : ℝ) ^ 29 = 2 ^ 28 + 2 ^ 28 := by norm_num
  have e30 : (2 : ℝ) ^ 30 = 2 ^ 29 + 2 ^ 29 := by norm_num
  have p20 : (0 : ℝ) ≤ 2 ^ 20 := by positivity
  have A1 := low (a + R) (by linarith)
  have A2 := up (a + R) 29 (by linarith)
  have B1 := low (b + V) (by linarith)
  have B2 := up (b + V) 29 (by linarith)
  have iA := nearest.idem (a + R)
  have iB := nearest.idem (b + V)
  generalize nearest (a + R) = A at *
  generalize nearest (b + V) = B at *
  have C1 := low (a + b) (by linarith)
  have C2 := up (a + b) 29 (by linarith)
  have D1 := low (A + B) (by linarith)
  have D2 := up (A + B) 30 (by linarith)
  have l28 : (2 : ℝ) ^ 28 < 2 ^ 32 := by norm_num
  have l29 : (2 : ℝ) ^ 29 < 2 ^ 32 := by norm_num
  have l30 : (2 : ℝ) ^ 30 < 2 ^ 32 := by norm_num
  obtain ⟨k1, h1⟩ := lgammaf_int (lib := lib) (nearest.idem (a + b)) C1 (C2.trans_lt l29)
  obtain ⟨k2, h2⟩ := lgammaf_int (lib := lib) (nearest.idem (A + B)) D1 (D2.trans_lt l30)
  obtain ⟨k3, h3⟩ := lgammaf_int (lib := lib) iA A1 (A2.trans_lt l29)
  obtain ⟨k4, h4⟩ := lgammaf_int (lib := lib) ha' ha1 (ha2.trans_lt l28)
  obtain ⟨k5, h5⟩ := lgammaf_int (lib := lib) iB B1 (B2.trans_lt l29)
  obtain ⟨k6, h6⟩ := lgammaf_int (lib := lib) hb' hb1 (hb2.trans_lt l28)
  rw [h1, h2, h3, h4, h5, h6]
  obtain ⟨m1, e1⟩ := int_round (k1 - k2)
  obtain ⟨m2, e2⟩ := int_round (k3 - k4)
  obtain ⟨m3, e3⟩ := int_round (k5 - k6)
  push_cast at e1 e2 e3
  rw [e1, e2, e3]
  obtain ⟨m4, e4⟩ := int_round (m1 + m2)
  push_cast at e4
  rw [e4]
  obtain ⟨m5, e5⟩ := int_round (m4 + m3)
  push_cast at e5
  exact ⟨m5, e5⟩

/-- A million observations of sum a million. -/
def bnbMillion : BNB.Group := ⟨1048575, 1048575⟩

/-- **C77 (Beta-Negative-Binomial, contrast).** With `r = 1`, `alpha = beta = 1` and a million
observations of mean one the exact probability of the value `0` is one half; the reported log
probability is off by more than `0.3`. -/
theorem C77_bnb_contrast :
    Spec.betaNegBinomial (1 + 1048575) (1 + 1048575) 1 0 = 1 / 2 ∧
    3 / 10 < |(bnbMillion.scoreValue (⟨⟨1⟩, ⟨1⟩, 1⟩ : BNB.Shared (Single lib)) 0).val -
      Real.log (Spec.betaNegBinomial (1 + 1048575) (1 + 1048575) 1 0)| := by
  have hexact : Spec.betaNegBinomial (1 + 1048575) (1 + 1048575) 1 0 = 1 / 2 := by
    unfold Spec.betaNegBinomial
    rw [show (1 : ℝ) + 1048575 = 1048576 by norm_num]
    have hg : (0 : ℝ) < Real.Gamma 1048576 := Real.Gamma_pos_of_pos (by norm_num)
    have hg2 : (0 : ℝ) < Real.Gamma (1048576 + 1048576) := Real.Gamma_pos_of_pos (by norm_num)
    have e1 : Real.Gamma ((1048576 : ℝ) + ((1 : ℕ) : ℝ)) = 1048576 * Real.Gamma 1048576 := by
      rw [Nat.cast_one]; exact Real.Gamma_add_one (by norm_num)
    have e2 : Real.Gamma ((1048576 : ℝ) + ((1 : ℕ) : ℝ) + (1048576 + ((0 : ℕ) : ℝ))) =
        (1048576 + 1048576) * Real.Gamma (1048576 + 1048576) := by
      rw [Nat.cast_one, Nat.cast_zero, add_zero,
        show (1048576 : ℝ) + 1 + 1048576 = (1048576 + 1048576) + 1 by ring]
      exact Real.Gamma_add_one (by norm_num)
    have e3 : ((0 + 1 - 1).choose 0 : ℝ) = 1 := by norm_num
    rw [e1, e2, Nat.cast_zero, add_zero]
    generalize Real.Gamma 1048576 = x at *
    generalize Real.Gamma (1048576 + 1048576) = y at *
    norm_num
    field_simp
    norm_num
  refine ⟨hexact, ?_⟩
  have n1 : nearest 1 = 1 := near_eq 1 0 (by norm_num) (by norm_num) (by norm_num)
  have hp : (⟨⟨1⟩, ⟨1⟩, 1⟩ : BNB.Shared (Single lib)).plusGroup bnbMillion =
      ⟨⟨1048576⟩, ⟨1048576⟩, 1⟩ := by
    have u2 : (UInt32.toNat 1048575) = 1048575 := by decide
    have u1 : (UInt32.toNat 1) = 1 := by decide
    have e1 : nearest (1048575 : ℝ) = 1048575 :=
      near_eq 1048575 0 (by norm_num) (by norm_num) (by norm_num)
    have e2 : nearest (1048576 : ℝ) = 1048576 :=
      near_eq 1048576 0 (by norm_num) (by norm_num) (by norm_num)
    unfold BNB.Shared.plusGroup bnbMillion BNB.u32
    refine BNB.Shared.mk.injEq .. ▸ ⟨?_, ?_, rfl⟩ <;> refine Single.mk.injEq .. ▸ ?_
    · rw [val_mul, val_ofInt, val_ofInt, u1, u2, Int.cast_natCast, Nat.cast_one, n1, Int.cast_natCast,
        Nat.cast_ofNat, e1, one_mul, e1, show (1 : ℝ) + 1048575 = 1048576 by norm_num, e2]
    · rw [val_ofInt, u2, Int.cast_natCast, Nat.cast_ofNat, e1,
        show (1 : ℝ) + 1048575 = 1048576 by norm_num, e2]
  have h := C77_bnb_integer (⟨⟨1⟩, ⟨1⟩, 1⟩ : BNB.Shared (Single lib)) bnbMillion 0
  rw [hp] at h
  obtain ⟨k, hk⟩ := h (by norm_num) (by norm_num) (by norm_num) (by norm_num)
    (show UInt32.toNat 1 ≤ 2 ^ 28 by decide) (by decide)
  rw [hk, hexact, one_div, Real.log_inv]
  have d1 := Real.log_two_gt_d9
  have d2 := Real.log_two_lt_d9
  rcases le_or_gt k (-1) with h | h
  · have : (k : ℝ) ≤ -1 := by exact_mod_cast h
    rw [lt_abs]; right; linarith
  · have : (0 : ℝ) ≤ k := by exact_mod_cast (by omega : 0 ≤ k)
    rw [lt_abs]; left; linarith

end Single

end Dist
