import Verif.Lemmas.SingleCell
import Verif.Spec.Distributions

/-!
# C77: the predictive distribution of the Gamma-Poisson model in single precision

`score_value` multiplies the difference of two logarithms by the sum of the observations. Both
logarithms come from a table with steps of `2^-14`.
-/

namespace Dist

open FloatOps FloatNotation

namespace Single

variable {lib : Libm}

theorem nearest_neg {x : ℝ} (h : nearest x = x) : nearest (-x) = -x := by
  refine nearest.exact_quantum (n := -roundEven (x / 2 ^ quantum x)) ?_
  rw [nearest.quantum_neg]
  push_cast
  rw [neg_mul]
  congr 1
  exact h.symm

theorem val_logFactorial (n : ℕ) : (FloatOps.logFactorial n : Single lib).val = logFactorialf lib n := rfl

/-- `score_value` unfolded to roundings of real operations. -/
theorem gp_value (sh : GP.Shared (Single lib)) (g : GP.Group (Single lib)) (v : UInt32) :
    (g.scoreValue sh v).val =
      let a := (sh.plusGroup g).alpha.val
      let b := (sh.plusGroup g).invBeta.val
      let L := logf (nearest (1 + b))
      let base := nearest (-lgammaf lib a + nearest (a * nearest (logf b + -L)))
      nearest (nearest (nearest (base + lgammaf lib (nearest (a + nearest (v.toNat : ℝ)))) -
        logFactorialf lib v.toNat) + nearest (-L * nearest (v.toNat : ℝ))) := by
  have h1 : nearest (((1 : ℤ) : ℝ) / ((1 : ℕ) : ℝ)) = 1 := by
    rw [show (((1 : ℤ) : ℝ) / ((1 : ℕ) : ℝ)) = 1 by norm_num]
    exact near_eq 1 0 (by norm_num) (by norm_num) (by norm_num)
  unfold GP.Group.scoreValue GP.Scorer.eval GP.Scorer.init GP.logFact GP.u32
  simp only [val_add, val_sub, val_mul, val_lit, val_log, val_lgamma, val_neg, val_ofInt, val_logFactorial,
    h1, Int.cast_natCast]

/-- Where `fast_log` does not tell `b` from `1 + b`: just above a power of two, and everywhere above
`2^25`. -/
def SameCell (b : ℝ) : Prop :=
  (∃ k : ℕ, 15 ≤ k ∧ k ≤ 24 ∧ 2 ^ k ≤ b ∧ 1 + b ≤ 2 ^ k * (1 + 1 / 2 ^ 15)) ∨ (2 ^ 25 ≤ b ∧ b ≤ 2 ^ 40)

theorem logf_same {b : ℝ} (hb : nearest b = b) (h : SameCell b) : logf (nearest (1 + b)) = logf b := by
  rcases h with ⟨k, h15, h24, hb1, hb2⟩ | ⟨h25, h40⟩
  · obtain ⟨c, hc⟩ := logf_cell (k := k) (by omega)
    have hlt : (2 : ℝ) ^ k * (1 + 1 / 2 ^ 15) < 2 ^ k * (1 + 1 / 2 ^ 14) := by gcongr <;> norm_num
    have hm := nearest.rounding.mono
    have h1 : nearest (1 + b) ≤ 2 ^ k * (1 + 1 / 2 ^ 15) := by
      have e2 : nearest ((2 : ℝ) ^ k * (1 + 1 / 2 ^ 15)) = 2 ^ k * (1 + 1 / 2 ^ 15) := by
        obtain ⟨j, rfl⟩ := Nat.exists_eq_add_of_le h15
        refine near_eq 32769 j ?_ (by norm_num) (by omega)
        rw [pow_add, zpow_natCast]; push_cast; ring
      rw [← e2]; exact hm hb2
    have h0 : b ≤ nearest (1 + b) := by
      calc b = nearest b := hb.symm
        _ ≤ _ := hm (by linarith)
    rw [hc b hb hb1 (by linarith), hc _ (nearest.idem _) (hb1.trans h0) (h1.trans_lt hlt)]
  · -- adding one does not change `b`
    have hb0 : 0 < b := lt_of_lt_of_le (by positivity) h25
    have hq : (2 : ℤ) ≤ quantum b := by
      unfold quantum
      refine le_max_of_le_left ?_
      have : (25 : ℤ) ≤ Int.log 2 |b| := by
        rw [abs_of_pos hb0, ← Int.zpow_le_iff_le_log (by norm_num) hb0]
        exact_mod_cast h25
      omega
    have hbm : b = roundEven (b / 2 ^ quantum b) * 2 ^ quantum b := hb.symm
    generalize roundEven (b / 2 ^ quantum b) = m at hbm
    have hq4 : (4 : ℝ) ≤ 2 ^ quantum b := by
      calc (4 : ℝ) = 2 ^ (2 : ℤ) := by norm_num
        _ ≤ _ := zpow_le_zpow_right₀ (by norm_num) hq
    have key : nearest (1 + b) = b := by
      have hl : quantum (1 + b) = quantum b ∨ quantum (1 + b) = quantum b := by
        left
        have hlogb : quantum b = Int.log 2 |b| - 23 := by
          unfold quantum at hq ⊢
          rcases max_choice (Int.log 2 |b| - 23) (-149) with h | h <;> omega
        have hlog : Int.log 2 |1 + b| = Int.log 2 |b| := by
          rw [abs_of_pos hb0, abs_of_pos (by linarith)]
          rw [abs_of_pos hb0] at hlogb
          refine le_antisymm ?_ (Int.log_mono_right hb0 (by linarith))
          have hlt : 1 + b < 2 ^ (Int.log 2 b + 1) := by
            have h1 : b < (2 : ℝ) ^ (Int.log 2 b + 1) := by
              exact_mod_cast Int.lt_zpow_succ_log_self (by norm_num : 1 < 2) b
            have e : (2 : ℝ) ^ (Int.log 2 b + 1) = ((2 ^ 24 : ℤ) : ℝ) * 2 ^ quantum b := by
              rw [hlogb, show ((2 ^ 24 : ℤ) : ℝ) = (2 : ℝ) ^ (24 : ℤ) by norm_num,
                ← zpow_add₀ (by norm_num)]
              congr 1; ring
            have hmlt : m < 2 ^ 24 := by
              rw [e] at h1
              have h1' : (m : ℝ) * 2 ^ quantum b < ((2 ^ 24 : ℤ) : ℝ) * 2 ^ quantum b := hbm ▸ h1
              have := lt_of_mul_lt_mul_right h1' (by positivity)
              exact_mod_cast this
            have hm1' : ((m + 1 : ℤ) : ℝ) ≤ ((2 ^ 24 : ℤ) : ℝ) := by exact_mod_cast hmlt
            rw [e]
            calc 1 + b < 2 ^ quantum b + m * 2 ^ quantum b := by rw [← hbm]; linarith
              _ = ((m + 1 : ℤ) : ℝ) * 2 ^ quantum b := by push_cast; ring
              _ ≤ _ := by gcongr
          have := (Int.lt_zpow_iff_log_lt (b := 2) (by norm_num) (by linarith : (0 : ℝ) < 1 + b)).1
            (by exact_mod_cast hlt)
          omega
        unfold quantum
        rw [hlog]
      have hl := hl.elim id id
      unfold nearest
      rw [hl]
      have e : (1 + b) / 2 ^ quantum b = m + 1 / 2 ^ quantum b := by
        have h1 : b / 2 ^ quantum b = m := (div_eq_iff (by positivity)).2 hbm
        rw [add_div, h1, add_comm]
      have hr : roundEven ((1 + b) / 2 ^ quantum b) = m := by
        have h0 : 0 ≤ 1 / (2 : ℝ) ^ quantum b := by positivity
        have h4 : 1 / (2 : ℝ) ^ quantum b ≤ 1 / 4 := by gcongr
        rw [e]
        refine roundEven.eq_of ?_
        rw [add_sub_cancel_left, abs_of_nonneg h0]
        linarith
      rw [hr, ← hbm]
    rw [key]

/-- **C77 (zero).** With as many observations as make `SameCell` true, `score_value` returns `0` for
the value `0`, whatever was observed: the computed probability of `0` is one. The exact predictive
probability is at most `exp (-a/(1 + b))`, about `exp (-mean)`. -/
theorem C77_gp_zero (sh : GP.Shared (Single lib)) (g : GP.Group (Single lib))
    (ha : 0 < (sh.plusGroup g).alpha.val) (hb : SameCell (sh.plusGroup g).invBeta.val) :
    (g.scoreValue sh 0).val = 0 ∧
      Spec.negBinomial (sh.plusGroup g).alpha.val
        ((sh.plusGroup g).invBeta.val / (1 + (sh.plusGroup g).invBeta.val)) 0 ≤
        Real.exp (-((sh.plusGroup g).alpha.val / (1 + (sh.plusGroup g).invBeta.val))) := by
  have ha' : nearest (sh.plusGroup g).alpha.val = (sh.plusGroup g).alpha.val := nearest.idem _
  have hb' : nearest (sh.plusGroup g).invBeta.val = (sh.plusGroup g).invBeta.val := nearest.idem _
  rw [gp_value]
  dsimp only
  generalize (sh.plusGroup g).alpha.val = a at *
  generalize (sh.plusGroup g).invBeta.val = b at *
  have hb0 : 0 < b := by
    rcases hb with ⟨k, -, -, h, -⟩ | ⟨h, -⟩ <;> exact lt_of_lt_of_le (by positivity) h
  have hz := Factor.nearest_zero
  constructor
  · rw [logf_same hb' hb, add_neg_cancel, hz, mul_zero, hz, add_zero, UInt32.toNat_zero, Nat.cast_zero,
      hz, add_zero, ha', nearest_neg (lgammaf_single lib a), neg_add_cancel, hz, logFactorialf_zero,
      sub_zero, hz, mul_zero, hz, add_zero, hz]
  · have hG := (Real.Gamma_pos_of_pos ha).ne'
    have e : Spec.negBinomial a (b / (1 + b)) 0 = (b / (1 + b)) ^ a := by
      unfold Spec.negBinomial
      simp [hG]
    rw [e, Real.rpow_def_of_pos (by positivity), Real.exp_le_exp]
    have h1 := Real.log_le_sub_one_of_pos (show 0 < b / (1 + b) by positivity)
    have h2 : b / (1 + b) - 1 = -(1 / (1 + b)) := by field_simp; ring
    rw [h2] at h1
    calc Real.log (b / (1 + b)) * a ≤ -(1 / (1 + b)) * a := by gcongr
      _ = _ := by ring

/-- A million observations of sum one hundred million. -/
noncomputable def gpMillion (lib : Libm) : GP.Group (Single lib) := ⟨1048575, 104857600, ⟨0⟩⟩

/-- The prior `alpha = 8`, `inv_beta = 1`. -/
noncomputable def gpPrior (lib : Libm) : GP.Shared (Single lib) := ⟨⟨8⟩, ⟨1⟩⟩

theorem gp_million_post : (gpPrior lib).plusGroup (gpMillion lib) = ⟨⟨104857608⟩, ⟨1048576⟩⟩ := by
  unfold GP.Shared.plusGroup gpMillion gpPrior GP.u32
  have u1 : (UInt32.toNat 104857600) = 104857600 := by decide
  have u2 : (UInt32.toNat 1048575) = 1048575 := by decide
  refine GP.Shared.mk.injEq .. ▸ ⟨?_, ?_⟩ <;> refine Single.mk.injEq .. ▸ ?_
  · have e1 : nearest (104857600 : ℝ) = 104857600 :=
      near_eq 25 22 (by norm_num) (by norm_num) (by norm_num)
    have e2 : nearest (104857608 : ℝ) = 104857608 :=
      near_eq 13107201 3 (by norm_num) (by norm_num) (by norm_num)
    rw [val_ofInt, u1, Int.cast_natCast, Nat.cast_ofNat, e1,
      show (8 : ℝ) + 104857600 = 104857608 by norm_num, e2]
  · have e1 : nearest (1048575 : ℝ) = 1048575 :=
      near_eq 1048575 0 (by norm_num) (by norm_num) (by norm_num)
    have e2 : nearest (1048576 : ℝ) = 1048576 :=
      near_eq 1048576 0 (by norm_num) (by norm_num) (by norm_num)
    rw [val_ofInt, u2, Int.cast_natCast, Nat.cast_ofNat, e1,
      show (1 : ℝ) + 1048575 = 1048576 by norm_num, e2]

/-- **C77 (contrast).** After a million observations of mean one hundred the code scores a new value `0`
with log probability zero; the exact log probability is below `-99`. -/
theorem C77_gp_contrast : ((gpMillion lib).scoreValue (gpPrior lib) 0).val = 0 ∧
    Spec.negBinomial (8 + 104857600) ((1 + 1048575) / (1 + (1 + 1048575))) 0 ≤ Real.exp (-99) := by
  have h := C77_gp_zero (gpPrior lib) (gpMillion lib)
  rw [gp_million_post] at h
  obtain ⟨h1, h2⟩ := h (by norm_num) (Or.inl ⟨20, by norm_num, by norm_num, by norm_num, by norm_num⟩)
  refine ⟨h1, ?_⟩
  rw [show (8 : ℝ) + 104857600 = 104857608 by norm_num, show (1 : ℝ) + 1048575 = 1048576 by norm_num]
  refine h2.trans (Real.exp_le_exp.2 ?_)
  norm_num

end Single

end Dist
