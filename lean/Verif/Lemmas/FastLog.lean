import Verif.Lemmas.Special
import Verif.Base.Rounded
import Mathlib.Analysis.Complex.ExponentialBounds

/-! `fast_log` in rounded arithmetic. -/

namespace Dist.Special

open F32 FloatOps FloatNotation

section
variable {F : Type} [FloatOps F]

theorem fastLog_eq (log2 : F → F) (b : BitVec 32) :
    fastLog log2 b = .ok ((ofInt ((expo b : Int) - 127) +
      log2 (FastLog.node 14 (man b / 2 ^ 9))) * lit 69314718055994529 (10 ^ 17)) := by
  unfold fastLog FastLog.log FastLog.new
  simp only
  rw [if_neg (by norm_num), expField, manField]
  have h : man b / 2 ^ (23 - 14) < ((List.range (2 ^ 14)).map fun i =>
      log2 (FastLog.node 14 i)).length := by
    rw [List.length_map, List.length_range]
    have := man_lt b
    norm_num at this ⊢
    omega
  rw [getAt_of h, Res.ok_bind, Res.pure_eq, List.getElem_map, List.getElem_range]
end

variable {rnd : ℝ → ℝ}

/-- `log2` of the C library, rounded. -/
noncomputable def log2R (rnd : ℝ → ℝ) (x : RR rnd) : RR rnd := ⟨rnd (Real.logb 2 x.val)⟩

theorem rnd_int (h : Rounding rnd) {m : ℤ} (hm : |m| ≤ 2 ^ 24) : rnd (m : ℝ) = m := by
  have := h.exact m 0 hm (by norm_num) (by norm_num)
  simpa using this

theorem node_val (h : Rounding rnd) {i : Nat} (hi : i < 2 ^ 14) :
    (FastLog.node 14 i : RR rnd).val = 1 + (i : ℝ) / 2 ^ 14 := by
  show rnd (rnd (((1 : ℤ) : ℝ) / ((1 : ℕ) : ℝ)) + rnd (rnd (rnd (((i : ℕ) : ℤ) : ℝ) *
    rnd (((2 ^ (23 - 14) : ℕ) : ℤ) : ℝ)) / rnd (((2 ^ 23 : ℕ) : ℤ) : ℝ))) = _
  have hi' : |((i : ℕ) : ℤ)| ≤ 2 ^ 24 := by rw [Nat.abs_cast]; norm_num at hi ⊢; omega
  rw [rnd_int h hi', rnd_int h (m := ((2 ^ (23 - 14) : ℕ) : ℤ)) (by norm_num),
    rnd_int h (m := ((2 ^ 23 : ℕ) : ℤ)) (by norm_num)]
  have h1 : rnd (((1 : ℤ) : ℝ) / ((1 : ℕ) : ℝ)) = 1 := by
    have := rnd_int h (m := 1) (by norm_num)
    simpa using this
  have h2 : rnd ((((i : ℕ) : ℤ) : ℝ) * (((2 ^ (23 - 14) : ℕ) : ℤ) : ℝ)) = (i : ℝ) * 2 ^ 9 := by
    have := h.exact (i : ℤ) 9 hi' (by norm_num) (by norm_num)
    rw [show (2 : ℝ) ^ (9 : ℤ) = 2 ^ 9 by norm_cast] at this
    push_cast at this ⊢
    norm_num at this ⊢
    exact this
  have h3 : rnd ((i : ℝ) * 2 ^ 9 / (((2 ^ 23 : ℕ) : ℤ) : ℝ)) = (i : ℝ) / 2 ^ 14 := by
    have := h.exact (i : ℤ) (-14) hi' (by norm_num) (by norm_num)
    rw [show (2 : ℝ) ^ (-14 : ℤ) = (2 ^ 14)⁻¹ by rw [zpow_neg]; norm_cast] at this
    have e1 : (i : ℝ) * 2 ^ 9 / (((2 ^ 23 : ℕ) : ℤ) : ℝ) = ((i : ℤ) : ℝ) * (2 ^ 14)⁻¹ := by
      push_cast; ring
    rw [e1, this]; push_cast; ring
  rw [h1, h2, h3]
  have h4 := h.exact (2 ^ 14 + i : ℤ) (-14) (by
    rw [abs_of_nonneg (by positivity)]; norm_num at hi ⊢; omega) (by norm_num) (by norm_num)
  rw [show (2 : ℝ) ^ (-14 : ℤ) = (2 ^ 14)⁻¹ by rw [zpow_neg]; norm_cast] at h4
  have e2 : 1 + (i : ℝ) / 2 ^ 14 = ((2 ^ 14 + i : ℤ) : ℝ) * (2 ^ 14)⁻¹ := by
    push_cast; ring
  rw [e2, h4]

/-- The source constant for `log 2` as a float. -/
noncomputable def ln2 (rnd : ℝ → ℝ) : ℝ := rnd (69314718055994529 / 10 ^ 17)

/-- The result as a formula. -/
theorem fastLog_val (h : Rounding rnd) (b : BitVec 32) :
    fastLog (log2R rnd) b = .ok ⟨rnd (rnd (((expo b : ℝ) - 127) +
      rnd (Real.logb 2 (1 + ((man b / 2 ^ 9 : ℕ) : ℝ) / 2 ^ 14))) * ln2 rnd)⟩ := by
  rw [fastLog_eq]
  have hm : man b / 2 ^ 9 < 2 ^ 14 := by have := man_lt b; norm_num at this ⊢; omega
  have he := expo_lt b
  congr 1
  show RR.mk (rnd (rnd (rnd ((((expo b : Int) - 127 : Int) : ℝ)) +
    rnd (Real.logb 2 (FastLog.node 14 (man b / 2 ^ 9) : RR rnd).val)) *
    rnd (((69314718055994529 : ℤ) : ℝ) / ((10 ^ 17 : ℕ) : ℝ)))) = _
  rw [node_val h hm, rnd_int h (m := (expo b : Int) - 127) (by rw [abs_le]; omega)]
  unfold ln2
  norm_num

theorem zpow_nat_sub (a k : Nat) : (2 : ℝ) ^ ((a : ℤ) - (k : ℤ)) = 2 ^ a / 2 ^ k := by
  rw [zpow_sub₀ (by norm_num), zpow_natCast, zpow_natCast]

/-- Larger non-negative numbers have larger exponent and fraction fields. -/
theorem fields_mono {b b' : BitVec 32} {q q' : ℚ} (hv : val b = .fin q) (hv' : val b' = .fin q')
    (hq : 0 ≤ q) (hs : b.msb = false) (hs' : b'.msb = false) (h : q ≤ q') :
    expo b < expo b' ∨ (expo b = expo b' ∧ man b ≤ man b') := by
  have key : ∀ {b : BitVec 32} {q : ℚ}, val b = .fin q → b.msb = false → q = magnitude b := by
    intro b q hv hs
    unfold val at hv
    rw [hs] at hv
    simp only [Bool.false_eq_true, if_false] at hv
    split_ifs at hv
    injection hv with hv
    exact hv.symm
  rw [key hv hs, key hv' hs'] at h
  have hm := man_lt b
  have hm' := man_lt b'
  by_contra hcon
  push Not at hcon
  obtain ⟨h1, h2⟩ := hcon
  apply absurd h
  rw [not_le]
  have cm' : (man b' : ℚ) < 2 ^ 23 := by exact_mod_cast hm'
  have c0 : (0 : ℚ) ≤ man b := by positivity
  rcases lt_or_eq_of_le h1 with hlt | heq
  · have hb : magnitude b = ((2 ^ 23 + man b : ℕ) : ℚ) * 2 ^ expo b / 2 ^ 150 := by
      unfold magnitude; rw [if_neg (by omega)]
    have low : (2 : ℚ) ^ 23 * 2 ^ expo b / 2 ^ 150 ≤ magnitude b := by
      rw [hb]; gcongr; push_cast; linarith
    refine lt_of_lt_of_le ?_ low
    unfold magnitude
    split_ifs with h0
    · have : (2 : ℚ) ^ 1 ≤ 2 ^ expo b := pow_le_pow_right₀ (by norm_num) (by omega)
      calc (man b' : ℚ) / 2 ^ 149 < 2 ^ 23 / 2 ^ 149 := by gcongr
        _ = 2 ^ 23 * 2 ^ 1 / 2 ^ 150 := by norm_num
        _ ≤ _ := by gcongr
    · have : (2 : ℚ) ^ (expo b' + 1) ≤ 2 ^ expo b := pow_le_pow_right₀ (by norm_num) (by omega)
      calc ((2 ^ 23 + man b' : ℕ) : ℚ) * 2 ^ expo b' / 2 ^ 150
          < 2 ^ 24 * 2 ^ expo b' / 2 ^ 150 := by
            gcongr; push_cast; linarith
        _ = 2 ^ 23 * 2 ^ (expo b' + 1) / 2 ^ 150 := by ring
        _ ≤ _ := by gcongr
  · have h3 := h2 heq.symm
    have c3 : (man b' : ℚ) < man b := by exact_mod_cast h3
    unfold magnitude
    rw [heq]
    split_ifs
    · gcongr
    · gcongr

theorem logb_node_nonneg (i : Nat) : 0 ≤ Real.logb 2 (1 + (i : ℝ) / 2 ^ 14) :=
  Real.logb_nonneg (by norm_num) (by have : (0:ℝ) ≤ (i : ℝ) / 2 ^ 14 := by positivity
                                     linarith)

theorem logb_node_le {i : Nat} (hi : i < 2 ^ 14) : Real.logb 2 (1 + (i : ℝ) / 2 ^ 14) ≤ 1 := by
  have h : (1 + (i : ℝ) / 2 ^ 14) ≤ 2 := by
    have : (i : ℝ) < 2 ^ 14 := by exact_mod_cast hi
    have : (i : ℝ) / 2 ^ 14 ≤ 1 := by rw [div_le_one (by positivity)]; linarith
    linarith
  calc Real.logb 2 (1 + (i : ℝ) / 2 ^ 14) ≤ Real.logb 2 2 :=
        Real.logb_le_logb_of_le (by norm_num) (by positivity) h
    _ = 1 := Real.logb_self_eq_one (by norm_num)

theorem ln2_pos (h : Rounding rnd) : 0 ≤ ln2 rnd := by
  have h0 : rnd 0 = 0 := by simpa using rnd_int h (m := 0) (by norm_num)
  unfold ln2
  rw [← h0]
  exact h.mono (by norm_num)

theorem log2_close : |(69314718055994529 / 10 ^ 17 : ℝ) - Real.log 2| ≤ 1 / 10 ^ 9 := by
  rw [abs_le]
  have h1 := Real.log_two_gt_d9
  have h2 := Real.log_two_lt_d9
  constructor <;> norm_num at * <;> linarith

end Dist.Special
