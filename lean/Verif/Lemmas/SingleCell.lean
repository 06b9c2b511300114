import Verif.Lemmas.SingleNich
import Verif.Model.GP

/-! # `fast_log` just above a power of two -/

namespace Dist

open FloatOps FloatNotation

namespace Single

/-- Just above a power of two `fast_log` does not depend on its argument. -/
theorem logf_cell {k : ℕ} (hk : k ≤ 120) : ∃ c : ℝ, ∀ x : ℝ, nearest x = x → 2 ^ k ≤ x →
    x < 2 ^ k * (1 + 1 / 2 ^ 14) → logf x = c := by
  refine ⟨result (.ok ⟨nearest (nearest ((((127 + k : ℕ) : ℝ) - 127) +
      nearest (Real.logb 2 (1 + ((0 : ℕ) : ℝ) / 2 ^ 14))) * Special.ln2 nearest)⟩), fun x hs h1 h2 => ?_⟩
  · have hk1 : (1 : ℝ) ≤ 2 ^ k := one_le_pow₀ (by norm_num)
    have hk2 : (2 : ℝ) ^ k ≤ 2 ^ 120 := pow_le_pow_right₀ (by norm_num) hk
    have hn : IsNormal x := ⟨hs, le_trans (by norm_num) (hk1.trans h1), h2.trans (by
      calc (2 : ℝ) ^ k * (1 + 1 / 2 ^ 14) ≤ 2 ^ 120 * (1 + 1 / 2 ^ 14) := by gcongr
        _ < _ := by norm_num)⟩
    obtain ⟨q, hp, hq, hx⟩ := hn.bits_spec
    obtain ⟨b, hb⟩ : ∃ b, b = bits x := ⟨_, rfl⟩
    rw [← hb] at hp hq
    rw [F32.val_posNormal hp] at hq
    injection hq with hq
    have hm := F32.man_lt b
    have hx' : ((2 : ℝ) ^ 23 + F32.man b) * 2 ^ F32.expo b / 2 ^ 150 = x := by
      rw [← hx, ← hq]; push_cast; ring
    have hman : (F32.man b : ℝ) < 2 ^ 23 := by exact_mod_cast hm
    have hman0 : (0 : ℝ) ≤ F32.man b := by positivity
    have he : F32.expo b = 127 + k := by
      rcases Nat.lt_trichotomy (F32.expo b) (127 + k) with h | h | h
      · exfalso
        have : (2 : ℝ) ^ F32.expo b ≤ 2 ^ (126 + k) := pow_le_pow_right₀ (by norm_num) (by omega)
        have h3 : x < 2 ^ k := by
          rw [← hx', div_lt_iff₀ (by positivity)]
          calc ((2 : ℝ) ^ 23 + F32.man b) * 2 ^ F32.expo b ≤
                (2 ^ 23 + F32.man b) * 2 ^ (126 + k) := by gcongr
            _ < (2 ^ 23 + 2 ^ 23) * 2 ^ (126 + k) := by gcongr
            _ = 2 ^ k * 2 ^ 150 := by rw [pow_add]; ring
        linarith
      · exact h
      · exfalso
        have : (2 : ℝ) ^ (128 + k) ≤ 2 ^ F32.expo b := pow_le_pow_right₀ (by norm_num) (by omega)
        have h3 : 2 * 2 ^ k ≤ x := by
          rw [← hx', le_div_iff₀ (by positivity)]
          calc (2 : ℝ) * 2 ^ k * 2 ^ 150 = ((2 : ℝ) ^ 23 + 0) * (2 : ℝ) ^ (128 + k) := by
                rw [pow_add]; ring
            _ ≤ ((2 : ℝ) ^ 23 + (F32.man b : ℝ)) * (2 : ℝ) ^ F32.expo b := by gcongr
        have : (2 : ℝ) ^ k * (1 + 1 / 2 ^ 14) ≤ 2 ^ k * 2 := by gcongr; norm_num
        linarith
    have hi : F32.man b / 2 ^ 9 = 0 := by
      rw [he] at hx'
      have e : x = 2 ^ k * (1 + F32.man b / 2 ^ 23) := by
        rw [← hx', pow_add]; field_simp
      have : (F32.man b : ℝ) < 2 ^ 9 := by
        rw [e] at h2
        have h3 := lt_of_mul_lt_mul_left h2 (by positivity)
        have h3 : (F32.man b : ℝ) / 2 ^ 23 < 1 / 2 ^ 14 := by linarith
        rw [div_lt_iff₀ (by positivity)] at h3
        refine h3.trans_le (by norm_num)
      have : F32.man b < 2 ^ 9 := by exact_mod_cast this
      exact Nat.div_eq_of_lt this
    unfold logf
    rw [← hb, Special.fastLog_val nearest.rounding, he, hi]

/-- Above `2^15`, adding one to a power of two does not change its `fast_log`. -/
theorem logf_succ {k : ℕ} (h1 : 15 ≤ k) (h2 : k ≤ 120) : logf (nearest (1 + 2 ^ k)) = logf (2 ^ k) := by
  obtain ⟨c, hc⟩ := logf_cell h2
  have hk : (2 : ℝ) ^ 15 ≤ 2 ^ k := pow_le_pow_right₀ (by norm_num) h1
  have e : nearest ((2 : ℝ) ^ k) = 2 ^ k := near_eq 1 k (by simp) (by norm_num) (by omega)
  rw [hc _ e le_rfl (lt_mul_of_one_lt_right (by positivity) (by norm_num))]
  refine hc _ (nearest.idem _) ?_ ?_
  · calc (2 : ℝ) ^ k = nearest (2 ^ k) := e.symm
      _ ≤ _ := nearest.rounding.mono (by linarith)
  · have hm : nearest (1 + 2 ^ k) ≤ nearest (2 ^ k * (1 + 1 / 2 ^ 15)) :=
      nearest.rounding.mono (by
        have : (1 : ℝ) ≤ 2 ^ k * (1 / 2 ^ 15) := by
          calc (1 : ℝ) = 2 ^ 15 * (1 / 2 ^ 15) := by norm_num
            _ ≤ _ := by gcongr
        linarith)
    have e2 : nearest ((2 : ℝ) ^ k * (1 + 1 / 2 ^ 15)) = 2 ^ k * (1 + 1 / 2 ^ 15) := by
      obtain ⟨j, rfl⟩ := Nat.exists_eq_add_of_le h1
      refine near_eq 32769 j ?_ (by norm_num) (by omega)
      rw [pow_add, zpow_natCast]; push_cast; ring
    rw [e2] at hm
    refine hm.trans_lt ?_
    gcongr <;> norm_num

end Single

end Dist
