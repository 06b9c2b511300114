import Verif.Lemmas.Factor
import Verif.Lemmas.HalfStep
import Verif.Model.NICH

/-! # The normal model in single precision -/

namespace Dist

open FloatOps FloatNotation

namespace Single

variable {lib : Libm}

/-- Below the first step of its table `fast_log` returns zero. -/
theorem logf_step {x : ℝ} (hs : nearest x = x) (h1 : 1 ≤ x) (h2 : x < 1 + 1 / 2 ^ 14) :
    logf x = 0 := by
  have hn : IsNormal x := ⟨hs, le_trans (by norm_num) h1, h2.trans (by norm_num)⟩
  obtain ⟨q, hp, hq, hx⟩ := hn.bits_spec
  set b := bits x with hb
  rw [F32.val_posNormal hp] at hq
  injection hq with hq
  have hm := F32.man_lt b
  have hx' : ((2 : ℝ) ^ 23 + F32.man b) * 2 ^ F32.expo b / 2 ^ 150 = x := by
    rw [← hx, ← hq]; push_cast; ring
  have hman : (F32.man b : ℝ) < 2 ^ 23 := by exact_mod_cast hm
  have hman0 : (0 : ℝ) ≤ F32.man b := by positivity
  have he : F32.expo b = 127 := by
    rcases Nat.lt_trichotomy (F32.expo b) 127 with h | h | h
    · exfalso
      have : (2 : ℝ) ^ F32.expo b ≤ 2 ^ 126 := pow_le_pow_right₀ (by norm_num) (by omega)
      have h3 : x < 1 := by
        rw [← hx', div_lt_one (by positivity)]
        calc ((2 : ℝ) ^ 23 + F32.man b) * 2 ^ F32.expo b ≤ (2 ^ 23 + F32.man b) * 2 ^ 126 := by gcongr
          _ < (2 ^ 23 + 2 ^ 23) * 2 ^ 126 := by gcongr
          _ = 2 ^ 150 := by norm_num
      linarith
    · exact h
    · exfalso
      have : (2 : ℝ) ^ 128 ≤ 2 ^ F32.expo b := pow_le_pow_right₀ (by norm_num) (by omega)
      have h3 : 2 ≤ x := by
        rw [← hx', le_div_iff₀ (by positivity)]
        calc (2 : ℝ) * 2 ^ 150 = ((2 : ℝ) ^ 23 + 0) * (2 : ℝ) ^ 128 := by norm_num
          _ ≤ ((2 : ℝ) ^ 23 + (F32.man b : ℝ)) * (2 : ℝ) ^ F32.expo b := by gcongr
      norm_num at h2
      linarith
  have hi : F32.man b / 2 ^ 9 = 0 := by
    rw [he] at hx'
    have e : x = 1 + F32.man b / 2 ^ 23 := by
      rw [← hx', add_mul, add_div, mul_div_assoc, mul_div_assoc, div_eq_mul_one_div (F32.man b : ℝ)]
      norm_num
    have : (F32.man b : ℝ) < 2 ^ 9 := by
      have h3 : (F32.man b : ℝ) / 2 ^ 23 < 1 / 2 ^ 14 := by linarith
      rw [div_lt_iff₀ (by positivity)] at h3
      refine h3.trans_le (by norm_num)
    have : F32.man b < 2 ^ 9 := by exact_mod_cast this
    exact Nat.div_eq_of_lt this
  unfold logf
  rw [← hb, Special.fastLog_val nearest.rounding, he, hi]
  simp [result, Factor.nearest_zero]

theorem near_eq {x : ℝ} (m e : ℤ) (h : x = m * 2 ^ e) (hm : |m| ≤ 2 ^ 24) (he : -149 ≤ e) :
    nearest x = x := by
  rw [h]; exact nearest.exact_of_le hm he

end Single

/-- A million observations of variance one, and a prior as small. -/
noncomputable def nichPrior (lib : Libm) : NICH.Shared (Single lib) := ⟨⟨0⟩, ⟨1⟩, ⟨1⟩, ⟨1⟩⟩

noncomputable def nichMillion (lib : Libm) : NICH.Group (Single lib) := ⟨2 ^ 20 - 1, ⟨0⟩, ⟨2 ^ 20 - 1⟩⟩

namespace Single

variable {lib : Libm}

theorem million_post : (nichPrior lib).plusGroup (nichMillion lib) = ⟨⟨0⟩, ⟨2 ^ 20⟩, ⟨1⟩, ⟨2 ^ 20⟩⟩ := by
  have z := Factor.nearest_zero
  have o : nearest 1 = 1 := near_eq 1 0 (by norm_num) (by norm_num) (by norm_num)
  have n1 : nearest 1048575 = 1048575 := near_eq 1048575 0 (by norm_num) (by norm_num) (by norm_num)
  have n2 : nearest 1048576 = 1048576 := near_eq 1 20 (by norm_num) (by norm_num) (by norm_num)
  have n3 : nearest (1 / 1048576) = 1 / 1048576 := near_eq 1 (-20) (by norm_num) (by norm_num) (by norm_num)
  unfold NICH.Shared.plusGroup nichPrior nichMillion
  refine NICH.Shared.mk.injEq .. ▸ ⟨?_, ?_, ?_, ?_⟩
  all_goals
    refine Single.mk.injEq .. ▸ ?_
    simp only [val_add, val_sub, val_mul, val_div, val_lit, val_ofInt]
    norm_num [z, o, n1, n2, n3]

end Single

end Dist
