import Verif.Lemmas.SingleDD

/-! # Scores of Dirichlet-Process-Discrete groups in single precision -/

namespace Dist

open FloatOps FloatNotation

namespace Single

variable {lib : Libm}

/-- Adding the zero count of a value changes nothing. -/
theorem add_zero_count (a b : Single lib) : a * b + ofInt 0 = a * b := by
  have : (a * b + ofInt 0).val = (a * b).val := by
    rw [val_add, val_ofInt, val_mul]
    simp only [Int.cast_zero, Factor.nearest_zero, add_zero]
    exact nearest.idem _
  cases h : a * b + ofInt 0
  cases h' : a * b
  rw [h, h'] at this
  simp only at this
  rw [this]

/-- The score of a value kept by the cache, against the exact one. -/
theorem dpd_cell {α b : ℝ} (ha1 : 1 / 2 ^ 20 ≤ α) (ha2 : α ≤ 2 ^ 40) (hb1 : 1 / 2 ^ 40 ≤ b)
    (hb2 : b ≤ 1) {c s : ℤ} (hc : 0 ≤ c) (hcs : c ≤ s) (hs : s < 2 ^ 31) :
    |(log ((⟨α⟩ : Single lib) * ⟨b⟩ + ofInt c) - log ((⟨α⟩ : Single lib) + ofInt s)).val -
      Real.log ((α * b + c) / (α + s))| ≤ 255 / 10 ^ 6 ∧
    |(log ((⟨α⟩ : Single lib) * ⟨b⟩ + ofInt c) - log ((⟨α⟩ : Single lib) + ofInt s)).val| ≤ 64 := by
  have hu := Factor.ulp_nonneg
  have hα : 0 < α := lt_of_lt_of_le (by positivity) ha1
  have hb : 0 < b := lt_of_lt_of_le (by positivity) hb1
  have hc0 : (0 : ℝ) ≤ c := by exact_mod_cast hc
  have hs0 : (0 : ℝ) ≤ s := by exact_mod_cast hc.trans hcs
  have hs1 : (s : ℝ) < 2 ^ 31 := by exact_mod_cast hs
  have hcs' : (c : ℝ) ≤ s := by exact_mod_cast hcs
  have hm1 : 1 / 2 ^ 60 ≤ α * b := by
    calc (1 : ℝ) / 2 ^ 60 = 1 / 2 ^ 20 * (1 / 2 ^ 40) := by norm_num
      _ ≤ α * b := by gcongr
  have hm2 : α * b ≤ α := by
    calc α * b ≤ α * 1 := by gcongr
      _ = α := mul_one _
  have p1 : (1 : ℝ) / 2 ^ 126 ≤ 1 / 2 ^ 60 / 2 := by norm_num
  have p1' : (1 : ℝ) / 2 ^ 126 ≤ 1 / 2 ^ 20 / 2 := by norm_num
  have p2 : (2 : ℝ) ^ 40 + 2 ^ 31 ≤ 2 ^ 41 := by norm_num
  have p3 : (2 : ℝ) ^ 41 * 2 < 2 ^ 127 := by norm_num
  have hsm : ulp + 0 ≤ 1 / 2 := by unfold ulp; norm_num
  -- the total
  have ft := ((Factor.refl hα.le).mono hu).add (Factor.ofInt (hc.trans hcs))
  have kt := logf_factor ft (by linarith [ft.half (by linarith)])
    (lt_of_le_of_lt (ft.double (by linarith)) (by linarith))
  -- the entry
  have fm := (Factor.refl (mul_pos hα hb).le).rnd (.inr (by linarith))
  have fe := (fm.mono (show ulp + 0 ≤ ulp by linarith)).add (Factor.ofInt hc)
  have ke := logf_factor fe (by linarith [fe.half (by linarith)])
    (lt_of_le_of_lt (fe.double (by linarith)) (by linarith))
  have hnum : 0 < α * b + c := by linarith [mul_pos hα hb]
  have hden : 0 < α + s := by linarith
  have hlog := Real.log_div hnum.ne' hden.ne'
  have b1 : Real.log ((α * b + c) / (α + s)) ≤ 0 := by
    apply Real.log_nonpos (by positivity)
    rw [div_le_one hden]; linarith
  have b2 : -(92 * Real.log 2) ≤ Real.log ((α * b + c) / (α + s)) := by
    have : Real.log (1 / 2 ^ 92) = -(92 * Real.log 2) := by
      rw [Real.log_div (by norm_num) (by norm_num), Real.log_pow]; simp
    rw [← this]
    apply Real.log_le_log (by positivity)
    rw [le_div_iff₀ hden]
    have h1 : (1 : ℝ) / 2 ^ 92 * s ≤ 1 / 2 ^ 61 := by
      calc (1 : ℝ) / 2 ^ 92 * s ≤ 1 / 2 ^ 92 * 2 ^ 31 := by gcongr
        _ = 1 / 2 ^ 61 := by norm_num
    have h2 : (1 : ℝ) / 2 ^ 92 * α ≤ α * b / 2 := by
      calc (1 : ℝ) / 2 ^ 92 * α ≤ 1 / 2 ^ 41 * α := by gcongr <;> norm_num
        _ = α * (1 / 2 ^ 40) / 2 := by ring
        _ ≤ α * b / 2 := by gcongr
    have h3 : (1 : ℝ) / 2 ^ 61 = 1 / 2 ^ 60 / 2 := by norm_num
    linarith
  have l2 := Real.log_two_lt_d9
  simp only [val_sub, val_log, val_add, val_mul, val_ofInt]
  set x := logf (nearest (nearest (α * b) + nearest (c : ℝ)))
  set y := logf (nearest (α + nearest (s : ℝ)))
  set X := Real.log (α * b + c)
  set Z := Real.log (α + s)
  have q1 : 1 / 2 ^ 13 + ulp + ulp ≤ 123 / 10 ^ 6 := by unfold ulp; norm_num
  have k1 := ke.trans q1
  have k2 := kt.trans q1
  rw [hlog] at b1 b2 ⊢
  clear_value x y X Z
  rw [abs_le] at k1 k2
  have hB : |x - y| ≤ 63.8 := by
    rw [abs_le]
    constructor <;> linarith [k1.1, k1.2, k2.1, k2.2]
  have hr := nearest.error (x - y)
  have hr2 : |nearest (x - y) - (x - y)| ≤ 5 / 10 ^ 6 := by
    refine hr.trans ?_
    calc (2⁻¹ : ℝ) ^ 24 * |x - y| + 2⁻¹ ^ 150 ≤ 2⁻¹ ^ 24 * 63.8 + 2⁻¹ ^ 150 := by gcongr
      _ ≤ _ := by norm_num
  rw [abs_le] at hr2 hB
  constructor
  · rw [abs_le]; constructor <;> linarith [hr2.1, hr2.2, k1.1, k1.2, k2.1, k2.2]
  · rw [abs_le]; constructor <;> linarith [hr2.1, hr2.2, hB.1, hB.2]

end Single

end Dist
