import Verif.Props.SinglePrecision
import Verif.Lemmas.DDCache
import Verif.Lemmas.SingleGibbsScores

/-! # Dirichlet-Discrete mixture caches in single precision -/

namespace Dist

open FloatOps FloatNotation

namespace Single

variable {lib : Libm}

/-- The sum of the hyperparameters kept by the cache. -/
theorem asum_factor {n : ℕ} (hn : n ≤ 256) (a : Fin n → ℝ) (ha : ∀ i, 1 / 2 ^ 40 ≤ a i) :
    Factor (n * ulp) (DD.asum (⟨List.ofFn fun i => ⟨a i⟩⟩ : DD.Shared (Single lib))).val
      (∑ i, a i) := by
  have hn256 : (n : ℝ) ≤ 256 := by exact_mod_cast hn
  have hb : (n : ℝ) * ulp ≤ 1 / 4 := ulp_small (by linarith)
  have := sum_factor (lib := lib) (δ := 0) le_rfl
    (List.ofFn fun i => ((⟨a i⟩ : Single lib), a i)) 0 (ofInt 0) 0 (by
      intro p hp
      obtain ⟨i, rfl⟩ := (List.mem_ofFn' _ _).1 hp
      exact ⟨Factor.refl (le_trans (by positivity) (ha i)), ha i⟩) (by
      rw [val_ofInt, Int.cast_zero, Factor.nearest_zero]
      exact (Factor.refl le_rfl).mono (by simp)) (by simpa using hb)
  rw [List.map_ofFn, List.map_ofFn, List.sum_ofFn, zero_add] at this
  simp only [Function.comp_def, List.length_ofFn, Nat.cast_zero, zero_add] at this
  exact this

/-- The score of a value kept by the cache, against the exact one. -/
theorem dd_cell {n : ℕ} (hn : n ≤ 256) (a : Fin n → ℝ) (ha : ∀ i, 1 / 2 ^ 40 ≤ a i ∧ a i ≤ 2 ^ 40)
    (v : Fin n) {c s : ℤ} (hc : 0 ≤ c) (hcs : c ≤ s) (hs : s < 2 ^ 31) :
    |(log ((⟨a v⟩ : Single lib) + ofInt c) -
        log (DD.asum (⟨List.ofFn fun i => ⟨a i⟩⟩ : DD.Shared (Single lib)) + ofInt s)).val -
      Real.log ((a v + c) / (∑ i, a i + s))| ≤ 315 / 10 ^ 6 ∧
    |(log ((⟨a v⟩ : Single lib) + ofInt c) -
        log (DD.asum (⟨List.ofFn fun i => ⟨a i⟩⟩ : DD.Shared (Single lib)) + ofInt s)).val| ≤ 64 := by
  have hu := Factor.ulp_nonneg
  have hn256 : (n : ℝ) ≤ 256 := by exact_mod_cast hn
  have hs0 : (0 : ℝ) ≤ s := by exact_mod_cast hc.trans hcs
  have hs1 : (s : ℝ) < 2 ^ 31 := by exact_mod_cast hs
  have hcs' : (c : ℝ) ≤ s := by exact_mod_cast hcs
  obtain ⟨fa, la, ua⟩ := range_add (ha v).1 (ha v).2 hc (lt_of_le_of_lt hcs hs)
  have hb : (n : ℝ) * ulp ≤ 256 * ulp := by gcongr
  have hav : a v ≤ ∑ i, a i := Finset.single_le_sum
    (fun i _ => le_trans (by positivity) (ha i).1) (Finset.mem_univ v)
  have hsum2 : ∑ i, a i ≤ 2 ^ 48 := by
    calc ∑ i, a i ≤ ∑ _i : Fin n, (2 : ℝ) ^ 40 := Finset.sum_le_sum fun i _ => (ha i).2
      _ = n * 2 ^ 40 := by simp
      _ ≤ 256 * 2 ^ 40 := by gcongr
      _ = 2 ^ 48 := by norm_num
  have p1 : (1 : ℝ) / 2 ^ 126 ≤ 1 / 2 ^ 40 / 2 := by norm_num
  have p2 : (2 : ℝ) ^ 48 + 2 ^ 31 ≤ 2 ^ 49 := by norm_num
  have p3 : (2 : ℝ) ^ 49 * 2 < 2 ^ 127 := by norm_num
  have p4 : (2 : ℝ) ^ 41 ≤ 2 ^ 49 := by norm_num
  have hlow : 1 / 2 ^ 40 ≤ ∑ i, a i + s := by linarith [(ha v).1]
  -- the total
  have ft := ((asum_factor (lib := lib) hn a fun i => (ha i).1).mono
      (show (n : ℝ) * ulp ≤ (256 + 1) * ulp by linarith)).add
    ((Factor.ofInt (n := s) (hc.trans hcs)).mono (show ulp ≤ (256 + 1) * ulp by linarith))
  have hsm : (256 + 1 : ℝ) * ulp ≤ 1 / 2 := by unfold ulp; norm_num
  have fth := ft.half hsm
  have ftd := ft.double hsm
  have kt := logf_factor ft (by linarith) (lt_of_le_of_lt ftd (by linarith))
  -- the entry
  have fe := ((Factor.refl (le_trans (by positivity) (ha v).1)).mono hu).add (Factor.ofInt hc)
  have feh := fe.half (by unfold ulp; norm_num)
  have fed := fe.double (by unfold ulp; norm_num)
  have ke := logf_factor fe (by linarith) (lt_of_le_of_lt fed (by linarith))
  have hlog : Real.log ((a v + c) / (∑ i, a i + s)) =
      Real.log (a v + c) - Real.log (∑ i, a i + s) :=
    Real.log_div (lt_of_lt_of_le (by positivity) la).ne' (lt_of_lt_of_le (by positivity) hlow).ne'
  have b1 := abs_log_le (x := a v + c) (k := 41)
    (by have : (1 : ℝ) / 2 ^ 41 ≤ 1 / 2 ^ 40 := by norm_num
        linarith) ua
  have b2 := abs_log_le (x := ∑ i, a i + s) (k := 49)
    (by have : (1 : ℝ) / 2 ^ 49 ≤ 1 / 2 ^ 40 := by norm_num
        linarith) (by linarith)
  have b1' : Real.log (a v + c) ≤ Real.log (∑ i, a i + s) :=
    Real.log_le_log (lt_of_lt_of_le (by positivity) la) (by linarith)
  rw [hlog]
  simp only [val_sub, val_log, val_add, val_ofInt]
  set x := logf (nearest (a v + nearest (c : ℝ)))
  set y := logf (nearest ((DD.asum (⟨List.ofFn fun i => ⟨a i⟩⟩ : DD.Shared (Single lib))).val +
    nearest (s : ℝ)))
  set X := Real.log (a v + c)
  set Z := Real.log (∑ i, a i + s)
  have q1 : 1 / 2 ^ 13 + ulp + ulp ≤ 123 / 10 ^ 6 := by unfold ulp; norm_num
  have q2 : 1 / 2 ^ 13 + ulp + (256 + 1) * ulp ≤ 184 / 10 ^ 6 := by unfold ulp; norm_num
  have k1 := ke.trans q1
  have k2 := kt.trans q2
  clear_value x y X Z
  norm_num at b1 b2
  rw [abs_le] at b1 b2 k1 k2
  have hB : |x - y| ≤ 63.1 := by
    rw [abs_le]
    constructor <;> linarith [b1.1, b1.2, b2.1, b2.2, k1.1, k1.2, k2.1, k2.2]
  have hr := nearest.error (x - y)
  have hr2 : |nearest (x - y) - (x - y)| ≤ 5 / 10 ^ 6 := by
    refine hr.trans ?_
    calc (2⁻¹ : ℝ) ^ 24 * |x - y| + 2⁻¹ ^ 150 ≤ 2⁻¹ ^ 24 * 63.1 + 2⁻¹ ^ 150 := by gcongr
      _ ≤ _ := by norm_num
  rw [abs_le] at hr2 hB
  constructor
  · rw [abs_le]; constructor <;> linarith [hr2.1, hr2.2, k1.1, k1.2, k2.1, k2.2]
  · rw [abs_le]; constructor <;> linarith [hr2.1, hr2.2, hB.1, hB.2]

end Single

end Dist
