import Mathlib.Analysis.Matrix.LDL
import Mathlib.LinearAlgebra.Matrix.Block
import Mathlib.Data.Real.StarOrdered
import Mathlib.MeasureTheory.Constructions.BorelSpace.Basic
import Mathlib.MeasureTheory.Function.SpecialFunctions.Basic
import Mathlib.Topology.Instances.Matrix

/-! # Cholesky factors: existence, uniqueness, measurability -/

namespace Dist

open Matrix MeasureTheory

/-- `L` is a Cholesky factor of `M`: lower triangular, positive diagonal, `L Lᵀ = M`. -/
structure IsChol {d : ℕ} (M L : Matrix (Fin d) (Fin d) ℝ) : Prop where
  lower : ∀ i j, i < j → L i j = 0
  diag : ∀ i, 0 < L i i
  mul : L * Lᵀ = M

theorem lower_det {d : ℕ} {L : Matrix (Fin d) (Fin d) ℝ} (h : ∀ i j, i < j → L i j = 0) :
    L.det = ∏ i, L i i :=
  Matrix.det_of_isLowerTriangular L (fun i j hij => h i j hij)

theorem lower_inv {d : ℕ} {L : Matrix (Fin d) (Fin d) ℝ} (h : ∀ i j, i < j → L i j = 0)
    (hd : L.det ≠ 0) : ∀ i j, i < j → L⁻¹ i j = 0 := by
  haveI := Matrix.invertibleOfIsUnitDet L (isUnit_iff_ne_zero.2 hd)
  have hb : BlockTriangular L OrderDual.toDual := fun i j hij => h i j hij
  exact fun i j hij => blockTriangular_inv_of_blockTriangular hb hij

theorem exists_isChol {d : ℕ} {M : Matrix (Fin d) (Fin d) ℝ} (hM : M.PosDef) :
    ∃ L, IsChol M L := by
  classical
  set K := LDL.lowerInv hM with hK
  have hKl : ∀ i j, i < j → K i j = 0 := fun i j h => LDL.lowerInv_triangular hM h
  have hKd : K.det ≠ 0 := by
    haveI := LDL.invertibleLowerInv hM
    exact (isUnit_det_of_invertible K).ne_zero
  have hD := LDL.diag_eq_lowerInv_conj hM
  rw [← hK, conjTranspose_eq_transpose_of_trivial] at hD
  have hpos : ∀ i, 0 < LDL.diagEntries hM i := by
    intro i
    have hne : K i ≠ 0 := by
      intro h0
      apply hKd
      exact Matrix.det_eq_zero_of_row_eq_zero i fun j => congrFun h0 j
    have h1 : LDL.diagEntries hM i = (K * M * Kᵀ) i i := by
      rw [← hD, LDL.diag, diagonal_apply_eq]
    have h2 := hM.dotProduct_mulVec_pos hne
    have h3 : (K * (M * Kᵀ)) i i = star (K i) ⬝ᵥ (M *ᵥ K i) := by
      rw [mul_apply]
      rfl
    rw [h1, Matrix.mul_assoc, h3]
    exact h2
  set e := LDL.diagEntries hM with he
  have hL0 := LDL.lower_conj_diag hM
  rw [LDL.lower, ← hK, conjTranspose_eq_transpose_of_trivial] at hL0
  have hil := lower_inv hKl hKd
  have hid : ∀ i, K⁻¹ i i ≠ 0 := by
    have h1 : (K⁻¹).det ≠ 0 := by
      rw [Matrix.det_nonsing_inv, Ring.inverse_eq_inv']; exact inv_ne_zero hKd
    rw [lower_det hil, Finset.prod_ne_zero_iff] at h1
    exact fun i => h1 i (Finset.mem_univ i)
  let s : Fin d → ℝ := fun i => if 0 < K⁻¹ i i then 1 else -1
  have hs : ∀ i, s i * s i = 1 := fun i => by simp only [s]; split <;> norm_num
  refine ⟨K⁻¹ * diagonal (fun i => √(e i) * s i), ⟨?_, ?_, ?_⟩⟩
  · intro i j hij
    rw [mul_diagonal, hil i j hij, zero_mul]
  · intro i
    rw [mul_diagonal]
    have h1 : 0 < K⁻¹ i i * s i := by
      rcases lt_or_gt_of_ne (hid i) with h | h
      · simp only [s, if_neg (not_lt.2 h.le)]; linarith
      · simp only [s, if_pos h]; linarith
    have h2 := Real.sqrt_pos.2 (hpos i)
    calc (0 : ℝ) < √(e i) * (K⁻¹ i i * s i) := mul_pos h2 h1
      _ = _ := by ring
  · rw [transpose_mul, diagonal_transpose, Matrix.mul_assoc, ← Matrix.mul_assoc (diagonal _),
      diagonal_mul_diagonal]
    have : (fun i => √(e i) * s i * (√(e i) * s i)) = e := by
      funext i
      have := Real.mul_self_sqrt (hpos i).le
      calc √(e i) * s i * (√(e i) * s i) = (√(e i) * √(e i)) * (s i * s i) := by ring
        _ = e i := by rw [hs, this, mul_one]
    rw [this, ← Matrix.mul_assoc]
    exact hL0

theorem IsChol.posDef {d : ℕ} {M L : Matrix (Fin d) (Fin d) ℝ} (h : IsChol M L) : M.PosDef := by
  have hdet : L.det ≠ 0 := by
    rw [lower_det h.lower]; exact (Finset.prod_pos fun i _ => h.diag i).ne'
  have := Matrix.PosDef.mul_conjTranspose_self L
    (Matrix.vecMul_injective_of_isUnit
      ((Matrix.isUnit_iff_isUnit_det L).2 (isUnit_iff_ne_zero.2 hdet)))
  rwa [conjTranspose_eq_transpose_of_trivial, h.mul] at this

theorem IsChol.det_pos {d : ℕ} {M L : Matrix (Fin d) (Fin d) ℝ} (h : IsChol M L) : 0 < L.det := by
  rw [lower_det h.lower]; exact Finset.prod_pos fun i _ => h.diag i

/-- One column of the factorisation, from the columns before it. -/
noncomputable def cholStep {d : ℕ} (M : Fin d → Fin d → ℝ) (k : Fin d) (A : Fin d → Fin d → ℝ) :
    Fin d → Fin d → ℝ := fun i j =>
  if j = k then
    if i = k then √(M k k - ∑ l ∈ Finset.univ.filter (· < k), A k l * A k l)
    else if k < i then (M i k - ∑ l ∈ Finset.univ.filter (· < k), A i l * A k l) /
      √(M k k - ∑ l ∈ Finset.univ.filter (· < k), A k l * A k l)
    else 0
  else A i j

/-- The first `k` columns of the Cholesky factor. -/
noncomputable def cholCols {d : ℕ} (M : Fin d → Fin d → ℝ) : ℕ → Fin d → Fin d → ℝ
  | 0 => fun _ _ => 0
  | k + 1 => if h : k < d then cholStep M ⟨k, h⟩ (cholCols M k) else cholCols M k

/-- The Cholesky factor, column by column. -/
noncomputable def cholR {d : ℕ} (M : Fin d → Fin d → ℝ) : Fin d → Fin d → ℝ := cholCols M d

theorem cholCols_measurable {d : ℕ} (k : ℕ) :
    Measurable fun M : Fin d → Fin d → ℝ => cholCols M k := by
  induction k with
  | zero => exact measurable_const
  | succ k ih =>
    by_cases h : k < d
    · simp only [cholCols, dif_pos h]
      have ih' : ∀ i j, Measurable fun M : Fin d → Fin d → ℝ => cholCols M k i j := fun i j =>
        (measurable_pi_apply j).comp ((measurable_pi_apply i).comp ih)
      have hm : ∀ i j, Measurable fun M : Fin d → Fin d → ℝ => M i j := fun i j =>
        (measurable_pi_apply j).comp (measurable_pi_apply i)
      have hs : ∀ i j, Measurable fun M : Fin d → Fin d → ℝ =>
          M i ⟨k, h⟩ - ∑ l ∈ Finset.univ.filter (· < (⟨k, h⟩ : Fin d)),
            cholCols M k i l * cholCols M k j l := fun i j =>
        (hm i _).sub (Finset.measurable_sum _ fun l _ => (ih' i l).mul (ih' j l))
      refine measurable_pi_iff.2 fun i => measurable_pi_iff.2 fun j => ?_
      unfold cholStep
      split_ifs with h1 h2 h3
      · exact (hs _ _).sqrt
      · exact (hs i _).div (hs _ _).sqrt
      · exact measurable_const
      · exact ih' i j
    · simp only [cholCols, dif_neg h]
      exact ih

theorem cholR_measurable {d : ℕ} : Measurable fun M : Fin d → Fin d → ℝ => cholR M :=
  cholCols_measurable d

theorem cholCols_eq {d : ℕ} {M L : Matrix (Fin d) (Fin d) ℝ} (h : IsChol M L) (k : ℕ)
    (i j : Fin d) : cholCols M k i j = if (j : ℕ) < k then L i j else 0 := by
  induction k generalizing i j with
  | zero => simp [cholCols]
  | succ k ih =>
    by_cases hk : k < d
    · simp only [cholCols, dif_pos hk]
      set q : Fin d := ⟨k, hk⟩ with hq
      have hsum : ∀ a : Fin d, ∑ l ∈ Finset.univ.filter (· < q), cholCols M k a l * cholCols M k q l =
          ∑ l ∈ Finset.univ.filter (· < q), L a l * L q l := by
        intro a
        apply Finset.sum_congr rfl
        intro l hl
        have : (l : ℕ) < k := by simpa [hq, Fin.lt_def] using hl
        rw [ih, ih, if_pos this, if_pos this]
      have hM : ∀ a : Fin d, M a q - ∑ l ∈ Finset.univ.filter (· < q), L a l * L q l =
          L a q * L q q := by
        intro a
        have h1 : M a q = ∑ l, L a l * L q l := by
          rw [← h.mul, mul_apply]; rfl
        have h2 : ∑ l, L a l * L q l = ∑ l ∈ Finset.univ.filter (· < q), L a l * L q l +
            L a q * L q q := by
          rw [← Finset.sum_filter_add_sum_filter_not Finset.univ (· < q)]
          congr 1
          rw [Finset.sum_eq_single q]
          · intro b hb hbq
            have : q < b := lt_of_le_of_ne (by simpa using hb) (Ne.symm hbq)
            rw [h.lower q b this, mul_zero]
          · intro hn
            simp at hn
        rw [h1, h2]; ring
      have hsq : √(M q q - ∑ l ∈ Finset.univ.filter (· < q), L q l * L q l) = L q q := by
        rw [hM, Real.sqrt_mul_self (h.diag q).le]
      unfold cholStep
      rw [hsum, hsum, hsq, hM]
      by_cases hj : j = q
      · have hjk : (j : ℕ) < k + 1 := by rw [hj]; simp [hq]
        rw [if_pos hj, if_pos hjk]
        by_cases hi : i = q
        · rw [if_pos hi, hi, hj]
        · rw [if_neg hi]
          by_cases hi2 : q < i
          · rw [if_pos hi2, hj, mul_div_assoc, div_self (h.diag q).ne', mul_one]
          · rw [if_neg hi2, hj]
            exact (h.lower i q (lt_of_le_of_ne (not_lt.1 hi2) hi)).symm
      · rw [if_neg hj, ih]
        have hne : (j : ℕ) ≠ k := fun e => hj (Fin.ext e)
        by_cases h1 : (j : ℕ) < k
        · rw [if_pos h1, if_pos (by omega)]
        · rw [if_neg h1, if_neg (by omega)]
    · simp only [cholCols, dif_neg hk]
      rw [ih]
      have := j.2
      rw [if_pos (by omega), if_pos (by omega)]

/-- A Cholesky factor is the one computed column by column. -/
theorem IsChol.eq {d : ℕ} {M L : Matrix (Fin d) (Fin d) ℝ} (h : IsChol M L) : L = cholR M := by
  ext i j
  have := cholCols_eq h d i j
  rw [if_pos j.2] at this
  exact this.symm

theorem cholR_isChol {d : ℕ} {M : Matrix (Fin d) (Fin d) ℝ} (hM : M.PosDef) :
    IsChol M (cholR M) := by
  obtain ⟨L, hL⟩ := exists_isChol hM
  rwa [← hL.eq]

/-- The Cholesky factor, as a matrix. -/
noncomputable def cholM {d : ℕ} (M : Matrix (Fin d) (Fin d) ℝ) : Matrix (Fin d) (Fin d) ℝ := cholR M

theorem cholM_isChol {d : ℕ} {M : Matrix (Fin d) (Fin d) ℝ} (hM : M.PosDef) : IsChol M (cholM M) :=
  cholR_isChol hM

theorem IsChol.eq_cholM {d : ℕ} {M L : Matrix (Fin d) (Fin d) ℝ} (h : IsChol M L) : L = cholM M :=
  h.eq

/-- Measurability of the matrix inverse. -/
theorem matInv_measurable {d : ℕ} :
    Measurable fun (M : Fin d → Fin d → ℝ) (i j : Fin d) => (Matrix.of M)⁻¹ i j := by
  have h1 : Continuous fun M : Fin d → Fin d → ℝ => (Matrix.of M).det :=
    Continuous.matrix_det continuous_id
  have h2 : Continuous fun M : Fin d → Fin d → ℝ => (Matrix.of M).adjugate :=
    Continuous.matrix_adjugate continuous_id
  refine measurable_pi_iff.2 fun i => measurable_pi_iff.2 fun j => ?_
  have e : (fun M : Fin d → Fin d → ℝ => (Matrix.of M)⁻¹ i j) =
      fun M => ((Matrix.of M).det)⁻¹ * (Matrix.of M).adjugate i j := by
    funext M
    rw [Matrix.inv_def, Ring.inverse_eq_inv']
    rfl
  have h3 : Measurable fun M : Fin d → Fin d → ℝ => (Matrix.of M)⁻¹ i j := by
    rw [e]
    exact h1.measurable.inv.mul ((continuous_apply_apply i j).comp h2).measurable
  exact h3

end Dist
