import Verif.Lemmas.RefNiwDraws
import Verif.Lemmas.GammaMoments

/-! # Moments of the determinant of Bartlett's matrix, tilted -/

namespace Dist

open MeasureTheory ProbabilityTheory Real Spec Matrix

variable {d : ℕ}

/-! ## Schur complement of the last entry -/

/-- The Schur complement of the last diagonal entry. -/
noncomputable def schurLast {n : ℕ} (H : Matrix (Fin (n + 1)) (Fin (n + 1)) ℝ) :
    Matrix (Fin n) (Fin n) ℝ := fun i j =>
  H i.castSucc j.castSucc -
    H i.castSucc (Fin.last n) * H (Fin.last n) j.castSucc / H (Fin.last n) (Fin.last n)

/-- The last diagonal entry as a matrix. -/
def lastBlock {n : ℕ} (H : Matrix (Fin (n + 1)) (Fin (n + 1)) ℝ) : Matrix (Fin 1) (Fin 1) ℝ :=
  Matrix.of fun _ _ => H (Fin.last n) (Fin.last n)

/-- The last column without its last entry. -/
def colBlock {n : ℕ} (H : Matrix (Fin (n + 1)) (Fin (n + 1)) ℝ) : Matrix (Fin n) (Fin 1) ℝ :=
  Matrix.of fun i _ => H i.castSucc (Fin.last n)

/-- The last row without its last entry. -/
def rowBlock {n : ℕ} (H : Matrix (Fin (n + 1)) (Fin (n + 1)) ℝ) : Matrix (Fin 1) (Fin n) ℝ :=
  Matrix.of fun _ j => H (Fin.last n) j.castSucc

/-- The blocks of a matrix around its last diagonal entry. -/
theorem blocks_last {n : ℕ} (H : Matrix (Fin (n + 1)) (Fin (n + 1)) ℝ) :
    H.submatrix finSumFinEquiv finSumFinEquiv =
      fromBlocks (H.submatrix Fin.castSucc Fin.castSucc) (colBlock H) (rowBlock H)
        (lastBlock H) := by
  ext i j
  have h : ∀ k : Fin 1, Fin.natAdd n k = Fin.last n := fun k => by
    have : k = 0 := Subsingleton.elim _ _
    subst this; rfl
  rcases i with i | i <;> rcases j with j | j <;>
    simp only [submatrix_apply, finSumFinEquiv_apply_left, finSumFinEquiv_apply_right, h,
      fromBlocks_apply₁₁, fromBlocks_apply₁₂, fromBlocks_apply₂₁, fromBlocks_apply₂₂, colBlock,
      rowBlock, lastBlock, of_apply] <;> rfl

theorem lastBlock_det {n : ℕ} (H : Matrix (Fin (n + 1)) (Fin (n + 1)) ℝ) :
    (lastBlock H).det = H (Fin.last n) (Fin.last n) := by
  rw [det_fin_one]; rfl

theorem schur_eq {n : ℕ} {H : Matrix (Fin (n + 1)) (Fin (n + 1)) ℝ}
    (h : H (Fin.last n) (Fin.last n) ≠ 0) :
    H.submatrix Fin.castSucc Fin.castSucc - colBlock H * (lastBlock H)⁻¹ * rowBlock H =
      schurLast H := by
  have hi : (lastBlock H)⁻¹ = Matrix.of fun _ _ => (H (Fin.last n) (Fin.last n))⁻¹ := by
    apply Matrix.inv_eq_left_inv
    ext i j
    have hij : i = j := Subsingleton.elim _ _
    subst hij
    simp [Matrix.mul_apply, lastBlock, h]
  rw [hi]
  ext i j
  simp only [Matrix.sub_apply, Matrix.mul_apply, Finset.univ_unique, Finset.sum_singleton,
    schurLast, colBlock, rowBlock, of_apply, submatrix_apply]
  rw [div_eq_mul_inv]
  ring

theorem schurLast_det {n : ℕ} {H : Matrix (Fin (n + 1)) (Fin (n + 1)) ℝ}
    (h : H (Fin.last n) (Fin.last n) ≠ 0) :
    H.det = H (Fin.last n) (Fin.last n) * (schurLast H).det := by
  haveI : Invertible (lastBlock H) := (lastBlock H).invertibleOfIsUnitDet
    (by rw [lastBlock_det]; exact isUnit_iff_ne_zero.2 h)
  rw [← Matrix.det_submatrix_equiv_self finSumFinEquiv H, blocks_last, det_fromBlocks₂₂,
    lastBlock_det, Matrix.invOf_eq_nonsing_inv, schur_eq h]

theorem schurLast_posDef {n : ℕ} {H : Matrix (Fin (n + 1)) (Fin (n + 1)) ℝ} (hH : H.PosDef) :
    0 < H (Fin.last n) (Fin.last n) ∧ (schurLast H).PosDef := by
  have h0 : 0 < H (Fin.last n) (Fin.last n) := hH.diag_pos
  refine ⟨h0, ?_⟩
  haveI : Invertible (lastBlock H) := (lastBlock H).invertibleOfIsUnitDet
    (by rw [lastBlock_det]; exact isUnit_iff_ne_zero.2 h0.ne')
  have hDp : (lastBlock H).PosDef := by
    have : lastBlock H = diagonal fun _ => H (Fin.last n) (Fin.last n) := by
      ext i j
      have hij : i = j := Subsingleton.elim _ _
      subst hij; simp [lastBlock]
    rw [this]
    exact Matrix.PosDef.diagonal fun _ => h0
  have hps : (H.submatrix finSumFinEquiv finSumFinEquiv).PosSemidef :=
    hH.posSemidef.submatrix _
  have hsym : rowBlock H = (colBlock H)ᴴ := by
    ext i j
    simp only [conjTranspose_apply, star_trivial, rowBlock, colBlock, of_apply]
    exact (hH.1.apply _ _).symm
  rw [blocks_last, hsym, Matrix.PosDef.fromBlocks₂₂ _ _ hDp, ← hsym, schur_eq h0.ne'] at hps
  refine hps.posDef_iff_isUnit.2 ((Matrix.isUnit_iff_isUnit_det _).2 (isUnit_iff_ne_zero.2 ?_))
  intro h3
  have := hH.det_pos
  rw [schurLast_det h0.ne', h3, mul_zero] at this
  exact lt_irrefl _ this

/-! ## One-dimensional integrals -/

theorem gaussian_tilt {s p : ℝ} (hs : 0 < 1 + s) :
    ∫⁻ x, ENNReal.ofReal (exp (-(s * x ^ 2 + 2 * p * x) / 2)) ∂gaussianReal 0 1 =
      ENNReal.ofReal ((√(1 + s))⁻¹ * exp (p ^ 2 / (1 + s) / 2)) := by
  rw [gaussianReal_of_var_ne_zero _ one_ne_zero,
    lintegral_withDensity_eq_lintegral_mul _ (measurable_gaussianPDF 0 1) (by fun_prop)]
  have hh := hs.ne'
  have hv : (1 / (1 + s)).toNNReal ≠ 0 := by
    rw [Ne, Real.toNNReal_eq_zero, not_le]; positivity
  have hvc : (((1 / (1 + s)).toNNReal : NNReal) : ℝ) = 1 / (1 + s) :=
    Real.coe_toNNReal _ (by positivity)
  have e : ∀ x : ℝ, (gaussianPDF 0 1 * fun x => ENNReal.ofReal (exp (-(s * x ^ 2 + 2 * p * x) / 2))) x =
      ENNReal.ofReal ((√(1 + s))⁻¹ * exp (p ^ 2 / (1 + s) / 2)) *
        gaussianPDF (-(p / (1 + s))) (1 / (1 + s)).toNNReal x := by
    intro x
    rw [Pi.mul_apply, gaussianPDF, gaussianPDF, ← ENNReal.ofReal_mul (gaussianPDFReal_nonneg _ _ _),
      ← ENNReal.ofReal_mul (by positivity)]
    congr 1
    rw [gaussianPDFReal, gaussianPDFReal, hvc]
    have e1 : √(2 * π * (1 / (1 + s))) = √(2 * π) * (√(1 + s))⁻¹ := by
      rw [mul_one_div, Real.sqrt_div (by positivity), div_eq_mul_inv]
    have hq : √(1 + s) ≠ 0 := (Real.sqrt_pos.2 hs).ne'
    have hpi : √(2 * π) ≠ 0 := (Real.sqrt_pos.2 (by positivity)).ne'
    rw [e1]
    simp only [NNReal.coe_one, mul_one, sub_zero]
    rw [mul_assoc, ← Real.exp_add]
    have e2 : (√(1 + s))⁻¹ * exp (p ^ 2 / (1 + s) / 2) *
        ((√(2 * π) * (√(1 + s))⁻¹)⁻¹ * exp (-(x - -(p / (1 + s))) ^ 2 / (2 * (1 / (1 + s))))) =
        (√(2 * π))⁻¹ * (exp (p ^ 2 / (1 + s) / 2) *
          exp (-(x - -(p / (1 + s))) ^ 2 / (2 * (1 / (1 + s))))) := by
      field_simp
    rw [e2, ← Real.exp_add]
    congr 2
    field_simp
    ring
  simp only [e]
  rw [lintegral_const_mul _ (measurable_gaussianPDF _ _), lintegral_gaussianPDF_eq_one _ hv, mul_one]

theorem chi_tilt {a s : ℝ} (ha : 0 < a) (hs : 0 < 1 + s) (n : ℕ) :
    ∫⁻ x, ENNReal.ofReal (√x ^ n * exp (-(s * √x ^ 2) / 2)) ∂gammaMeasure (a / 2) (1 / 2) =
      ENNReal.ofReal ((1 / 2) ^ (a / 2) / Gamma (a / 2) * Gamma (a / 2 + n / 2) *
        (1 / 2) ^ (-(a / 2 + n / 2)) * √(1 + s) ^ (-(a + n))) := by
  have h0 : (0 : ℝ) ≤ n := by positivity
  have := gamma_moment (a := a / 2) (r := 1 / 2) (k := n / 2) (t := s / 2) (by positivity)
    (by norm_num) (by positivity) (by linarith)
  have e : (1 / 2 : ℝ) + s / 2 = 1 / 2 * (1 + s) := by ring
  rw [e, Real.mul_rpow (by norm_num) hs.le] at this
  rw [Real.sqrt_eq_rpow, ← Real.rpow_mul hs.le]
  have e2 : (1 / 2 : ℝ) * -(a + n) = -(a / 2 + n / 2) := by ring
  rw [e2]
  refine Eq.trans ?_ (this.trans ?_)
  · apply lintegral_congr_ae
    filter_upwards [gamma_pos_ae _ _] with x hx
    congr 2
    · rw [Real.sqrt_eq_rpow, ← Real.rpow_natCast, ← Real.rpow_mul hx.le]
      congr 1
      ring
    · rw [Real.sq_sqrt hx.le]
      congr 1
      ring
  · congr 1
    ring

/-! ## Bartlett's matrix -/

theorem bart_measurable : Measurable fun p : (Fin d → ℝ) × (Fin d → Fin d → ℝ) =>
    fun i j => bart p.1 p.2 i j := by
  refine measurable_pi_iff.2 fun i => measurable_pi_iff.2 fun j => ?_
  unfold bart
  by_cases h : i = j
  · simp only [h, if_true]
    exact (measurable_pi_apply j).comp measurable_fst
  · simp only [h, if_false]
    exact (measurable_pi_apply j).comp ((measurable_pi_apply i).comp measurable_snd)

theorem bartGram_measurable : Measurable fun (p : (Fin d → ℝ) × (Fin d → Fin d → ℝ)) i j =>
    (bart p.1 p.2 * (bart p.1 p.2)ᵀ) i j := by
  have ht : Measurable fun (p : (Fin d → ℝ) × (Fin d → Fin d → ℝ)) i j => bart p.1 p.2 j i := by
    refine measurable_pi_iff.2 fun i => measurable_pi_iff.2 fun j => ?_
    have h1 : Measurable fun (p : (Fin d → ℝ) × (Fin d → Fin d → ℝ)) j => bart p.1 p.2 j :=
      bart_measurable
    exact measurable_pi_iff.1 (measurable_pi_iff.1 h1 j) i
  refine measurable_pi_iff.2 fun i => measurable_pi_iff.2 fun j => ?_
  have h := measurable_matMul bart_measurable ht
  exact measurable_pi_iff.1 (measurable_pi_iff.1 h i) j

theorem bart_snoc {n : ℕ} (c : Fin n → ℝ) (t : ℝ) (M : Fin n → Fin n → ℝ) (q : Fin n → ℝ) :
    (∀ i k : Fin n, bart (snocVec c t) (snocMat 0 M q) i.castSucc k.castSucc = bart c M i k) ∧
    (∀ i : Fin n, bart (snocVec c t) (snocMat 0 M q) i.castSucc (Fin.last n) = 0) ∧
    (∀ k : Fin n, bart (snocVec c t) (snocMat 0 M q) (Fin.last n) k.castSucc = q k) ∧
    bart (snocVec c t) (snocMat 0 M q) (Fin.last n) (Fin.last n) = t := by
  refine ⟨fun i k => ?_, fun i => ?_, fun k => ?_, ?_⟩
  · simp [bart, snocMat, snocVec, Fin.castSucc_inj]
  · simp [bart, snocMat, (Fin.castSucc_lt_last i).ne]
  · simp [bart, snocMat, (Fin.castSucc_lt_last k).ne']
  · simp [bart, snocVec]

/-- The inner product of `S` and Bartlett's matrix, the last row split off. -/
theorem bart_inner_snoc {n : ℕ} {S : Matrix (Fin (n + 1)) (Fin (n + 1)) ℝ} (hS : S.IsHermitian)
    (c : Fin n → ℝ) (t : ℝ) (M : Fin n → Fin n → ℝ) (q : Fin n → ℝ) :
    ∑ i, ∑ j, S i j * (bart (snocVec c t) (snocMat 0 M q) *
        (bart (snocVec c t) (snocMat 0 M q))ᵀ) i j =
      ∑ i, ∑ j, S (Fin.castSucc i) (Fin.castSucc j) * (bart c M * (bart c M)ᵀ) i j +
        ∑ k, (S (Fin.last n) (Fin.last n) * q k ^ 2 +
          2 * (∑ i, S (Fin.castSucc i) (Fin.last n) * bart c M i k) * q k) +
        S (Fin.last n) (Fin.last n) * t ^ 2 := by
  obtain ⟨h1, h2, h3, h4⟩ := bart_snoc c t M q
  have hsym : ∀ i : Fin n, S (Fin.last n) i.castSucc = S i.castSucc (Fin.last n) :=
    fun i => hS.apply _ _
  simp only [Fin.sum_univ_castSucc, Matrix.mul_apply, transpose_apply, h1, h2, h3, h4, hsym,
    mul_zero, add_zero, zero_mul]
  have e1 : ∑ i : Fin n, S i.castSucc (Fin.last n) * ∑ k, bart c M i k * q k =
      ∑ k, (∑ i : Fin n, S i.castSucc (Fin.last n) * bart c M i k) * q k := by
    simp only [Finset.mul_sum, Finset.sum_mul]
    rw [Finset.sum_comm]
    exact Finset.sum_congr rfl fun k _ => Finset.sum_congr rfl fun i _ => by ring
  have e2 : ∑ i : Fin n, S i.castSucc (Fin.last n) * ∑ k, q k * bart c M i k =
      ∑ k, (∑ i : Fin n, S i.castSucc (Fin.last n) * bart c M i k) * q k := by
    rw [← e1]
    exact Finset.sum_congr rfl fun i _ => by
      congr 1; exact Finset.sum_congr rfl fun k _ => mul_comm _ _
  rw [Finset.sum_add_distrib, e1, e2, Finset.sum_add_distrib]
  have e3 : ∑ k, 2 * (∑ i : Fin n, S i.castSucc (Fin.last n) * bart c M i k) * q k =
      2 * ∑ k, (∑ i : Fin n, S i.castSucc (Fin.last n) * bart c M i k) * q k := by
    rw [Finset.mul_sum]
    exact Finset.sum_congr rfl fun k _ => by ring
  have e4 : ∑ k, S (Fin.last n) (Fin.last n) * q k ^ 2 =
      S (Fin.last n) (Fin.last n) * ∑ k, q k * q k := by
    rw [Finset.mul_sum]
    exact Finset.sum_congr rfl fun k _ => by ring
  rw [e3, e4]
  ring

theorem lintegral_chiLaw_succ {nu : ℝ} {n : ℕ} (h : (n : ℝ) < nu) {f : (Fin (n + 1) → ℝ) → ENNReal}
    (hf : Measurable f) : ∫⁻ c, f c ∂chiLaw nu (n + 1) =
      ∫⁻ c, ∫⁻ x, f (snocVec c (√x)) ∂gammaMeasure ((nu - n) / 2) (1 / 2) ∂chiLaw nu n := by
  haveI := chiLaw_prob (nu := nu) n (by linarith)
  haveI := isProbabilityMeasure_gammaMeasure (a := (nu - n) / 2) (r := 1 / 2) (by linarith)
    (by norm_num)
  have h : Measurable fun p : (Fin n → ℝ) × ℝ => f (snocVec p.1 (√p.2)) :=
    hf.comp measurable_snoc_sqrt
  rw [chiLaw, lintegral_map hf measurable_snoc_sqrt, lintegral_prod _ h.aemeasurable]

/-- `√det Gⁿ exp (-⟨S, G⟩ / 2)` for Bartlett's matrix. -/
noncomputable def bartTilt (S : Matrix (Fin d) (Fin d) ℝ) (n : ℕ) (c : Fin d → ℝ)
    (M : Fin d → Fin d → ℝ) : ENNReal :=
  ENNReal.ofReal ((∏ i, c i) ^ n *
    exp (-(∑ i, ∑ j, S i j * (bart c M * (bart c M)ᵀ) i j) / 2))

theorem bartTilt_measurable (S : Matrix (Fin d) (Fin d) ℝ) (n : ℕ) :
    Measurable fun p : (Fin d → ℝ) × (Fin d → Fin d → ℝ) => bartTilt S n p.1 p.2 := by
  have hg : ∀ i j, Measurable fun p : (Fin d → ℝ) × (Fin d → Fin d → ℝ) =>
      (bart p.1 p.2 * (bart p.1 p.2)ᵀ) i j := fun i j =>
    measurable_pi_iff.1 (measurable_pi_iff.1 bartGram_measurable i) j
  have hs : Measurable fun p : (Fin d → ℝ) × (Fin d → Fin d → ℝ) =>
      ∑ i, ∑ j, S i j * (bart p.1 p.2 * (bart p.1 p.2)ᵀ) i j :=
    Finset.measurable_sum _ fun i _ => Finset.measurable_sum _ fun j _ => (hg i j).const_mul _
  have hp : Measurable fun p : (Fin d → ℝ) × (Fin d → Fin d → ℝ) => ∏ i, p.1 i :=
    Finset.measurable_prod _ fun i _ => (measurable_pi_apply i).comp measurable_fst
  exact ((hp.pow_const n).mul ((hs.neg.div_const 2).exp)).ennreal_ofReal

/-- The Schur complement of `1 + S`, minus 1. -/
noncomputable def tiltNext (S : Matrix (Fin (d + 1)) (Fin (d + 1)) ℝ) : Matrix (Fin d) (Fin d) ℝ :=
  schurLast (1 + S) - 1

theorem one_add_tiltNext (S : Matrix (Fin (d + 1)) (Fin (d + 1)) ℝ) :
    1 + tiltNext S = schurLast (1 + S) := by unfold tiltNext; abel

theorem tiltNext_apply {S : Matrix (Fin (d + 1)) (Fin (d + 1)) ℝ} (hS : S.IsHermitian)
    (i j : Fin d) : tiltNext S i j = S i.castSucc j.castSucc -
      S i.castSucc (Fin.last d) * S j.castSucc (Fin.last d) /
        (1 + S (Fin.last d) (Fin.last d)) := by
  have hj : S (Fin.last d) j.castSucc = S j.castSucc (Fin.last d) := hS.apply _ _
  have h1 : (1 : Matrix (Fin (d + 1)) (Fin (d + 1)) ℝ) i.castSucc j.castSucc =
      (1 : Matrix (Fin d) (Fin d) ℝ) i j := by
    simp [Matrix.one_apply]
  simp only [tiltNext, Matrix.sub_apply, schurLast, Matrix.add_apply, h1]
  rw [Matrix.one_apply_ne (Fin.castSucc_lt_last i).ne,
    Matrix.one_apply_ne (Fin.castSucc_lt_last j).ne', hj]
  simp only [zero_add, Matrix.one_apply_eq]
  ring

/-- The integral over the last row. -/
theorem bartTilt_row {S : Matrix (Fin (d + 1)) (Fin (d + 1)) ℝ} (hS : S.IsHermitian)
    (hs : 0 < 1 + S (Fin.last d) (Fin.last d)) (n : ℕ) (c : Fin d → ℝ) (x : ℝ)
    (M : Fin d → Fin d → ℝ) :
    ∫⁻ q, bartTilt S n (snocVec c (√x)) (snocMat 0 M q) ∂stdNormals d =
      ENNReal.ofReal (√x ^ n * exp (-(S (Fin.last d) (Fin.last d) * √x ^ 2) / 2)) *
        (ENNReal.ofReal ((√(1 + S (Fin.last d) (Fin.last d)))⁻¹ ^ d) *
          bartTilt (tiltNext S) n c M) := by
  set s := S (Fin.last d) (Fin.last d) with hsd
  set p : Fin d → ℝ := fun k => ∑ i, S (Fin.castSucc i) (Fin.last d) * bart c M i k with hp
  set Q := ∑ i, ∑ j, S (Fin.castSucc i) (Fin.castSucc j) * (bart c M * (bart c M)ᵀ) i j with hQ
  have hprod : ∏ i, snocVec c (√x) i = (∏ i, c i) * √x := by
    simp [Fin.prod_univ_castSucc, snocVec]
  have e : ∀ q : Fin d → ℝ, bartTilt S n (snocVec c (√x)) (snocMat 0 M q) =
      ENNReal.ofReal (√x ^ n * exp (-(s * √x ^ 2) / 2)) *
        ENNReal.ofReal ((∏ i, c i) ^ n * exp (-Q / 2)) *
        ∏ k, ENNReal.ofReal (exp (-(s * q k ^ 2 + 2 * p k * q k) / 2)) := by
    intro q
    rw [bartTilt, bart_inner_snoc hS, hprod, ← ENNReal.ofReal_prod_of_nonneg
      (fun k _ => (exp_pos _).le), ← Real.exp_sum, ← ENNReal.ofReal_mul (by positivity),
      ← ENNReal.ofReal_mul' (exp_pos _).le]
    congr 1
    rw [← Finset.sum_div, Finset.sum_neg_distrib]
    rw [show √x ^ n * exp (-(s * √x ^ 2) / 2) * ((∏ i, c i) ^ n * exp (-Q / 2)) *
        exp ((-∑ k, (s * q k ^ 2 + 2 * p k * q k)) / 2) =
        (∏ i, c i) ^ n * √x ^ n * (exp (-Q / 2) *
          exp ((-∑ k, (s * q k ^ 2 + 2 * p k * q k)) / 2) * exp (-(s * √x ^ 2) / 2)) by ring,
      ← Real.exp_add, ← Real.exp_add, mul_pow]
    congr 2
    ring
  simp only [e]
  have hf : ∀ k : Fin d, Measurable fun y : ℝ =>
      ENNReal.ofReal (exp (-(s * y ^ 2 + 2 * p k * y) / 2)) := fun k => by fun_prop
  rw [lintegral_const_mul' _ _ (ENNReal.mul_ne_top ENNReal.ofReal_ne_top ENNReal.ofReal_ne_top),
    lintegral_pi_prod (fun _ : Fin d => gaussianReal 0 1)
      (fun k y => ENNReal.ofReal (exp (-(s * y ^ 2 + 2 * p k * y) / 2))) hf]
  simp only [gaussian_tilt hs]
  rw [mul_assoc]
  congr 1
  rw [← ENNReal.ofReal_prod_of_nonneg (fun k _ => by positivity), bartTilt,
    ← ENNReal.ofReal_mul' (by positivity), ← ENNReal.ofReal_mul (by positivity),
    Finset.prod_mul_distrib, Finset.prod_const, Finset.card_univ, Fintype.card_fin,
    ← Real.exp_sum]
  congr 1
  have e5 : ∑ k, p k ^ 2 = ∑ i, ∑ j, S (Fin.castSucc i) (Fin.last d) *
      S (Fin.castSucc j) (Fin.last d) * (bart c M * (bart c M)ᵀ) i j := by
    have e0 : ∀ k, p k ^ 2 = ∑ i, ∑ j, S (Fin.castSucc i) (Fin.last d) * bart c M i k *
        (S (Fin.castSucc j) (Fin.last d) * bart c M j k) := fun k => by
      rw [sq, hp, Finset.sum_mul_sum]
    simp only [e0, Matrix.mul_apply, transpose_apply]
    rw [Finset.sum_comm]
    refine Finset.sum_congr rfl fun i _ => ?_
    rw [Finset.sum_comm]
    refine Finset.sum_congr rfl fun j _ => ?_
    rw [Finset.mul_sum]
    exact Finset.sum_congr rfl fun k _ => by ring
  have e6 : ∑ i, ∑ j, tiltNext S i j * (bart c M * (bart c M)ᵀ) i j =
      Q - (∑ k, p k ^ 2) / (1 + s) := by
    rw [e5, hQ, Finset.sum_div, ← Finset.sum_sub_distrib]
    refine Finset.sum_congr rfl fun i _ => ?_
    rw [Finset.sum_div, ← Finset.sum_sub_distrib]
    refine Finset.sum_congr rfl fun j _ => ?_
    rw [tiltNext_apply hS]
    ring
  rw [e6, show (∏ i, c i) ^ n * exp (-Q / 2) * ((√(1 + s))⁻¹ ^ d *
      exp (∑ k, p k ^ 2 / (1 + s) / 2)) = (√(1 + s))⁻¹ ^ d * ((∏ i, c i) ^ n * (exp (-Q / 2) *
      exp (∑ k, p k ^ 2 / (1 + s) / 2))) by ring, ← Real.exp_add, ← Finset.sum_div,
    ← Finset.sum_div]
  congr 3
  ring

/-- The integral over all rows but those before the last. -/
theorem bartTilt_low {S : Matrix (Fin (d + 1)) (Fin (d + 1)) ℝ} (hS : S.IsHermitian)
    (hs : 0 < 1 + S (Fin.last d) (Fin.last d)) (n : ℕ) (c : Fin d → ℝ) (x : ℝ) :
    ∫⁻ M, bartTilt S n (snocVec c (√x)) M ∂lowLaw (d + 1) =
      ENNReal.ofReal (√x ^ n * exp (-(S (Fin.last d) (Fin.last d) * √x ^ 2) / 2)) *
        (ENNReal.ofReal ((√(1 + S (Fin.last d) (Fin.last d)))⁻¹ ^ d) *
          ∫⁻ M, bartTilt (tiltNext S) n c M ∂lowLaw d) := by
  have hm : Measurable fun M => bartTilt S n (snocVec c (√x)) M :=
    Measurable.of_uncurry_left (f := bartTilt S n) (bartTilt_measurable S n)
  rw [lintegral_lowLaw_succ hm]
  simp only [bartTilt_row hS hs]
  rw [lintegral_const_mul' _ _ ENNReal.ofReal_ne_top,
    lintegral_const_mul' _ _ ENNReal.ofReal_ne_top]

/-- One step of the induction. -/
theorem bartTilt_succ {S : Matrix (Fin (d + 1)) (Fin (d + 1)) ℝ} (hS : S.IsHermitian)
    (hs : 0 < 1 + S (Fin.last d) (Fin.last d)) (n : ℕ) {nu : ℝ} (hnu : (d : ℝ) < nu) :
    ∫⁻ c, ∫⁻ M, bartTilt S n c M ∂lowLaw (d + 1) ∂chiLaw nu (d + 1) =
      ENNReal.ofReal ((1 / 2) ^ ((nu - d) / 2) / Gamma ((nu - d) / 2) *
        Gamma ((nu - d) / 2 + n / 2) * (1 / 2) ^ (-((nu - d) / 2 + n / 2)) *
          √(1 + S (Fin.last d) (Fin.last d)) ^ (-(nu - d + n))) *
        (ENNReal.ofReal ((√(1 + S (Fin.last d) (Fin.last d)))⁻¹ ^ d) *
          ∫⁻ c, ∫⁻ M, bartTilt (tiltNext S) n c M ∂lowLaw d ∂chiLaw nu d) := by
  have hin : Measurable fun c => ∫⁻ M, bartTilt S n c M ∂lowLaw (d + 1) :=
    Measurable.lintegral_prod_right' (bartTilt_measurable S n)
  rw [lintegral_chiLaw_succ hnu hin]
  simp only [bartTilt_low hS hs]
  have hm : Measurable fun x : ℝ =>
      ENNReal.ofReal (√x ^ n * exp (-(S (Fin.last d) (Fin.last d) * √x ^ 2) / 2)) := by fun_prop
  have hx : ∀ Z : ENNReal, ∫⁻ x, ENNReal.ofReal (√x ^ n *
      exp (-(S (Fin.last d) (Fin.last d) * √x ^ 2) / 2)) * Z
        ∂gammaMeasure ((nu - d) / 2) (1 / 2) =
      ENNReal.ofReal ((1 / 2) ^ ((nu - d) / 2) / Gamma ((nu - d) / 2) *
        Gamma ((nu - d) / 2 + n / 2) * (1 / 2) ^ (-((nu - d) / 2 + n / 2)) *
          √(1 + S (Fin.last d) (Fin.last d)) ^ (-(nu - d + n))) * Z := by
    intro Z
    rw [lintegral_mul_const _ hm, chi_tilt (by linarith) hs n]
  simp only [hx]
  rw [lintegral_const_mul' _ _ ENNReal.ofReal_ne_top,
    lintegral_const_mul' _ _ ENNReal.ofReal_ne_top]

/-- **The tilted moments of the determinant.** `E[√det G ⁿ exp (-⟨S, G⟩ / 2)]` for `G = A Aᵀ` with
`A` Bartlett's matrix depends on `S` only through `det (1 + S)`. -/
theorem bart_tilt (n : ℕ) : ∀ (d : ℕ) {nu : ℝ}, (d : ℝ) - 1 < nu →
    ∃ K, 0 < K ∧ ∀ S : Matrix (Fin d) (Fin d) ℝ, (1 + S).PosDef →
      ∫⁻ c, ∫⁻ M, bartTilt S n c M ∂lowLaw d ∂chiLaw nu d =
        ENNReal.ofReal (K * √(1 + S).det ^ (-(nu + n))) := by
  intro d
  induction d with
  | zero =>
    intro nu _
    refine ⟨1, one_pos, fun S _ => ?_⟩
    simp [chiLaw, lowLaw, bartTilt]
  | succ d ih =>
    intro nu hnu
    push_cast at hnu
    obtain ⟨K, hK, hS⟩ := ih (nu := nu) (by linarith)
    have h0 : (0 : ℝ) ≤ n := by positivity
    have ha : 0 < nu - d := by linarith
    set K' := (1 / 2 : ℝ) ^ ((nu - d) / 2) / Gamma ((nu - d) / 2) *
      Gamma ((nu - d) / 2 + n / 2) * (1 / 2) ^ (-((nu - d) / 2 + n / 2 : ℝ)) with hK'
    have hK'0 : 0 < K' := by
      have g1 := Gamma_pos_of_pos (show 0 < (nu - d) / 2 by positivity)
      have g2 := Gamma_pos_of_pos (show 0 < (nu - d) / 2 + n / 2 by positivity)
      positivity
    refine ⟨K * K', by positivity, fun S hpd => ?_⟩
    obtain ⟨hh, hpd'⟩ := schurLast_posDef hpd
    have hdet := schurLast_det hh.ne'
    have hSsym : S.IsHermitian := by
      have := hpd.1.sub (isHermitian_one (n := Fin (d + 1)) (α := ℝ))
      rwa [add_sub_cancel_left] at this
    have hlast : (1 + S) (Fin.last d) (Fin.last d) = 1 + S (Fin.last d) (Fin.last d) := by
      simp
    rw [hlast] at hh hdet
    rw [bartTilt_succ hSsym hh n (by linarith), hS _ (by rw [one_add_tiltNext]; exact hpd'),
      one_add_tiltNext, ← ENNReal.ofReal_mul (by positivity), ← ENNReal.ofReal_mul (by positivity),
      hdet]
    congr 1
    set s := S (Fin.last d) (Fin.last d)
    have hr : 0 < √(1 + s) := Real.sqrt_pos.2 hh
    have hr' := Real.sqrt_nonneg (schurLast (1 + S)).det
    rw [Real.sqrt_mul hh.le, Real.mul_rpow hr.le hr']
    have e1 : (√(1 + s))⁻¹ ^ d = √(1 + s) ^ (-(d : ℝ)) := by
      rw [Real.rpow_neg hr.le, Real.rpow_natCast, inv_pow]
    have e2 : √(1 + s) ^ (-(nu + n)) = √(1 + s) ^ (-(nu - d + n)) * √(1 + s) ^ (-(d : ℝ)) := by
      rw [← Real.rpow_add hr]; congr 1; ring
    rw [e1, e2]
    ring

end Dist
