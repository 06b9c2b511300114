import Verif.Lemmas.GramCov

/-! # Gaussian matrices: rows of independent standard normal variables -/

namespace Dist

open MeasureTheory ProbabilityTheory Real Spec Matrix

variable {d : ℕ}

theorem measurable_snocAny {α : Type} [MeasurableSpace α] {n : ℕ} :
    Measurable fun p : (Fin n → α) × α => (Fin.snoc (α := fun _ => α) p.1 p.2 : Fin (n + 1) → α) := by
  refine measurable_pi_iff.2 fun i => ?_
  refine Fin.lastCases ?_ (fun i => ?_) i
  · simpa using measurable_snd
  · simpa [Function.comp_def] using (measurable_pi_apply i).comp measurable_fst

/-- Integration over independent variables, the last one split off. -/
theorem lintegral_pi_snocAny {α : Type} [MeasurableSpace α] {n : ℕ} (μ : Measure α)
    [SigmaFinite μ] {f : (Fin (n + 1) → α) → ENNReal} (hf : Measurable f) :
    ∫⁻ z, f z ∂Measure.pi (fun _ => μ) =
      ∫⁻ q, ∫⁻ x, f (Fin.snoc (α := fun _ => α) q x) ∂μ ∂Measure.pi (fun _ => μ) := by
  have h := (measurePreserving_piFinSuccAbove (fun _ : Fin (n + 1) => μ) (Fin.last n)).symm
  rw [← h.lintegral_comp hf, lintegral_prod_symm]
  · simp only [MeasurableEquiv.piFinSuccAbove_symm_apply, Fin.insertNthEquiv,
      Equiv.coe_fn_mk, Fin.insertNth_last']
  · exact (hf.comp (MeasurableEquiv.measurable _)).aemeasurable

/-- The density of standard normal variables. -/
noncomputable def normDensity (d : ℕ) (y : Fin d → ℝ) : ℝ :=
  (√(2 * π))⁻¹ ^ d * rexp (-(∑ i, y i ^ 2) / 2)

theorem normDensity_measurable (d : ℕ) : Measurable (normDensity d) := by
  unfold normDensity
  fun_prop

theorem normDensity_pos (y : Fin d → ℝ) : 0 < normDensity d y := by
  unfold normDensity; positivity

theorem normDensity_snoc {n : ℕ} (y : Fin n → ℝ) (t : ℝ) :
    normDensity (n + 1) (snocVec y t) = normDensity n y * gaussianPDFReal 0 1 t := by
  unfold normDensity gaussianPDFReal
  rw [Fin.sum_univ_castSucc]
  simp only [snocVec, Fin.snoc_castSucc, Fin.snoc_last, NNReal.coe_one, mul_one, sub_zero]
  rw [neg_add, add_div, Real.exp_add, pow_succ]
  ring

theorem stdNormals_density (d : ℕ) {f : (Fin d → ℝ) → ENNReal} (hf : Measurable f) :
    ∫⁻ z, f z ∂stdNormals d = ∫⁻ y, ENNReal.ofReal (normDensity d y) * f y := by
  induction d with
  | zero =>
    rw [volume_pi, Measure.pi_of_empty (x := Fin.elim0), stdNormals,
      Measure.pi_of_empty (x := Fin.elim0), lintegral_dirac, lintegral_dirac]
    simp [normDensity]
  | succ n ih =>
    have hg : Measurable fun y => ENNReal.ofReal (normDensity (n + 1) y) * f y :=
      (normDensity_measurable _).ennreal_ofReal.mul hf
    have hin : Measurable fun q => ∫⁻ x, f (snocVec q x) ∂gaussianReal 0 1 :=
      Measurable.lintegral_prod_right' (hf.comp measurable_snocVec)
    have hvol : ∫⁻ y, ENNReal.ofReal (normDensity (n + 1) y) * f y =
        ∫⁻ q, ∫⁻ x, ENNReal.ofReal (normDensity (n + 1) (snocVec q x)) * f (snocVec q x) := by
      simp only [volume_pi]
      exact lintegral_pi_snoc volume hg
    rw [hvol, stdNormals, lintegral_pi_snoc _ hf, ih hin]
    apply lintegral_congr
    intro q
    have hfq : Measurable fun x => f (snocVec q x) :=
      hf.comp (measurable_snocVec.comp measurable_prodMk_left)
    rw [gaussianReal_of_var_ne_zero _ one_ne_zero,
      lintegral_withDensity_eq_lintegral_mul _ (measurable_gaussianPDF _ _) hfq,
      ← lintegral_const_mul _ ((measurable_gaussianPDF _ _).mul hfq)]
    apply lintegral_congr
    intro t
    rw [normDensity_snoc, Pi.mul_apply, gaussianPDF, ← mul_assoc,
      ENNReal.ofReal_mul (normDensity_pos q).le]

theorem stdNormals_ac (d : ℕ) : stdNormals d ≪ volume := by
  intro s hs
  obtain ⟨t, hst, htm, ht⟩ := exists_measurable_superset_of_null hs
  refine measure_mono_null hst ?_
  rw [← lintegral_indicator_one htm, stdNormals_density d (measurable_one.indicator htm)]
  have hm : Measurable fun y => ENNReal.ofReal (normDensity d y) *
      t.indicator (1 : (Fin d → ℝ) → ENNReal) y :=
    (normDensity_measurable d).ennreal_ofReal.mul (measurable_one.indicator htm)
  rw [lintegral_eq_zero_iff hm]
  have : ∀ᵐ y ∂(volume : Measure (Fin d → ℝ)), y ∉ t := measure_eq_zero_iff_ae_notMem.1 ht
  filter_upwards [this] with y hy
  simp [hy]

/-- The law of the image under an invertible matrix. -/
theorem stdNormals_image {T : Matrix (Fin d) (Fin d) ℝ} (hT : T.det ≠ 0)
    {f : (Fin d → ℝ) → ENNReal} (hf : Measurable f) :
    ∫⁻ z, f (T *ᵥ z) ∂stdNormals d =
      ∫⁻ y, ENNReal.ofReal (|T.det|⁻¹ * normDensity d (T⁻¹ *ᵥ y)) * f y := by
  have hTm : Measurable fun y => T *ᵥ y := (matClm T).continuous.measurable
  have hTi : Measurable fun y => T⁻¹ *ᵥ y := (matClm T⁻¹).continuous.measurable
  have hg : Measurable fun y => ENNReal.ofReal (normDensity d (T⁻¹ *ᵥ y)) * f y :=
    ((normDensity_measurable d).comp hTi).ennreal_ofReal.mul hf
  have hfT : Measurable fun z => f (T *ᵥ z) := hf.comp hTm
  rw [stdNormals_density d hfT]
  have h := lintegral_mulVec hT hg
  have h6 : ∀ y : Fin d → ℝ, T⁻¹ *ᵥ (T *ᵥ y) = y := fun y => by
    rw [mulVec_mulVec, Matrix.nonsing_inv_mul _ (isUnit_iff_ne_zero.2 hT), one_mulVec]
  simp only [h6] at h
  refine h.trans ?_
  rw [← lintegral_const_mul _ hg]
  apply lintegral_congr
  intro y
  rw [← mul_assoc, ENNReal.ofReal_mul (by positivity)]

/-- For a positive definite precision. -/
theorem normDensity_chol {G : Matrix (Fin d) (Fin d) ℝ} (hG : G.PosDef) (y : Fin d → ℝ) :
    (cholM G⁻¹).det ≠ 0 ∧ |(cholM G⁻¹).det|⁻¹ * normDensity d ((cholM G⁻¹)⁻¹ *ᵥ y) =
      (√(2 * π))⁻¹ ^ d * (√G.det * rexp (-(y ⬝ᵥ (G *ᵥ y)) / 2)) := by
  have hc := cholM_isChol hG.inv
  have hdet := hc.det_pos
  have hG0 := hG.det_pos
  refine ⟨hdet.ne', ?_⟩
  have e1 : |(cholM G⁻¹).det|⁻¹ = √G.det := by
    rw [abs_of_pos hdet]
    symm
    rw [Real.sqrt_eq_iff_mul_self_eq hG0.le (by positivity), ← mul_inv]
    have := congrArg det hc.mul
    rw [det_mul, det_transpose, det_nonsing_inv, Ring.inverse_eq_inv'] at this
    rw [this, inv_inv]
  have e2 : ∑ i, ((cholM G⁻¹)⁻¹ *ᵥ y) i ^ 2 = y ⬝ᵥ (G *ᵥ y) := by
    rw [quad_transpose, transpose_nonsing_inv, ← Matrix.mul_inv_rev, hc.mul,
      Matrix.nonsing_inv_nonsing_inv _ (isUnit_iff_ne_zero.2 hG0.ne')]
  unfold normDensity
  rw [e1, e2]
  ring

theorem stdNormals_chol {G : Matrix (Fin d) (Fin d) ℝ} (hG : G.PosDef)
    {f : (Fin d → ℝ) → ENNReal} (hf : Measurable f) :
    ∫⁻ z, f (cholM G⁻¹ *ᵥ z) ∂stdNormals d =
      ∫⁻ y, ENNReal.ofReal ((√(2 * π))⁻¹ ^ d * (√G.det * rexp (-(y ⬝ᵥ (G *ᵥ y)) / 2))) * f y := by
  rw [stdNormals_image (normDensity_chol hG 0).1 hf]
  simp only [(normDensity_chol hG _).2]

/-- Tilting a standard normal row by `exp(-½ rᵀ S r)`. -/
theorem stdNormals_tilt {S : Matrix (Fin d) (Fin d) ℝ} (hS : (1 + S).PosDef)
    {f : (Fin d → ℝ) → ENNReal} (hf : Measurable f) :
    ∫⁻ r, ENNReal.ofReal (rexp (-(r ⬝ᵥ (S *ᵥ r)) / 2)) * f r ∂stdNormals d =
      ENNReal.ofReal (√(1 + S).det)⁻¹ * ∫⁻ z, f (cholM (1 + S)⁻¹ *ᵥ z) ∂stdNormals d := by
  have hq : Measurable fun r : Fin d → ℝ => ENNReal.ofReal (rexp (-(r ⬝ᵥ (S *ᵥ r)) / 2)) := by
    unfold dotProduct mulVec dotProduct
    fun_prop
  have hq' : Measurable fun y : Fin d → ℝ => ENNReal.ofReal ((√(2 * π))⁻¹ ^ d *
      (√(1 + S).det * rexp (-(y ⬝ᵥ ((1 + S) *ᵥ y)) / 2))) * f y := by
    refine Measurable.mul ?_ hf
    unfold dotProduct mulVec dotProduct
    fun_prop
  have hqf : Measurable fun r : Fin d → ℝ =>
      ENNReal.ofReal (rexp (-(r ⬝ᵥ (S *ᵥ r)) / 2)) * f r := hq.mul hf
  rw [stdNormals_chol hS hf, ← lintegral_const_mul _ hq', stdNormals_density d hqf]
  apply lintegral_congr
  intro y
  rw [← mul_assoc, ← mul_assoc, ← ENNReal.ofReal_mul (normDensity_pos y).le,
    ← ENNReal.ofReal_mul (by positivity)]
  congr 2
  have h0 : √(1 + S).det ≠ 0 := (Real.sqrt_pos.2 hS.det_pos).ne'
  have e : y ⬝ᵥ ((1 + S) *ᵥ y) = ∑ i, y i ^ 2 + y ⬝ᵥ (S *ᵥ y) := by
    rw [add_mulVec, one_mulVec, dotProduct_add]
    congr 1
    unfold dotProduct
    exact Finset.sum_congr rfl fun i _ => by ring
  rw [e, neg_add, add_div, Real.exp_add]
  unfold normDensity
  field_simp

/-- Independent standard normal rows. -/
noncomputable abbrev rowsLaw (m d : ℕ) : Measure (Fin m → Fin d → ℝ) :=
  Measure.pi fun _ => stdNormals d

/-- Tilting all rows. -/
theorem rowsLaw_tilt {S : Matrix (Fin d) (Fin d) ℝ} (hS : (1 + S).PosDef) (m : ℕ)
    {f : (Fin m → Fin d → ℝ) → ENNReal} (hf : Measurable f) :
    ∫⁻ x, ENNReal.ofReal (rexp (-(∑ k, x k ⬝ᵥ (S *ᵥ x k)) / 2)) * f x ∂rowsLaw m d =
      ENNReal.ofReal ((√(1 + S).det)⁻¹ ^ m) *
        ∫⁻ x, f (fun k => cholM (1 + S)⁻¹ *ᵥ x k) ∂rowsLaw m d := by
  induction m with
  | zero =>
    simp only [rowsLaw]
    rw [Measure.pi_of_empty (x := Fin.elim0), lintegral_dirac, lintegral_dirac]
    simp only [Finset.univ_eq_empty, Finset.sum_empty, neg_zero, zero_div, Real.exp_zero,
      ENNReal.ofReal_one, one_mul, pow_zero]
    exact congrArg f (Subsingleton.elim _ _)
  | succ m ih =>
    set Q := cholM (1 + S)⁻¹ with hQ
    have hQm : Measurable fun r : Fin d → ℝ => Q *ᵥ r := (matClm Q).continuous.measurable
    have hq : ∀ m, Measurable fun x : Fin m → Fin d → ℝ =>
        ENNReal.ofReal (rexp (-(∑ k, x k ⬝ᵥ (S *ᵥ x k)) / 2)) := by
      intro m
      unfold dotProduct mulVec dotProduct
      fun_prop
    have hq1 : Measurable fun r : Fin d → ℝ => ENNReal.ofReal (rexp (-(r ⬝ᵥ (S *ᵥ r)) / 2)) := by
      unfold dotProduct mulVec dotProduct
      fun_prop
    have hfs : Measurable fun p : (Fin m → Fin d → ℝ) × (Fin d → ℝ) =>
        f (Fin.snoc (α := fun _ => Fin d → ℝ) p.1 p.2) := hf.comp measurable_snocAny
    have hfQ : Measurable fun p : (Fin m → Fin d → ℝ) × (Fin d → ℝ) =>
        f (Fin.snoc (α := fun _ => Fin d → ℝ) p.1 (Q *ᵥ p.2)) :=
      hfs.comp (measurable_fst.prodMk (hQm.comp measurable_snd))
    have hrows : Measurable fun x : Fin (m + 1) → Fin d → ℝ => fun k => Q *ᵥ x k :=
      measurable_pi_iff.2 fun k => hQm.comp (measurable_pi_apply k)
    simp only [rowsLaw]
    have hqf : Measurable fun x : Fin (m + 1) → Fin d → ℝ =>
        ENNReal.ofReal (rexp (-(∑ k, x k ⬝ᵥ (S *ᵥ x k)) / 2)) * f x := (hq _).mul hf
    have hfr : Measurable fun x : Fin (m + 1) → Fin d → ℝ => f fun k => Q *ᵥ x k := hf.comp hrows
    rw [lintegral_pi_snocAny _ hqf, lintegral_pi_snocAny _ hfr]
    have e1 : ∀ x : Fin m → Fin d → ℝ,
        ∫⁻ r, ENNReal.ofReal (rexp (-(∑ k, (Fin.snoc (α := fun _ => Fin d → ℝ) x r :
            Fin (m + 1) → Fin d → ℝ) k ⬝ᵥ (S *ᵥ (Fin.snoc (α := fun _ => Fin d → ℝ) x r :
            Fin (m + 1) → Fin d → ℝ) k)) / 2)) *
            f (Fin.snoc (α := fun _ => Fin d → ℝ) x r) ∂stdNormals d =
          ENNReal.ofReal (rexp (-(∑ k, x k ⬝ᵥ (S *ᵥ x k)) / 2)) *
            (ENNReal.ofReal (√(1 + S).det)⁻¹ *
              ∫⁻ r, f (Fin.snoc (α := fun _ => Fin d → ℝ) x (Q *ᵥ r)) ∂stdNormals d) := by
      intro x
      have hfx : Measurable fun r => f (Fin.snoc (α := fun _ => Fin d → ℝ) x r) :=
        hfs.comp measurable_prodMk_left
      have hqfx : Measurable fun r : Fin d → ℝ => ENNReal.ofReal (rexp (-(r ⬝ᵥ (S *ᵥ r)) / 2)) *
          f (Fin.snoc (α := fun _ => Fin d → ℝ) x r) := hq1.mul hfx
      rw [← stdNormals_tilt hS hfx, ← lintegral_const_mul _ hqfx]
      apply lintegral_congr
      intro r
      rw [Fin.sum_univ_castSucc]
      simp only [Fin.snoc_castSucc, Fin.snoc_last]
      rw [neg_add, add_div, Real.exp_add, ENNReal.ofReal_mul (Real.exp_pos _).le, mul_assoc]
    simp only [e1]
    have hin : Measurable fun x : Fin m → Fin d → ℝ => ENNReal.ofReal (√(1 + S).det)⁻¹ *
        ∫⁻ r, f (Fin.snoc (α := fun _ => Fin d → ℝ) x (Q *ᵥ r)) ∂stdNormals d :=
      (Measurable.lintegral_prod_right' (ν := stdNormals d) hfQ).const_mul _
    have := ih hin
    simp only [rowsLaw] at this
    rw [this, lintegral_const_mul, ← mul_assoc, ← ENNReal.ofReal_mul (by positivity), ← pow_succ]
    · congr 1
      apply lintegral_congr
      intro x
      apply lintegral_congr
      intro r
      congr 1
      funext k
      refine Fin.lastCases ?_ (fun k => ?_) k <;> simp
    · have h2 : Measurable fun x : Fin m → Fin d → ℝ => fun k => Q *ᵥ x k :=
        measurable_pi_iff.2 fun k => hQm.comp (measurable_pi_apply k)
      exact (Measurable.lintegral_prod_right' (ν := stdNormals d) hfQ).comp h2

/-- The Gram matrix of the columns. -/
noncomputable def gramOf {m : ℕ} (x : Fin m → Fin d → ℝ) : Matrix (Fin d) (Fin d) ℝ :=
  (Matrix.of x)ᵀ * Matrix.of x

theorem gramOf_apply {m : ℕ} (x : Fin m → Fin d → ℝ) (i j : Fin d) :
    gramOf x i j = ∑ k, x k i * x k j := by
  simp [gramOf, Matrix.mul_apply]

theorem gramOf_measurable {m : ℕ} :
    Measurable fun x : Fin m → Fin d → ℝ => fun i j => gramOf x i j := by
  refine measurable_pi_iff.2 fun i => measurable_pi_iff.2 fun j => ?_
  simp only [gramOf_apply]
  fun_prop

theorem gramOf_det_measurable {m : ℕ} :
    Measurable fun x : Fin m → Fin d → ℝ => (gramOf x).det := by
  have h : ∀ i j, Measurable fun x : Fin m → Fin d → ℝ => gramOf x i j := fun i j =>
    (measurable_pi_apply j).comp ((measurable_pi_apply i).comp gramOf_measurable)
  simp only [Matrix.det_apply]
  exact Finset.measurable_sum _ fun p _ =>
    (Finset.measurable_prod _ fun i _ => h _ _).const_smul _

theorem gramOf_mulVec {m : ℕ} (Q : Matrix (Fin d) (Fin d) ℝ) (x : Fin m → Fin d → ℝ) :
    gramOf (fun k => Q *ᵥ x k) = Q * gramOf x * Qᵀ := by
  have e : Matrix.of (fun k => Q *ᵥ x k) = Matrix.of x * Qᵀ := by
    ext k i
    simp only [Matrix.of_apply, mulVec, dotProduct, Matrix.mul_apply, transpose_apply]
    exact Finset.sum_congr rfl fun j _ => mul_comm _ _
  unfold gramOf
  rw [e, transpose_mul, transpose_transpose]
  simp only [Matrix.mul_assoc]

theorem gramOf_quad {m : ℕ} (x : Fin m → Fin d → ℝ) (y : Fin d → ℝ) :
    y ⬝ᵥ (gramOf x *ᵥ y) = ∑ k, x k ⬝ᵥ (vecMulVec y y *ᵥ x k) := by
  have h1 : y ⬝ᵥ (gramOf x *ᵥ y) = ∑ k, (x k ⬝ᵥ y) * (x k ⬝ᵥ y) := by
    unfold gramOf
    rw [← mulVec_mulVec, dotProduct_mulVec, ← mulVec_transpose, transpose_transpose]
    rfl
  rw [h1]
  apply Finset.sum_congr rfl
  intro k _
  rw [vecMulVec_mulVec, dotProduct_smul]
  simp [dotProduct_comm]

/-- **Moments of the determinant, tilted.** -/
theorem rowsLaw_det_tilt {S : Matrix (Fin d) (Fin d) ℝ} (hS : (1 + S).PosDef) (m n : ℕ) :
    ∫⁻ x, ENNReal.ofReal (√(gramOf x).det ^ n * rexp (-(∑ k, x k ⬝ᵥ (S *ᵥ x k)) / 2)) ∂rowsLaw m d =
      ENNReal.ofReal ((√(1 + S).det)⁻¹ ^ (m + n)) *
        ∫⁻ x, ENNReal.ofReal (√(gramOf x).det ^ n) ∂rowsLaw m d := by
  have hf : Measurable fun x : Fin m → Fin d → ℝ => ENNReal.ofReal (√(gramOf x).det ^ n) :=
    (gramOf_det_measurable.sqrt.pow_const n).ennreal_ofReal
  have h := rowsLaw_tilt hS m hf
  have e1 : ∀ x : Fin m → Fin d → ℝ,
      ENNReal.ofReal (√(gramOf x).det ^ n * rexp (-(∑ k, x k ⬝ᵥ (S *ᵥ x k)) / 2)) =
      ENNReal.ofReal (rexp (-(∑ k, x k ⬝ᵥ (S *ᵥ x k)) / 2)) *
        ENNReal.ofReal (√(gramOf x).det ^ n) := by
    intro x
    rw [mul_comm, ENNReal.ofReal_mul (Real.exp_pos _).le]
  have hc := cholM_isChol hS.inv
  have hd := hc.det_pos
  have hdet : (cholM (1 + S)⁻¹).det = (√(1 + S).det)⁻¹ := by
    have h2 := congrArg det hc.mul
    rw [det_mul, det_transpose, det_nonsing_inv, Ring.inverse_eq_inv'] at h2
    have h0 := hS.det_pos
    rw [← Real.sqrt_inv]
    symm
    rw [Real.sqrt_eq_iff_mul_self_eq (by positivity) hd.le, h2]
  have e2 : ∀ x : Fin m → Fin d → ℝ,
      ENNReal.ofReal (√(gramOf (fun k => cholM (1 + S)⁻¹ *ᵥ x k)).det ^ n) =
      ENNReal.ofReal ((√(1 + S).det)⁻¹ ^ n) * ENNReal.ofReal (√(gramOf x).det ^ n) := by
    intro x
    rw [gramOf_mulVec, det_mul, det_mul, det_transpose, ← ENNReal.ofReal_mul (by positivity),
      ← mul_pow, ← hdet]
    congr 2
    rw [show (cholM (1 + S)⁻¹).det * (gramOf x).det * (cholM (1 + S)⁻¹).det =
      (cholM (1 + S)⁻¹).det ^ 2 * (gramOf x).det by ring, Real.sqrt_mul (by positivity),
      Real.sqrt_sq hd.le]
  simp only [e1]
  rw [h]
  simp only [e2]
  rw [lintegral_const_mul _ hf, ← mul_assoc, ← ENNReal.ofReal_mul (by positivity), ← pow_add]

/-! ## Full rank -/

theorem gram_rows_succ {m : ℕ} (hm : m < d) {x : Fin m → Fin d → ℝ}
    (hx : LinearIndependent ℝ x) :
    ∀ᵐ r ∂stdNormals d, LinearIndependent ℝ (Fin.snoc (α := fun _ => Fin d → ℝ) x r) := by
  have hne : Submodule.span ℝ (Set.range x) ≠ ⊤ := by
    intro h
    have h1 := finrank_span_eq_card hx
    rw [h, finrank_top, Module.finrank_fin_fun, Fintype.card_fin] at h1
    omega
  have h0 := Measure.addHaar_submodule (volume : Measure (Fin d → ℝ)) _ hne
  have h1 := stdNormals_ac d h0
  have h2 : ∀ᵐ r ∂stdNormals d, r ∉ (Submodule.span ℝ (Set.range x) : Set (Fin d → ℝ)) :=
    measure_eq_zero_iff_ae_notMem.1 h1
  filter_upwards [h2] with r hr
  exact linearIndependent_finSnoc.2 ⟨hx, hr⟩

theorem linearIndependent_iff_gram {m : ℕ} (x : Fin m → Fin d → ℝ) :
    LinearIndependent ℝ x ↔ (Matrix.of x * (Matrix.of x)ᵀ).det ≠ 0 := by
  have e : LinearIndependent ℝ x ↔ Function.Injective fun v => v ᵥ* Matrix.of x :=
    (Matrix.vecMul_injective_iff (M := Matrix.of x)).symm
  rw [e]
  constructor
  · intro h
    have := Matrix.PosDef.mul_conjTranspose_self (Matrix.of x) h
    rw [conjTranspose_eq_transpose_of_trivial] at this
    exact this.det_pos.ne'
  · intro h v w hvw
    have h1 : v ᵥ* (Matrix.of x * (Matrix.of x)ᵀ) = w ᵥ* (Matrix.of x * (Matrix.of x)ᵀ) := by
      rw [← vecMul_vecMul, ← vecMul_vecMul]
      exact congrArg (· ᵥ* (Matrix.of x)ᵀ) hvw
    exact Matrix.vecMul_injective_of_isUnit
      ((Matrix.isUnit_iff_isUnit_det _).2 (isUnit_iff_ne_zero.2 h)) h1

theorem ae_pi_snoc {α : Type} [MeasurableSpace α] {n : ℕ} (μ : Measure α) [SigmaFinite μ]
    {p : (Fin (n + 1) → α) → Prop} (hp : MeasurableSet {z | p z})
    (h : ∀ᵐ q ∂Measure.pi (fun _ : Fin n => μ), ∀ᵐ x ∂μ, p (Fin.snoc (α := fun _ => α) q x)) :
    ∀ᵐ z ∂Measure.pi (fun _ : Fin (n + 1) => μ), p z := by
  have hi : Measurable ({z | p z}ᶜ.indicator (1 : (Fin (n + 1) → α) → ENNReal)) :=
    measurable_one.indicator hp.compl
  show Measure.pi (fun _ : Fin (n + 1) => μ) {z | p z}ᶜ = 0
  rw [← lintegral_indicator_one hp.compl, lintegral_pi_snocAny μ hi]
  have h0 : ∀ᵐ q ∂Measure.pi (fun _ : Fin n => μ),
      ∫⁻ x, {z | p z}ᶜ.indicator (1 : (Fin (n + 1) → α) → ENNReal)
        (Fin.snoc (α := fun _ => α) q x) ∂μ = 0 := by
    filter_upwards [h] with q hq
    have hm : Measurable fun x => {z | p z}ᶜ.indicator (1 : (Fin (n + 1) → α) → ENNReal)
        (Fin.snoc (α := fun _ => α) q x) :=
      hi.comp (measurable_snocAny.comp measurable_prodMk_left)
    rw [lintegral_eq_zero_iff hm]
    filter_upwards [hq] with x hx
    simp [hx]
  rw [lintegral_congr_ae h0, lintegral_zero]

theorem rowsLaw_independent {m : ℕ} (hm : m ≤ d) :
    ∀ᵐ x ∂rowsLaw m d, LinearIndependent ℝ x := by
  induction m with
  | zero => exact Filter.Eventually.of_forall fun x => linearIndependent_empty_type
  | succ m ih =>
    refine ae_pi_snoc _ ?_ ?_
    · simp only [linearIndependent_iff_gram]
      have h : Measurable fun x : Fin (m + 1) → Fin d → ℝ =>
          (Matrix.of x * (Matrix.of x)ᵀ).det := by
        simp only [Matrix.det_apply, Matrix.mul_apply, Matrix.of_apply, transpose_apply]
        refine Finset.measurable_sum _ fun p _ =>
          (Finset.measurable_prod _ fun i _ => ?_).const_smul _
        fun_prop
      exact h (measurableSet_singleton (0 : ℝ)).compl
    · filter_upwards [ih (by omega)] with x hx
      exact gram_rows_succ (by omega) hx

theorem gramOf_posSemidef {m : ℕ} (x : Fin m → Fin d → ℝ) : (gramOf x).PosSemidef := by
  have := Matrix.posSemidef_conjTranspose_mul_self (Matrix.of x)
  rwa [conjTranspose_eq_transpose_of_trivial] at this

theorem gramOf_posDef_iff {m : ℕ} (x : Fin m → Fin d → ℝ) :
    (gramOf x).PosDef ↔ (gramOf x).det ≠ 0 := by
  refine ⟨fun h => h.det_pos.ne', fun h => ?_⟩
  have := (gramOf_posSemidef x).posDef_iff_isUnit.2
    ((Matrix.isUnit_iff_isUnit_det _).2 (isUnit_iff_ne_zero.2 h))
  exact this

theorem gramOf_snoc {m : ℕ} (x : Fin m → Fin d → ℝ) (r : Fin d → ℝ) :
    gramOf (Fin.snoc (α := fun _ => Fin d → ℝ) x r : Fin (m + 1) → Fin d → ℝ) =
      gramOf x + vecMulVec r r := by
  ext i j
  rw [gramOf_apply, Matrix.add_apply, gramOf_apply, Fin.sum_univ_castSucc]
  simp [vecMulVec_apply]

theorem rowsLaw_posDef {m : ℕ} (hm : d ≤ m) : ∀ᵐ x ∂rowsLaw m d, (gramOf x).PosDef := by
  induction m, hm using Nat.le_induction with
  | base =>
    filter_upwards [rowsLaw_independent (le_refl d)] with x hx
    rw [gramOf_posDef_iff, gramOf, det_mul, mul_comm, ← det_mul]
    exact (linearIndependent_iff_gram x).1 hx
  | succ m hm ih =>
    refine ae_pi_snoc _ ?_ ?_
    · simp only [gramOf_posDef_iff]
      exact gramOf_det_measurable (measurableSet_singleton (0 : ℝ)).compl
    · filter_upwards [ih] with x hx
      refine Filter.Eventually.of_forall fun r => ?_
      rw [gramOf_snoc]
      refine hx.add_posSemidef ?_
      have := Matrix.posSemidef_vecMulVec_self_star r
      simpa using this

end Dist
