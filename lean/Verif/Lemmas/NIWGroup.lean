import Verif.Lemmas.RefNiwSample
import Verif.Props.NIW

/-! # The joint law of several values with a common normal-inverse-Wishart mean and covariance -/

namespace Dist

open MeasureTheory ProbabilityTheory Real Spec Matrix

variable {d : ℕ}

/-- A product of densities. -/
theorem lintegral_pi_density {α β : Type} [MeasurableSpace α] [MeasurableSpace β] {μ : Measure α}
    {ν : Measure β} [SigmaFinite μ] [SigmaFinite ν] {φ : α → β} (hφ : Measurable φ)
    {r : β → ENNReal} (hr : Measurable r)
    (h : ∀ f : β → ENNReal, Measurable f → ∫⁻ z, f (φ z) ∂μ = ∫⁻ y, r y * f y ∂ν) (n : ℕ)
    {f : (Fin n → β) → ENNReal} (hf : Measurable f) :
    ∫⁻ z, f (fun k => φ (z k)) ∂Measure.pi (fun _ => μ) =
      ∫⁻ y, (∏ k, r (y k)) * f y ∂Measure.pi (fun _ => ν) := by
  induction n with
  | zero =>
    rw [Measure.pi_of_empty _ Fin.elim0, Measure.pi_of_empty _ Fin.elim0]
    rw [lintegral_dirac' _ (by fun_prop), lintegral_dirac' _ (by fun_prop)]
    simp
    congr 1
    exact funext fun k => k.elim0
  | succ n ih =>
    have hp : Measurable fun y : Fin (n + 1) → β => (∏ k, r (y k)) * f y := by fun_prop
    have hs : Measurable fun p : (Fin n → β) × β =>
        f (Fin.snoc (α := fun _ => β) p.1 p.2) := hf.comp measurable_snocAny
    rw [lintegral_pi_snocAny μ (by fun_prop), lintegral_pi_snocAny ν hp]
    have e1 : ∀ (q : Fin n → α), ∫⁻ x, f (fun k => φ ((Fin.snoc (α := fun _ => α) q x :
        Fin (n + 1) → α) k)) ∂μ =
        ∫⁻ y, r y * f (Fin.snoc (α := fun _ => β) (fun k => φ (q k)) y) ∂ν := by
      intro q
      have hm : Measurable fun y => f (Fin.snoc (α := fun _ => β) (fun k => φ (q k)) y) :=
        hs.comp measurable_prodMk_left
      rw [← h _ hm]
      apply lintegral_congr
      intro x
      congr 1
      funext k
      refine Fin.lastCases ?_ (fun k => ?_) k <;> simp
    simp only [e1]
    have hm2 : Measurable fun w : Fin n → β =>
        ∫⁻ y, r y * f (Fin.snoc (α := fun _ => β) w y) ∂ν := by
      have : Measurable fun p : (Fin n → β) × β =>
        r p.2 * f (Fin.snoc (α := fun _ => β) p.1 p.2) := (hr.comp measurable_snd).mul hs
      exact this.lintegral_prod_right'
    rw [ih hm2]
    apply lintegral_congr
    intro w
    rw [← lintegral_const_mul]
    · apply lintegral_congr
      intro y
      rw [Fin.prod_univ_castSucc]
      simp only [Fin.snoc_castSucc, Fin.snoc_last]
      ring
    · have : Measurable fun p : (Fin n → β) × β =>
        r p.2 * f (Fin.snoc (α := fun _ => β) p.1 p.2) := (hr.comp measurable_snd).mul hs
      exact this.comp measurable_prodMk_left

/-- The density of a centred normal vector with precision `G`. -/
noncomputable def precDensity (G : Matrix (Fin d) (Fin d) ℝ) (y : Fin d → ℝ) : ℝ :=
  (√(2 * π))⁻¹ ^ d * (√G.det * rexp (-(y ⬝ᵥ (G *ᵥ y)) / 2))

theorem precDensity_measurable (G : Matrix (Fin d) (Fin d) ℝ) : Measurable (precDensity G) := by
  unfold precDensity
  have : Measurable fun y : Fin d → ℝ => y ⬝ᵥ (G *ᵥ y) := by
    unfold dotProduct mulVec dotProduct
    fun_prop
  fun_prop

theorem precDensity_nonneg (G : Matrix (Fin d) (Fin d) ℝ) (y : Fin d → ℝ) :
    0 ≤ precDensity G y := by
  unfold precDensity
  positivity

theorem precDensity_mass {G : Matrix (Fin d) (Fin d) ℝ} (hG : G.PosDef) :
    ∫⁻ y, ENNReal.ofReal (precDensity G y) = 1 := by
  have h := stdNormals_chol hG (f := fun _ => 1) measurable_const
  simp only [mul_one, lintegral_const, measure_univ] at h
  exact h.symm

theorem quad_sub {P : Matrix (Fin d) (Fin d) ℝ} (hP : P.IsHermitian) (x y : Fin d → ℝ) :
    (x - y) ⬝ᵥ (P *ᵥ (x - y)) = x ⬝ᵥ (P *ᵥ x) - 2 * (x ⬝ᵥ (P *ᵥ y)) + y ⬝ᵥ (P *ᵥ y) := by
  have hs : y ⬝ᵥ (P *ᵥ x) = x ⬝ᵥ (P *ᵥ y) := by
    have hPt : Pᵀ = P := by
      have := hP.eq; rwa [conjTranspose_eq_transpose_of_trivial] at this
    rw [dotProduct_mulVec, ← mulVec_transpose, hPt, dotProduct_comm]
  rw [mulVec_sub, dotProduct_sub, sub_dotProduct, sub_dotProduct, hs]
  ring

/-- Completing the square. -/
theorem quad_complete {P : Matrix (Fin d) (Fin d) ℝ} (hP : P.IsHermitian) {kappa : ℝ}
    (hk : 0 < kappa) {n : ℕ} (w : Fin n → Fin d → ℝ) (m : Fin d → ℝ) :
    m ⬝ᵥ ((kappa • P) *ᵥ m) + ∑ k, (w k - m) ⬝ᵥ (P *ᵥ (w k - m)) =
      (∑ k, w k ⬝ᵥ (P *ᵥ w k) - (∑ k, w k) ⬝ᵥ (P *ᵥ ∑ k, w k) / (kappa + n)) +
        (m - (kappa + n)⁻¹ • ∑ k, w k) ⬝ᵥ (((kappa + n) • P) *ᵥ
          (m - (kappa + n)⁻¹ • ∑ k, w k)) := by
  have hK : kappa + n ≠ 0 := by positivity
  have e1 : ∑ k, (w k - m) ⬝ᵥ (P *ᵥ (w k - m)) =
      ∑ k, w k ⬝ᵥ (P *ᵥ w k) - 2 * ((∑ k, w k) ⬝ᵥ (P *ᵥ m)) + n * (m ⬝ᵥ (P *ᵥ m)) := by
    simp only [quad_sub hP, Finset.sum_add_distrib, Finset.sum_sub_distrib, Finset.sum_const,
      Finset.card_univ, Fintype.card_fin, nsmul_eq_mul, ← Finset.mul_sum, sum_dotProduct]
  set s := ∑ k, w k
  have hs : m ⬝ᵥ (P *ᵥ s) = s ⬝ᵥ (P *ᵥ m) := by
    have hPt : Pᵀ = P := by
      have := hP.eq; rwa [conjTranspose_eq_transpose_of_trivial] at this
    rw [dotProduct_mulVec, ← mulVec_transpose, hPt, dotProduct_comm]
  rw [e1, smul_mulVec, smul_mulVec, dotProduct_smul, dotProduct_smul, quad_sub hP, mulVec_smul,
    dotProduct_smul, smul_dotProduct, dotProduct_smul, hs]
  simp only [smul_eq_mul]
  field_simp
  ring

/-- The factor of `n` values with mean `mu`, given the precision. -/
noncomputable def precJoint (P : Matrix (Fin d) (Fin d) ℝ) (kappa : ℝ) {n : ℕ}
    (w : Fin n → Fin d → ℝ) : ℝ :=
  (√(2 * π))⁻¹ ^ (d * n) * √(kappa / (kappa + n)) ^ d * (√P.det ^ n *
    rexp (-(∑ k, w k ⬝ᵥ (P *ᵥ w k) - (∑ k, w k) ⬝ᵥ (P *ᵥ ∑ k, w k) / (kappa + n)) / 2))

theorem precJoint_nonneg (P : Matrix (Fin d) (Fin d) ℝ) (kappa : ℝ) {n : ℕ}
    (w : Fin n → Fin d → ℝ) : 0 ≤ precJoint P kappa w := by
  unfold precJoint; positivity

theorem precDensity_prod {P : Matrix (Fin d) (Fin d) ℝ} (hP : P.PosDef) {kappa : ℝ}
    (hk : 0 < kappa) {n : ℕ} (w : Fin n → Fin d → ℝ) (m : Fin d → ℝ) :
    precDensity (kappa • P) m * ∏ k, precDensity P (w k - m) =
      precJoint P kappa w *
        precDensity ((kappa + n) • P) (m - (kappa + n)⁻¹ • ∑ k, w k) := by
  have hK : 0 < kappa + n := by positivity
  have hd := hP.det_pos
  have h1 := quad_complete hP.1 hk w m
  unfold precDensity precJoint
  rw [Finset.prod_mul_distrib, Finset.prod_mul_distrib, ← Real.exp_sum, Finset.prod_const,
    Finset.prod_const, Finset.card_univ, Fintype.card_fin, ← Finset.sum_div, Finset.sum_neg_distrib,
    det_smul, det_smul, Fintype.card_fin]
  set Q1 := m ⬝ᵥ ((kappa • P) *ᵥ m)
  set Q2 := ∑ k, (w k - m) ⬝ᵥ (P *ᵥ (w k - m))
  set Q3 := ∑ k, w k ⬝ᵥ (P *ᵥ w k) - (∑ k, w k) ⬝ᵥ (P *ᵥ ∑ k, w k) / (kappa + n)
  set Q4 := (m - (kappa + n)⁻¹ • ∑ k, w k) ⬝ᵥ (((kappa + n) • P) *ᵥ
          (m - (kappa + n)⁻¹ • ∑ k, w k))
  have e : rexp (-Q1 / 2) * rexp (-Q2 / 2) = rexp (-Q3 / 2) * rexp (-Q4 / 2) := by
    rw [← Real.exp_add, ← Real.exp_add]
    congr 1
    linarith
  have hs : √(kappa ^ d * P.det) = √(kappa / (kappa + n)) ^ d * √((kappa + n) ^ d * P.det) := by
    have : ∀ x : ℝ, 0 ≤ x → √x ^ d = √(x ^ d) := fun x hx => by
      rw [Real.sqrt_eq_rpow, Real.sqrt_eq_rpow, ← Real.rpow_natCast, ← Real.rpow_mul hx,
        mul_comm, Real.rpow_mul hx, Real.rpow_natCast]
    rw [this _ (by positivity), ← Real.sqrt_mul (by positivity)]
    congr 1
    rw [div_pow]
    field_simp
  rw [hs, pow_mul]
  linear_combination ((√(2 * π))⁻¹ ^ d) * (((√(2 * π))⁻¹ ^ d) ^ n) * √(kappa / (kappa + n)) ^ d *
    √((kappa + n) ^ d * P.det) * √P.det ^ n * e

theorem precDensity_joint {P : Matrix (Fin d) (Fin d) ℝ} (hP : P.PosDef) {kappa : ℝ}
    (hk : 0 < kappa) {n : ℕ} (w : Fin n → Fin d → ℝ) :
    ∫⁻ m, ENNReal.ofReal (precDensity (kappa • P) m) *
        ∏ k, ENNReal.ofReal (precDensity P (w k - m)) = ENNReal.ofReal (precJoint P kappa w) := by
  have hK : 0 < kappa + n := by positivity
  have e : ∀ m, ENNReal.ofReal (precDensity (kappa • P) m) *
        ∏ k, ENNReal.ofReal (precDensity P (w k - m)) =
      ENNReal.ofReal (precJoint P kappa w) * ENNReal.ofReal
        (precDensity ((kappa + n) • P) (m - (kappa + n)⁻¹ • ∑ k, w k)) := by
    intro m
    rw [← ENNReal.ofReal_prod_of_nonneg fun k _ => precDensity_nonneg _ _,
      ← ENNReal.ofReal_mul (precDensity_nonneg _ _), precDensity_prod hP hk,
      ENNReal.ofReal_mul (precJoint_nonneg _ _ _)]
  simp only [e]
  rw [lintegral_const_mul' _ _ ENNReal.ofReal_ne_top,
    lintegral_sub_right_eq_self (μ := (volume : Measure (Fin d → ℝ)))
      (fun m => ENNReal.ofReal (precDensity ((kappa + n) • P) m)),
    precDensity_mass (hP.smul hK), mul_one]

/-- **The joint law given the precision.** -/
theorem lintegral_joint {P : Matrix (Fin d) (Fin d) ℝ} (hP : P.PosDef) {kappa : ℝ}
    (hk : 0 < kappa) (mu : Fin d → ℝ) {n : ℕ} {f : (Fin n → Fin d → ℝ) → ENNReal}
    (hf : Measurable f) :
    ∫⁻ x, ∫⁻ y, f (fun k => mu + cholM (kappa • P)⁻¹ *ᵥ x + cholM P⁻¹ *ᵥ y k)
        ∂Measure.pi (fun _ => stdNormals d) ∂stdNormals d =
      ∫⁻ v, ENNReal.ofReal (precJoint P kappa fun k => v k - mu) * f v := by
  have hT : Measurable fun y : Fin d → ℝ => cholM P⁻¹ *ᵥ y :=
    (matClm (cholM P⁻¹)).continuous.measurable
  have hF : Measurable fun q : (Fin d → ℝ) × (Fin n → Fin d → ℝ) =>
      f (fun k => mu + q.1 + q.2 k) := by
    refine hf.comp (measurable_pi_iff.2 fun k => ?_)
    fun_prop
  have hd := precDensity_measurable P
  have hd' := precDensity_measurable (kappa • P)
  -- the values given the mean
  have e1 : ∀ m : Fin d → ℝ, ∫⁻ y, f (fun k => mu + m + cholM P⁻¹ *ᵥ y k)
        ∂Measure.pi (fun _ => stdNormals d) =
      ∫⁻ v, (∏ k, ENNReal.ofReal (precDensity P (v k - mu - m))) * f v := by
    intro m
    have hFm : Measurable fun v : Fin n → Fin d → ℝ => f (fun k => mu + m + v k) :=
      hF.comp measurable_prodMk_left
    have h2 := lintegral_pi_density (μ := stdNormals d) (ν := (volume : Measure (Fin d → ℝ))) hT
      (r := fun y => ENNReal.ofReal (precDensity P y)) hd.ennreal_ofReal
      (fun g hg => stdNormals_chol hP hg) n hFm
    refine h2.trans ?_
    have h3 := lintegral_sub_right_eq_self (μ := (volume : Measure (Fin n → Fin d → ℝ)))
      (fun v => (∏ k, ENNReal.ofReal (precDensity P (v k))) * f (fun k => mu + m + v k))
      (fun _ => mu + m)
    refine Eq.trans ?_ (h3.symm.trans ?_)
    · rfl
    · apply lintegral_congr
      intro v
      simp only [Pi.sub_apply, add_sub_cancel, sub_sub]
  have hG : Measurable fun m : Fin d → ℝ => ∫⁻ y, f (fun k => mu + m + cholM P⁻¹ *ᵥ y k)
        ∂Measure.pi (fun _ => stdNormals d) := by
    have : Measurable fun q : (Fin d → ℝ) × (Fin n → Fin d → ℝ) =>
        f (fun k => mu + q.1 + cholM P⁻¹ *ᵥ q.2 k) := by
      refine hf.comp (measurable_pi_iff.2 fun k => ?_)
      fun_prop
    exact this.lintegral_prod_right'
  have h1 := stdNormals_chol (hP.smul hk) hG
  refine h1.trans ?_
  simp only [e1]
  have hV : Measurable fun q : (Fin d → ℝ) × (Fin n → Fin d → ℝ) =>
      ENNReal.ofReal (precDensity (kappa • P) q.1) *
        ((∏ k, ENNReal.ofReal (precDensity P (q.2 k - mu - q.1))) * f q.2) := by
    refine (hd'.comp measurable_fst).ennreal_ofReal.mul (Measurable.mul ?_ (hf.comp measurable_snd))
    refine Finset.measurable_prod _ fun k _ => (hd.comp ?_).ennreal_ofReal
    fun_prop
  have e2 : ∀ m : Fin d → ℝ, ENNReal.ofReal ((√(2 * π))⁻¹ ^ d * (√(kappa • P).det *
        rexp (-(m ⬝ᵥ ((kappa • P) *ᵥ m)) / 2))) *
        ∫⁻ v, (∏ k, ENNReal.ofReal (precDensity P (v k - mu - m))) * f v =
      ∫⁻ v, ENNReal.ofReal (precDensity (kappa • P) m) *
        ((∏ k, ENNReal.ofReal (precDensity P (v k - mu - m))) * f v) := by
    intro m
    rw [lintegral_const_mul' _ _ ENNReal.ofReal_ne_top]
    rfl
  simp only [e2]
  rw [lintegral_lintegral_swap hV.aemeasurable]
  apply lintegral_congr
  intro v
  rw [← precDensity_joint hP hk, ← lintegral_mul_const]
  · exact lintegral_congr fun m => (mul_assoc _ _ _).symm
  · refine hd'.ennreal_ofReal.mul ?_
    refine Finset.measurable_prod _ fun k _ => (hd.comp ?_).ennreal_ofReal
    fun_prop

/-! ## The covariance drawn at random -/

/-- The change of the scale matrix by `n` values. -/
noncomputable def scaleStep (mu : Fin d → ℝ) (kappa : ℝ) {n : ℕ} (v : Fin n → Fin d → ℝ) :
    Matrix (Fin d) (Fin d) ℝ :=
  Matrix.of fun i j => ∑ k, (v k i - mu i) * (v k j - mu j) -
    (∑ k, (v k i - mu i)) * (∑ k, (v k j - mu j)) / (kappa + n)

theorem scaleStep_apply (mu : Fin d → ℝ) (kappa : ℝ) {n : ℕ} (v : Fin n → Fin d → ℝ) (i j : Fin d) :
    scaleStep mu kappa v i j = ∑ k, (v k i - mu i) * (v k j - mu j) -
    (∑ k, (v k i - mu i)) * (∑ k, (v k j - mu j)) / (kappa + n) := rfl

theorem scaleStep_measurable (mu : Fin d → ℝ) (kappa : ℝ) {n : ℕ} (i j : Fin d) :
    Measurable fun v : Fin n → Fin d → ℝ => scaleStep mu kappa v i j := by
  simp only [scaleStep_apply]
  fun_prop

theorem vecSum_ofFn {n : ℕ} (v : Fin n → Fin d → ℝ) (i : Fin d) :
    vecSum (List.ofFn v) i = ∑ k, v k i := by
  rw [vecSum, List.sum_ofFn, Finset.sum_apply]

theorem outerSum_ofFn {n : ℕ} (v : Fin n → Fin d → ℝ) (i j : Fin d) :
    outerSum (List.ofFn v) i j = ∑ k, v k i * v k j := by
  rw [outerSum, List.map_ofFn, List.sum_ofFn, Matrix.sum_apply]
  rfl

theorem scaleStep_post {kappa : ℝ} (hk : 0 < kappa) (mu : Fin d → ℝ)
    (psi : Matrix (Fin d) (Fin d) ℝ) {n : ℕ} (v : Fin n → Fin d → ℝ) :
    psi + scaleStep mu kappa v =
      NIW.postPsi mu kappa psi n (vecSum (List.ofFn v)) (outerSum (List.ofFn v)) := by
  ext i j
  have hK : kappa + n ≠ 0 := by positivity
  rw [NIW.postPsi_apply, Matrix.add_apply, scaleStep_apply, vecSum_ofFn, vecSum_ofFn, outerSum_ofFn]
  have e : ∑ k, (v k i - mu i) * (v k j - mu j) =
      ∑ k, v k i * v k j - mu i * ∑ k, v k j - mu j * ∑ k, v k i + n * (mu i * mu j) := by
    simp only [sub_mul, mul_sub, Finset.sum_sub_distrib, ← Finset.sum_mul, ← Finset.mul_sum,
      Finset.sum_const, Finset.card_univ, Fintype.card_fin, nsmul_eq_mul]
    ring
  rw [e]
  simp only [Finset.sum_sub_distrib, Finset.sum_const, Finset.card_univ, Fintype.card_fin,
    nsmul_eq_mul]
  field_simp
  ring

theorem quad_entries (P : Matrix (Fin d) (Fin d) ℝ) (x : Fin d → ℝ) :
    x ⬝ᵥ (P *ᵥ x) = ∑ i, ∑ j, P i j * (x i * x j) := by
  simp only [dotProduct, mulVec, Finset.mul_sum]
  exact Finset.sum_congr rfl fun i _ => Finset.sum_congr rfl fun j _ => by ring

theorem quad_scaleStep (P : Matrix (Fin d) (Fin d) ℝ) (mu : Fin d → ℝ) (kappa : ℝ) {n : ℕ}
    (v : Fin n → Fin d → ℝ) :
    ∑ k, (v k - mu) ⬝ᵥ (P *ᵥ (v k - mu)) -
        (∑ k, (v k - mu)) ⬝ᵥ (P *ᵥ ∑ k, (v k - mu)) / (kappa + n) =
      ∑ i, ∑ j, P i j * scaleStep mu kappa v i j := by
  have e : ∀ i j, P i j * scaleStep mu kappa v i j =
      ∑ k, P i j * ((v k - mu) i * (v k - mu) j) -
        P i j * ((∑ k, (v k - mu)) i * (∑ k, (v k - mu)) j) / (kappa + n) := by
    intro i j
    rw [scaleStep_apply, ← Finset.mul_sum, Finset.sum_apply, Finset.sum_apply]
    simp only [Pi.sub_apply]
    ring
  simp only [e, Finset.sum_sub_distrib, ← Finset.sum_div, ← quad_entries]
  congr 1
  simp only [quad_entries]
  rw [Finset.sum_comm]
  exact Finset.sum_congr rfl fun i _ => Finset.sum_comm

theorem sum_entries_trace (A B : Matrix (Fin d) (Fin d) ℝ) :
    ∑ i, ∑ j, A i j * B i j = trace (A * Bᵀ) := by
  simp only [trace, diag_apply, Matrix.mul_apply, transpose_apply]

theorem sum_entries_conj (E G S : Matrix (Fin d) (Fin d) ℝ) :
    ∑ i, ∑ j, (Eᵀ * G * E) i j * S i j = ∑ i, ∑ j, (E * S * Eᵀ) i j * G i j := by
  rw [sum_entries_trace, Finset.sum_congr rfl fun i _ => Finset.sum_congr rfl fun j _ =>
    mul_comm ((E * S * Eᵀ) i j) (G i j), sum_entries_trace]
  rw [transpose_mul, transpose_mul, transpose_transpose, Matrix.mul_assoc, Matrix.mul_assoc,
    trace_mul_comm]
  simp only [Matrix.mul_assoc]

theorem gramCov_inv {C G : Matrix (Fin d) (Fin d) ℝ} (hG : G.PosDef) :
    (gramCov C G)⁻¹ = (C⁻¹)ᵀ * G * C⁻¹ := by
  rw [gramCov, Matrix.mul_inv_rev, Matrix.mul_inv_rev,
    Matrix.nonsing_inv_nonsing_inv _ (isUnit_iff_ne_zero.2 hG.det_pos.ne'), transpose_nonsing_inv,
    Matrix.mul_assoc]

/-- The joint density given the Gram matrix. -/
theorem precJoint_gram {C G : Matrix (Fin d) (Fin d) ℝ} (hC : 0 < C.det) (hG : G.PosDef)
    (mu : Fin d → ℝ) (kappa : ℝ) {n : ℕ} (v : Fin n → Fin d → ℝ) :
    ENNReal.ofReal (precJoint (gramCov C G)⁻¹ kappa fun k => v k - mu) =
      ENNReal.ofReal ((√(2 * π))⁻¹ ^ (d * n) * √(kappa / (kappa + n)) ^ d * (C.det)⁻¹ ^ n) *
        gramTilt (C⁻¹ * scaleStep mu kappa v * (C⁻¹)ᵀ) n G := by
  have hd : √((gramCov C G)⁻¹).det = (C.det)⁻¹ * √G.det := by
    rw [gramCov_inv hG, det_mul, det_mul, det_transpose, det_nonsing_inv, Ring.inverse_eq_inv',
      show (C.det)⁻¹ * G.det * (C.det)⁻¹ = ((C.det)⁻¹) ^ 2 * G.det by ring,
      Real.sqrt_mul (by positivity), Real.sqrt_sq (by positivity)]
  unfold gramTilt precJoint
  rw [hd, ← ENNReal.ofReal_mul (by positivity), quad_scaleStep, gramCov_inv hG, sum_entries_conj]
  congr 1
  rw [mul_pow]
  ring

theorem one_add_conj {C psi S : Matrix (Fin d) (Fin d) ℝ} (hC : C.det ≠ 0) (hCm : C * Cᵀ = psi) :
    1 + C⁻¹ * S * (C⁻¹)ᵀ = C⁻¹ * (psi + S) * (C⁻¹)ᵀ := by
  have hu : IsUnit C.det := isUnit_iff_ne_zero.2 hC
  rw [Matrix.mul_add, Matrix.add_mul, ← hCm, ← Matrix.mul_assoc, Matrix.nonsing_inv_mul _ hu,
    Matrix.one_mul, ← transpose_mul, Matrix.nonsing_inv_mul _ hu, transpose_one]

theorem gramTilt_measurable {Ω : Type} [MeasurableSpace Ω] {G S : Ω → Matrix (Fin d) (Fin d) ℝ}
    (hG : ∀ i j, Measurable fun w => G w i j) (hS : ∀ i j, Measurable fun w => S w i j) (n : ℕ) :
    Measurable fun w => gramTilt (S w) n (G w) := by
  have hdet : Measurable fun w => (G w).det := by
    simp only [Matrix.det_apply]
    exact Finset.measurable_sum _ fun p _ =>
      (Finset.measurable_prod _ fun i _ => hG _ _).const_smul _
  have hsum : Measurable fun w => ∑ i, ∑ j, S w i j * G w i j :=
    Finset.measurable_sum _ fun i _ => Finset.measurable_sum _ fun j _ => (hS i j).mul (hG i j)
  unfold gramTilt
  exact ((hdet.sqrt.pow_const n).mul (hsum.neg.div_const 2).exp).ennreal_ofReal

theorem det_conj_sqrt {C M : Matrix (Fin d) (Fin d) ℝ} (hC : 0 < C.det) :
    √(C⁻¹ * M * (C⁻¹)ᵀ).det = (C.det)⁻¹ * √M.det := by
  rw [det_mul, det_mul, det_transpose, det_nonsing_inv, Ring.inverse_eq_inv',
    show (C.det)⁻¹ * M.det * (C.det)⁻¹ = ((C.det)⁻¹) ^ 2 * M.det by ring,
    Real.sqrt_mul (by positivity), Real.sqrt_sq (by positivity)]

theorem conj_posDef {C M : Matrix (Fin d) (Fin d) ℝ} (hC : 0 < C.det) (hM : M.PosDef) :
    (C⁻¹ * M * (C⁻¹)ᵀ).PosDef := by
  have hCi : (C⁻¹).det ≠ 0 := by
    rw [det_nonsing_inv, Ring.inverse_eq_inv']; exact inv_ne_zero hC.ne'
  have := (Matrix.IsUnit.posDef_star_right_conjugate_iff (U := C⁻¹) (x := M)
    ((Matrix.isUnit_iff_isUnit_det _).2 (isUnit_iff_ne_zero.2 hCi))).2 hM
  rwa [star_eq_conjTranspose, conjTranspose_eq_transpose_of_trivial] at this

theorem gramTilt_post {Ω : Type} [MeasurableSpace Ω] {ρ : Measure Ω}
    {G : Ω → Matrix (Fin d) (Fin d) ℝ} {nu : ℝ} {n : ℕ} {K : ENNReal}
    (hK : ∀ S : Matrix (Fin d) (Fin d) ℝ, (1 + S).PosDef →
        ∫⁻ w, gramTilt S n (G w) ∂ρ = K * ENNReal.ofReal (√(1 + S).det ^ (-(nu + n))))
    {psi C S : Matrix (Fin d) (Fin d) ℝ} (hC : 0 < C.det) (hCm : C * Cᵀ = psi)
    (hS : (psi + S).PosDef) :
    ∫⁻ w, gramTilt (C⁻¹ * S * (C⁻¹)ᵀ) n (G w) ∂ρ =
      K * ENNReal.ofReal (C.det ^ (nu + n)) *
        ENNReal.ofReal (√(psi + S).det ^ (-(nu + n))) := by
  have e := one_add_conj (S := S) hC.ne' hCm
  have hpd := conj_posDef hC hS
  rw [hK _ (by rw [e]; exact hpd), e, det_conj_sqrt hC,
    Real.mul_rpow (by positivity) (Real.sqrt_nonneg _), Real.inv_rpow hC.le,
    Real.rpow_neg hC.le, inv_inv, ENNReal.ofReal_mul (by positivity), mul_assoc]

/-- The joint density given `w`, up to measurability. -/
theorem gramTilt_step_measurable {Ω : Type} [MeasurableSpace Ω]
    {G : Ω → Matrix (Fin d) (Fin d) ℝ} (hGm : Measurable (fun w i j => G w i j))
    (C : Matrix (Fin d) (Fin d) ℝ) (kappa : ℝ) (mu : Fin d → ℝ) (n : ℕ) :
    Measurable fun p : Ω × (Fin n → Fin d → ℝ) =>
      gramTilt (C⁻¹ * scaleStep mu kappa p.2 * (C⁻¹)ᵀ) n (G p.1) := by
  have hS : ∀ i j, Measurable fun v : Fin n → Fin d → ℝ =>
      (C⁻¹ * scaleStep mu kappa v * (C⁻¹)ᵀ) i j := by
    intro i j
    simp only [Matrix.mul_apply]
    exact Finset.measurable_sum _ fun k _ => (Finset.measurable_sum _ fun l _ =>
      (scaleStep_measurable mu kappa l k).const_mul _).mul_const _
  exact gramTilt_measurable (Ω := Ω × (Fin n → Fin d → ℝ)) (G := fun p => G p.1)
    (S := fun p => C⁻¹ * scaleStep mu kappa p.2 * (C⁻¹)ᵀ)
    (fun i j => (measurable_pi_iff.1 (measurable_pi_iff.1 hGm i) j).comp measurable_fst)
    (fun i j => (hS i j).comp measurable_snd) n

/-- The joint law, up to a factor. -/
theorem niw_joint_factor {Ω : Type} [MeasurableSpace Ω] {ρ : Measure Ω} [SFinite ρ]
    {G : Ω → Matrix (Fin d) (Fin d) ℝ} (hGm : Measurable (fun w i j => G w i j))
    (hG : ∀ᵐ w ∂ρ, (G w).PosDef) {nu : ℝ} {n : ℕ}
    (hT : ∃ K : ENNReal, ∀ S : Matrix (Fin d) (Fin d) ℝ, (1 + S).PosDef →
        ∫⁻ w, gramTilt S n (G w) ∂ρ = K * ENNReal.ofReal (√(1 + S).det ^ (-(nu + n))))
    {psi C : Matrix (Fin d) (Fin d) ℝ} (hpsi : psi.PosDef) (hC : 0 < C.det) (hCm : C * Cᵀ = psi)
    {kappa : ℝ} (hk : 0 < kappa) (mu : Fin d → ℝ) :
    ∃ K : ENNReal, ∀ f : (Fin n → Fin d → ℝ) → ENNReal, Measurable f →
      ∫⁻ w, ∫⁻ x, ∫⁻ y, f (fun k => mu + cholM (kappa • (gramCov C (G w))⁻¹)⁻¹ *ᵥ x +
          cholM (gramCov C (G w)) *ᵥ y k)
        ∂Measure.pi (fun _ => stdNormals d) ∂stdNormals d ∂ρ =
      ∫⁻ v, K * ENNReal.ofReal (√(NIW.postPsi mu kappa psi n (vecSum (List.ofFn v))
        (outerSum (List.ofFn v))).det ^ (-(nu + n))) * f v := by
  obtain ⟨K, hK⟩ := hT
  set c := ENNReal.ofReal ((√(2 * π))⁻¹ ^ (d * n) * √(kappa / (kappa + n)) ^ d * (C.det)⁻¹ ^ n)
    with hc
  refine ⟨c * (K * ENNReal.ofReal (C.det ^ (nu + n))), fun f hf => ?_⟩
  have e1 : ∫⁻ w, ∫⁻ x, ∫⁻ y, f (fun k => mu + cholM (kappa • (gramCov C (G w))⁻¹)⁻¹ *ᵥ x +
          cholM (gramCov C (G w)) *ᵥ y k)
        ∂Measure.pi (fun _ => stdNormals d) ∂stdNormals d ∂ρ =
      ∫⁻ w, ∫⁻ v, c * gramTilt (C⁻¹ * scaleStep mu kappa v * (C⁻¹)ᵀ) n (G w) * f v
        ∂volume ∂ρ := by
    apply lintegral_congr_ae
    filter_upwards [hG] with w hw
    have hcov := gramCov_posDef hC.ne' hw
    have h := lintegral_joint hcov.inv hk mu hf
    rw [Matrix.nonsing_inv_nonsing_inv _ (isUnit_iff_ne_zero.2 hcov.det_pos.ne')] at h
    refine h.trans ?_
    apply lintegral_congr
    intro v
    rw [precJoint_gram hC hw]
  rw [e1, lintegral_lintegral_swap]
  · apply lintegral_congr
    intro v
    have hpost := NIW.post_posDef mu kappa psi hk hpsi (List.ofFn v)
    rw [List.length_ofFn, ← scaleStep_post hk] at hpost
    have hm : Measurable fun w => gramTilt (C⁻¹ * scaleStep mu kappa v * (C⁻¹)ᵀ) n (G w) :=
      gramTilt_measurable (G := G) (S := fun _ => C⁻¹ * scaleStep mu kappa v * (C⁻¹)ᵀ)
        (fun i j => measurable_pi_iff.1 (measurable_pi_iff.1 hGm i) j)
        (fun i j => measurable_const) n
    rw [lintegral_mul_const _ (hm.const_mul _), lintegral_const_mul _ hm,
      gramTilt_post hK hC hCm hpost, scaleStep_post hk]
    simp only [mul_assoc]
  · have h := gramTilt_step_measurable hGm C kappa mu n
    exact ((h.const_mul c).mul (hf.comp measurable_snd)).aemeasurable

/-! ## The total mass -/

theorem mvStudentT_mass {psi : Matrix (Fin d) (Fin d) ℝ} (hpsi : psi.PosDef) {nu k : ℝ}
    (hnu : (d : ℝ) - 1 < nu) (hk : 0 < k) (mu : Fin d → ℝ) :
    ∫⁻ v, ENNReal.ofReal (mvStudentT (nu - d + 1) mu ((k / (nu - d + 1)) • psi) v) = 1 := by
  haveI := chiLaw_prob (nu := nu) d hnu
  have h := niw_predictive hpsi (cholM_isChol hpsi.inv) (half_pos hk) (half_pos hk) hnu mu
    (f := fun _ => 1) measurable_const
  simp only [lintegral_const, measure_univ, mul_one, add_halves] at h
  exact h.symm

namespace NIW

/-- The score of a data set, up to the factor that depends on it. -/
theorem exp_logMarginal {mu : Fin d → ℝ} {kappa : ℝ} {psi : Matrix (Fin d) (Fin d) ℝ} {nu : ℝ}
    (hr : InRange mu kappa psi nu) (n : ℕ) : ∃ K, 0 < K ∧ ∀ v : Fin n → Fin d → ℝ,
      exp (logMarginal mu kappa psi nu (List.ofFn v)) =
        K * √(postPsi mu kappa psi n (vecSum (List.ofFn v)) (outerSum (List.ofFn v))).det ^
          (-(nu + n)) := by
  refine ⟨exp ((∑ j ∈ Finset.range d, Real.log (Real.Gamma ((nu + n) / 2 - j / 2)))
    + nu / 2 * Real.log psi.det - n * d / 2 * Real.log Real.pi
    - (∑ j ∈ Finset.range d, Real.log (Real.Gamma (nu / 2 - j / 2)))
    + d / 2 * Real.log (kappa / (kappa + n))), exp_pos _, fun v => ?_⟩
  have hd := (post_posDef mu kappa psi hr.kappa hr.psi (List.ofFn v)).det_pos
  rw [List.length_ofFn] at hd
  unfold logMarginal
  rw [List.length_ofFn, Real.sqrt_eq_rpow, ← Real.rpow_mul hd.le, Real.rpow_def_of_pos hd,
    ← Real.exp_add]
  congr 1
  ring

theorem exp_logMarginal_measurable {mu : Fin d → ℝ} {kappa : ℝ} {psi : Matrix (Fin d) (Fin d) ℝ}
    {nu : ℝ} (hr : InRange mu kappa psi nu) (n : ℕ) :
    Measurable fun v : Fin n → Fin d → ℝ => exp (logMarginal mu kappa psi nu (List.ofFn v)) := by
  obtain ⟨K, -, h⟩ := exp_logMarginal hr n
  simp only [h, ← scaleStep_post hr.kappa]
  have hdet : Measurable fun v : Fin n → Fin d → ℝ => (psi + scaleStep mu kappa v).det := by
    simp only [Matrix.det_apply]
    exact Finset.measurable_sum _ fun p _ => (Finset.measurable_prod _ fun i _ =>
      (scaleStep_measurable mu kappa _ _).const_add _).const_smul _
  exact (hdet.sqrt.pow_const _).const_mul _

/-- The scores are normalised. -/
theorem exp_logMarginal_mass {mu : Fin d → ℝ} {kappa : ℝ} {psi : Matrix (Fin d) (Fin d) ℝ} {nu : ℝ}
    (hr : InRange mu kappa psi nu) (n : ℕ) :
    ∫⁻ v : Fin n → Fin d → ℝ,
      ENNReal.ofReal (exp (logMarginal mu kappa psi nu (List.ofFn v))) = 1 := by
  induction n with
  | zero =>
    have h : ∀ v : Fin 0 → Fin d → ℝ,
        ENNReal.ofReal (exp (logMarginal mu kappa psi nu (List.ofFn v))) = 1 := by
      intro v
      rw [List.ofFn_zero, logMarginal_nil hr]; simp
    simp only [h]
    rw [volume_pi, Measure.pi_of_empty _ Fin.elim0]
    simp
  | succ n ih =>
    have hm := (exp_logMarginal_measurable hr (n + 1)).ennreal_ofReal
    rw [volume_pi, lintegral_pi_snocAny _ hm, ← volume_pi, ← ih]
    apply lintegral_congr
    intro q
    obtain ⟨la, hla⟩ := exists_exactLinAlg
    have hk := hr.kappa
    have hnu := hr.nu
    have hlen : (List.ofFn q).length = n := List.length_ofFn
    have h0 : (0 : ℝ) ≤ n := by positivity
    have e : ∀ x : Fin d → ℝ, logMarginal mu kappa psi nu
        (List.ofFn (Fin.snoc (α := fun _ => Fin d → ℝ) q x)) =
        logMarginal mu kappa psi nu (List.ofFn q ++ [x]) := by
      intro x
      rw [List.ofFn_succ']
      simp
    simp only [e]
    obtain ⟨hpd, -, -⟩ := predictive_stats 0 la hla mu kappa psi nu hr (List.ofFn q) mu
    have e2 : ∀ x : Fin d → ℝ,
        ENNReal.ofReal (exp (logMarginal mu kappa psi nu (List.ofFn q ++ [x]))) =
        ENNReal.ofReal (exp (logMarginal mu kappa psi nu (List.ofFn q))) *
          ENNReal.ofReal (mvStudentT (nu + (List.ofFn q).length - d + 1)
        ((1 / (kappa + ((List.ofFn q).length : ℝ))) • (kappa • mu + (List.ofFn q).sum))
        (((kappa + (List.ofFn q).length + 1) / (kappa + (List.ofFn q).length) /
            (nu + (List.ofFn q).length - d + 1)) •
          (psi + kappa • vecMulVec mu mu + ((List.ofFn q).map fun x => vecMulVec x x).sum -
            (kappa + (List.ofFn q).length) • vecMulVec
              ((1 / (kappa + ((List.ofFn q).length : ℝ))) • (kappa • mu + (List.ofFn q).sum))
              ((1 / (kappa + ((List.ofFn q).length : ℝ))) • (kappa • mu + (List.ofFn q).sum)))) x)
        := by
      intro x
      obtain ⟨-, hpos, -⟩ := predictive_stats 0 la hla mu kappa psi nu hr (List.ofFn q) x
      rw [logMarginal_step hr (List.ofFn q) x hpd, Real.exp_add, Real.exp_log hpos,
        ENNReal.ofReal_mul (exp_pos _).le, div_div]
    simp only [e2]
    rw [lintegral_const_mul' _ _ ENNReal.ofReal_ne_top, mvStudentT_mass hpd, mul_one]
    · rw [hlen]; linarith
    · positivity

end NIW

/-- **The joint law** of `n` values with a common mean and covariance drawn from the
normal-inverse-Wishart law. -/
theorem niw_joint {Ω : Type} [MeasurableSpace Ω] {ρ : Measure Ω} [IsProbabilityMeasure ρ]
    {G : Ω → Matrix (Fin d) (Fin d) ℝ} (hGm : Measurable (fun w i j => G w i j))
    (hG : ∀ᵐ w ∂ρ, (G w).PosDef) {nu : ℝ} {n : ℕ}
    (hT : ∃ K : ENNReal, ∀ S : Matrix (Fin d) (Fin d) ℝ, (1 + S).PosDef →
        ∫⁻ w, gramTilt S n (G w) ∂ρ = K * ENNReal.ofReal (√(1 + S).det ^ (-(nu + n))))
    {psi C : Matrix (Fin d) (Fin d) ℝ} (hC : 0 < C.det) (hCm : C * Cᵀ = psi)
    {kappa : ℝ} {mu : Fin d → ℝ} (hr : NIW.InRange mu kappa psi nu)
    {f : (Fin n → Fin d → ℝ) → ENNReal} (hf : Measurable f) :
      ∫⁻ w, ∫⁻ x, ∫⁻ y, f (fun k => mu + cholM (kappa • (gramCov C (G w))⁻¹)⁻¹ *ᵥ x +
          cholM (gramCov C (G w)) *ᵥ y k)
        ∂Measure.pi (fun _ => stdNormals d) ∂stdNormals d ∂ρ =
      ∫⁻ v, ENNReal.ofReal (exp (NIW.logMarginal mu kappa psi nu (List.ofFn v))) * f v := by
  obtain ⟨K, hK⟩ := niw_joint_factor hGm hG hT hr.psi hC hCm hr.kappa mu
  obtain ⟨K', hK', h'⟩ := NIW.exp_logMarginal hr n
  have hmass := NIW.exp_logMarginal_mass hr n
  have h1 := hK (fun _ => 1) measurable_const
  simp only [lintegral_const, measure_univ, mul_one] at h1
  have hms := (NIW.exp_logMarginal_measurable hr n).ennreal_ofReal
  simp only [h', ENNReal.ofReal_mul hK'.le] at hmass hms ⊢
  have hms' : Measurable fun v : Fin n → Fin d → ℝ => ENNReal.ofReal
      (√(NIW.postPsi mu kappa psi n (vecSum (List.ofFn v)) (outerSum (List.ofFn v))).det ^
          (-(nu + n))) := by
    have hne : ENNReal.ofReal K' ≠ 0 := by simpa using hK'
    have := hms.const_mul (ENNReal.ofReal K')⁻¹
    simpa only [← mul_assoc, ENNReal.inv_mul_cancel hne ENNReal.ofReal_ne_top, one_mul] using this
  rw [hK f hf]
  rw [lintegral_const_mul _ hms'] at h1 hmass
  set Z := ∫⁻ v : Fin n → Fin d → ℝ, ENNReal.ofReal
      (√(NIW.postPsi mu kappa psi n (vecSum (List.ofFn v)) (outerSum (List.ofFn v))).det ^
          (-(nu + n)))
  have hKK : K = ENNReal.ofReal K' := by
    have hZ : Z ≠ 0 := by rintro h; rw [h] at hmass; simp at hmass
    have hZ' : Z ≠ ⊤ := by
      rintro h
      rw [h, ENNReal.mul_top (by simpa using hK')] at hmass
      simp at hmass
    have := h1.symm.trans hmass.symm
    exact (ENNReal.mul_left_inj hZ hZ').1 this
  rw [hKK]

end Dist
