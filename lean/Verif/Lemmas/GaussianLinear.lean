import Mathlib.Probability.Distributions.Gaussian.Multivariate
import Mathlib.LinearAlgebra.Matrix.DotProduct
import Mathlib.Probability.Independence.CharacteristicFunction

/-! # Linear images of independent standard normal variables -/

namespace Dist

open MeasureTheory ProbabilityTheory Matrix

/-- `n` independent standard normal variables. -/
noncomputable abbrev stdNormals (n : ℕ) : Measure (Fin n → ℝ) :=
  Measure.pi fun _ => gaussianReal 0 1

/-- A matrix as a continuous linear map. -/
noncomputable def matClm {n m : ℕ} (P : Matrix (Fin m) (Fin n) ℝ) :
    (Fin n → ℝ) →L[ℝ] (Fin m → ℝ) := LinearMap.toContinuousLinearMap (Matrix.mulVecLin P)

@[simp] theorem matClm_apply {n m : ℕ} (P : Matrix (Fin m) (Fin n) ℝ) (x : Fin n → ℝ) :
    matClm P x = P *ᵥ x := rfl

theorem charFunDual_stdNormals (n : ℕ) (L : StrongDual ℝ (Fin n → ℝ)) :
    charFunDual (stdNormals n) L =
      Complex.exp (-((∑ i, L (Pi.single i 1) ^ 2 : ℝ) : ℂ) / 2) := by
  rw [charFunDual_pi]
  have h : ∀ i, charFunDual (gaussianReal 0 1) (L.comp (.single ℝ (fun _ => ℝ) i)) =
      Complex.exp (-((L (Pi.single i 1) ^ 2 : ℝ) : ℂ) / 2) := by
    intro i
    rw [charFunDual_eq_charFun_map_one]
    have e : ⇑(L.comp (.single ℝ (fun _ => ℝ) i)) = fun x : ℝ => L (Pi.single i 1) * x := by
      funext x
      rw [ContinuousLinearMap.comp_apply]
      have : (ContinuousLinearMap.single ℝ (fun _ : Fin n => ℝ) i) x =
          x • (Pi.single i 1 : Fin n → ℝ) := by
        rw [← Pi.single_smul]; simp
      rw [this, map_smul, smul_eq_mul, mul_comm]
    rw [e, gaussianReal_map_const_mul, charFun_gaussianReal]
    simp [neg_div]
  simp_rw [h]
  rw [← Complex.exp_sum]
  congr 1
  push_cast
  rw [neg_div, Finset.sum_div, ← Finset.sum_neg_distrib]
  exact Finset.sum_congr rfl fun i _ => by ring

theorem sum_sq_matClm {n m : ℕ} (P : Matrix (Fin m) (Fin n) ℝ) (L : StrongDual ℝ (Fin m → ℝ)) :
    ∑ i, (L.comp (matClm P)) (Pi.single i 1) ^ 2 =
      (fun j => L (Pi.single j 1)) ⬝ᵥ ((P * Pᵀ) *ᵥ fun j => L (Pi.single j 1)) := by
  have e : ∀ i, (L.comp (matClm P)) (Pi.single i 1) = (Pᵀ *ᵥ fun j => L (Pi.single j 1)) i := by
    intro i
    rw [ContinuousLinearMap.comp_apply, matClm_apply, Matrix.mulVec_single_one]
    conv_lhs => rw [← Finset.univ_sum_single (P.col i), map_sum]
    rw [Matrix.mulVec, dotProduct]
    apply Finset.sum_congr rfl
    intro j _
    rw [show (Pi.single j (P.col i j) : Fin m → ℝ) = P.col i j • Pi.single j 1 by
      rw [← Pi.single_smul]; simp, map_smul]
    rfl
  simp_rw [e]
  rw [← Matrix.mulVec_mulVec, Matrix.dotProduct_mulVec, ← Matrix.mulVec_transpose, dotProduct]
  exact Finset.sum_congr rfl fun i _ => by ring

/-- A sum of linear images of independent standard normal vectors is determined by the sum of
the covariance matrices. -/
theorem stdNormals_add {n m k l : ℕ} (P : Matrix (Fin m) (Fin n) ℝ) (Q : Matrix (Fin m) (Fin k) ℝ)
    (R : Matrix (Fin m) (Fin l) ℝ) (h : P * Pᵀ + Q * Qᵀ = R * Rᵀ) :
    ((stdNormals n).prod (stdNormals k)).map (fun p => P *ᵥ p.1 + Q *ᵥ p.2) =
      (stdNormals l).map (R *ᵥ ·) := by
  have hP : Measurable (matClm P) := (matClm P).continuous.measurable
  have hQ : Measurable (matClm Q) := (matClm Q).continuous.measurable
  have hR : Measurable (matClm R) := (matClm R).continuous.measurable
  haveI : IsProbabilityMeasure ((stdNormals n).map (matClm P)) :=
    Measure.isProbabilityMeasure_map hP.aemeasurable
  haveI : IsProbabilityMeasure ((stdNormals k).map (matClm Q)) :=
    Measure.isProbabilityMeasure_map hQ.aemeasurable
  haveI : IsProbabilityMeasure ((stdNormals l).map (matClm R)) :=
    Measure.isProbabilityMeasure_map hR.aemeasurable
  have e : ((stdNormals n).prod (stdNormals k)).map (fun p => P *ᵥ p.1 + Q *ᵥ p.2) =
      (((stdNormals n).map (matClm P)).prod ((stdNormals k).map (matClm Q))).map
        (fun p => p.1 + p.2) := by
    rw [Measure.map_prod_map _ _ hP hQ, Measure.map_map (by fun_prop) (by fun_prop)]
    rfl
  have e2 : (stdNormals l).map (R *ᵥ ·) = (stdNormals l).map (matClm R) := rfl
  rw [e, e2]
  haveI : IsProbabilityMeasure ((((stdNormals n).map (matClm P)).prod
      ((stdNormals k).map (matClm Q))).map (fun p => p.1 + p.2)) :=
    Measure.isProbabilityMeasure_map (by fun_prop)
  apply Measure.ext_of_charFunDual
  funext L
  rw [charFunDual_map_add_prod_eq_mul, Pi.mul_apply, charFunDual_map, charFunDual_map,
    charFunDual_map, charFunDual_stdNormals, charFunDual_stdNormals, charFunDual_stdNormals,
    ← Complex.exp_add, sum_sq_matClm, sum_sq_matClm, sum_sq_matClm, ← h, Matrix.add_mulVec,
    dotProduct_add]
  congr 1
  push_cast
  ring

/-- Integral form of `stdNormals_add`. -/
theorem stdNormals_lintegral_add {n m k l : ℕ} (P : Matrix (Fin m) (Fin n) ℝ)
    (Q : Matrix (Fin m) (Fin k) ℝ) (R : Matrix (Fin m) (Fin l) ℝ)
    (h : P * Pᵀ + Q * Qᵀ = R * Rᵀ) {f : (Fin m → ℝ) → ENNReal} (hf : Measurable f) :
    ∫⁻ x, ∫⁻ y, f (P *ᵥ x + Q *ᵥ y) ∂stdNormals k ∂stdNormals n =
      ∫⁻ z, f (R *ᵥ z) ∂stdNormals l := by
  have hP : Measurable fun x : Fin n → ℝ => P *ᵥ x := (matClm P).continuous.measurable
  have hQ : Measurable fun x : Fin k → ℝ => Q *ᵥ x := (matClm Q).continuous.measurable
  have hR : Measurable fun x : Fin l → ℝ => R *ᵥ x := (matClm R).continuous.measurable
  have hm : Measurable fun p : (Fin n → ℝ) × (Fin k → ℝ) => P *ᵥ p.1 + Q *ᵥ p.2 :=
    (hP.comp measurable_fst).add (hQ.comp measurable_snd)
  rw [← lintegral_map hf hR, ← stdNormals_add P Q R h, lintegral_map hf hm]
  exact (lintegral_prod _ (hf.comp hm).aemeasurable).symm

end Dist
