import Verif.Lemmas.GaussianRows
import Verif.Lemmas.NIWSample
import Verif.Lemmas.IdealNumpyExists

/-! # The matrices drawn by the reference implementation of the inverse Wishart law -/

namespace Dist

open MeasureTheory ProbabilityTheory Real Spec Matrix FloatOps FloatNotation

variable {σ : Type} [MeasurableSpace σ] {d : ℕ}

/-! ## Rows of normal variables -/

/-- Rows of standard normal variables drawn in sequence. -/
noncomputable def realRandn (I : IdealRng σ) (d : ℕ) : (m : ℕ) → σ → (Fin m → Fin d → ℝ) × σ
  | 0, s => (Fin.elim0, s)
  | m + 1, s =>
    (Fin.snoc (α := fun _ => Fin d → ℝ) (realRandn I d m s).1
        (realNormals I d (realRandn I d m s).2).1,
      (realNormals I d (realRandn I d m s).2).2)

theorem realRandn_meas (I : IdealRng σ) (d m : ℕ) : Measurable (realRandn I d m) := by
  induction m with
  | zero => exact measurable_const.prodMk measurable_id
  | succ m ih =>
    have h : Measurable fun s => realNormals I d (realRandn I d m s).2 :=
      (realNormals_meas I d).comp ih.snd
    exact (measurable_snocAny.comp (ih.fst.prodMk h.fst)).prodMk h.snd

theorem rowsLaw_succ (m d : ℕ) :
    rowsLaw (m + 1) d = ((rowsLaw m d).prod (stdNormals d)).map
      fun p => (Fin.snoc (α := fun _ => Fin d → ℝ) p.1 p.2 : Fin (m + 1) → Fin d → ℝ) := by
  refine Measure.ext_of_lintegral _ fun f hf => ?_
  rw [lintegral_map hf measurable_snocAny]
  refine (lintegral_pi_snocAny (stdNormals d) hf).trans ?_
  exact (lintegral_prod _ (Measurable.comp (g := f) hf measurable_snocAny).aemeasurable).symm

theorem realRandn_law (I : IdealRng σ) (d m : ℕ) :
    HasLaw I.P (realRandn I d m) (rowsLaw m d) := by
  induction m with
  | zero =>
    have e : rowsLaw 0 d = Measure.dirac Fin.elim0 := by
      unfold rowsLaw
      rw [Measure.pi_of_empty]
      congr 1
    rw [e]
    exact HasLaw.const I.P _
  | succ m ih =>
    rw [rowsLaw_succ]
    exact ih.bind (realRandn_meas I d m) (realNormals_law I d) (realNormals_meas I d)
      measurable_snocAny

/-! ## The part above the diagonal, transposed -/

/-- A lower triangular part from its first column and the rest. -/
def consMat {n : ℕ} (r : Fin n → ℝ) (M : Fin n → Fin n → ℝ) : Fin (n + 1) → Fin (n + 1) → ℝ :=
  fun i j => Fin.cases 0 (fun i => Fin.cases (r i) (fun j => M i j) j) i

theorem measurable_consMat {n : ℕ} :
    Measurable fun p : (Fin n → ℝ) × (Fin n → Fin n → ℝ) => consMat p.1 p.2 := by
  refine measurable_pi_iff.2 fun i => measurable_pi_iff.2 fun j => ?_
  unfold consMat
  refine Fin.cases ?_ (fun i => ?_) i
  · simp
  · refine Fin.cases ?_ (fun j => ?_) j
    · simp only [Fin.cases_succ, Fin.cases_zero]
      fun_prop
    · simp only [Fin.cases_succ]
      fun_prop

theorem consMat_snocMat {n : ℕ} (r : Fin n → ℝ) (t : ℝ) (M : Fin n → Fin n → ℝ) (q : Fin n → ℝ) :
    consMat (snocVec r t) (snocMat 0 M q) =
      snocMat 0 (consMat r M) (Fin.cons t q : Fin (n + 1) → ℝ) := by
  funext i j
  unfold consMat snocMat
  refine Fin.cases ?_ (fun i => ?_) i
  · refine Fin.lastCases ?_ (fun j => ?_) j
    · simp
    · simp only [Fin.cases_zero, Fin.lastCases_castSucc]
      rw [← Fin.castSucc_zero, Fin.lastCases_castSucc]
      simp
  · refine Fin.cases ?_ (fun j => ?_) j
    · simp only [Fin.cases_succ, Fin.cases_zero]
      rw [← Fin.castSucc_zero, Fin.lastCases_castSucc]
      refine Fin.lastCases ?_ (fun i => ?_) i
      · rw [Fin.succ_last, Fin.lastCases_last]; simp
      · rw [Fin.succ_castSucc, Fin.lastCases_castSucc]; simp
    · simp only [Fin.cases_succ]
      refine Fin.lastCases ?_ (fun j => ?_) j
      · rw [Fin.lastCases_last, Fin.succ_last, Fin.lastCases_last]
      · rw [Fin.succ_castSucc, Fin.lastCases_castSucc, Fin.lastCases_castSucc]
        refine Fin.lastCases ?_ (fun i => ?_) i
        · rw [Fin.lastCases_last, Fin.succ_last, Fin.lastCases_last]
          rw [Fin.cons_succ]
        · rw [Fin.lastCases_castSucc, Fin.succ_castSucc, Fin.lastCases_castSucc]
          simp

/-- Normal variables below the diagonal, drawn column by column. -/
noncomputable def upLaw : (n : ℕ) → Measure (Fin n → Fin n → ℝ)
  | 0 => Measure.dirac Fin.elim0
  | n + 1 => ((stdNormals n).prod (upLaw n)).map fun p => consMat p.1 p.2

instance upLaw_prob (n : ℕ) : IsProbabilityMeasure (upLaw n) := by
  induction n with
  | zero => unfold upLaw; infer_instance
  | succ n ih => exact Measure.isProbabilityMeasure_map measurable_consMat.aemeasurable

theorem measurable_consVec {n : ℕ} :
    Measurable fun p : ℝ × (Fin n → ℝ) => (Fin.cons p.1 p.2 : Fin (n + 1) → ℝ) := by
  refine measurable_pi_iff.2 fun i => ?_
  refine Fin.cases ?_ (fun i => ?_) i
  · simpa using measurable_fst
  · simpa [Function.comp_def] using (measurable_pi_apply i).comp measurable_snd

theorem lintegral_stdNormals_cons {n : ℕ} {f : (Fin (n + 1) → ℝ) → ENNReal} (hf : Measurable f) :
    ∫⁻ z, f z ∂stdNormals (n + 1) =
      ∫⁻ t, ∫⁻ q, f (Fin.cons t q : Fin (n + 1) → ℝ) ∂stdNormals n ∂gaussianReal 0 1 := by
  have h := (measurePreserving_piFinSuccAbove (fun _ : Fin (n + 1) => gaussianReal 0 1) 0).symm
  rw [← h.lintegral_comp hf, lintegral_prod]
  · simp only [MeasurableEquiv.piFinSuccAbove_symm_apply, Fin.insertNthEquiv,
      Equiv.coe_fn_mk, Fin.insertNth_zero']
  · exact (hf.comp (MeasurableEquiv.measurable _)).aemeasurable

theorem lintegral_lowLaw_succ {n : ℕ} {f : (Fin (n + 1) → Fin (n + 1) → ℝ) → ENNReal}
    (hf : Measurable f) : ∫⁻ M, f M ∂lowLaw (n + 1) =
      ∫⁻ M, ∫⁻ q, f (snocMat 0 M q) ∂stdNormals n ∂lowLaw n := by
  have h : Measurable fun p : (Fin n → Fin n → ℝ) × (Fin n → ℝ) => f (snocMat 0 p.1 p.2) :=
    hf.comp measurable_snocMat
  rw [lowLaw, lintegral_map hf measurable_snocMat, lintegral_prod _ h.aemeasurable]

theorem lintegral_upLaw_succ {n : ℕ} {f : (Fin (n + 1) → Fin (n + 1) → ℝ) → ENNReal}
    (hf : Measurable f) : ∫⁻ M, f M ∂upLaw (n + 1) =
      ∫⁻ r, ∫⁻ M, f (consMat r M) ∂upLaw n ∂stdNormals n := by
  have h : Measurable fun p : (Fin n → ℝ) × (Fin n → Fin n → ℝ) => f (consMat p.1 p.2) :=
    hf.comp measurable_consMat
  rw [upLaw, lintegral_map hf measurable_consMat, lintegral_prod _ h.aemeasurable]

theorem upLaw_one : upLaw 1 = lowLaw 1 := by
  refine Measure.ext_of_lintegral _ fun f hf => ?_
  rw [lintegral_lowLaw_succ (n := 0) hf, lintegral_upLaw_succ (n := 0) hf]
  have e : ∀ (r : Fin 0 → ℝ) (M : Fin 0 → Fin 0 → ℝ), f (consMat r M) = f 0 := by
    intro r M
    congr 1
    funext i j
    have hi : i = 0 := Fin.fin_one_eq_zero i
    subst hi; rfl
  have e' : ∀ (r : Fin 0 → ℝ) (M : Fin 0 → Fin 0 → ℝ), f (snocMat 0 M r) = f 0 := by
    intro r M
    congr 1
    funext i j
    have hj : j = Fin.last 0 := Fin.fin_one_eq_zero j
    subst hj
    unfold snocMat
    rw [Fin.lastCases_last]
    rfl
  simp only [e, e', lintegral_const, measure_univ, mul_one]

theorem upLaw_step {n : ℕ} (h0 : upLaw n = lowLaw n) (h1 : upLaw (n + 1) = lowLaw (n + 1)) :
    upLaw (n + 2) = lowLaw (n + 2) := by
  refine Measure.ext_of_lintegral _ fun f hf => ?_
  have hcons : Measurable fun p : (Fin (n + 1) → ℝ) × (Fin (n + 1) → Fin (n + 1) → ℝ) =>
      f (consMat p.1 p.2) := hf.comp measurable_consMat
  have hin : Measurable fun r : Fin (n + 1) → ℝ => ∫⁻ M, f (consMat r M) ∂lowLaw (n + 1) :=
    Measurable.lintegral_prod_right' hcons
  have hF : Measurable fun p : ((Fin n → ℝ) × (Fin n → Fin n → ℝ)) × (ℝ × (Fin n → ℝ)) =>
      f (snocMat 0 (consMat p.1.1 p.1.2) (Fin.cons p.2.1 p.2.2 : Fin (n + 1) → ℝ)) :=
    hf.comp (measurable_snocMat.comp ((measurable_consMat.comp measurable_fst).prodMk
      (measurable_consVec.comp measurable_snd)))
  rw [lintegral_upLaw_succ hf, h1, lintegral_lowLaw_succ hf]
  have e0 : ∫⁻ r, ∫⁻ M, f (consMat r M) ∂lowLaw (n + 1) ∂stdNormals (n + 1) =
      ∫⁻ r, ∫⁻ t, ∫⁻ M, f (consMat (snocVec r t) M) ∂lowLaw (n + 1) ∂gaussianReal 0 1
        ∂stdNormals n := lintegral_pi_snoc _ hin
  have e1 : ∀ (r : Fin n → ℝ) (t : ℝ),
      ∫⁻ M, f (consMat (snocVec r t) M) ∂lowLaw (n + 1) =
      ∫⁻ M, ∫⁻ q, f (snocMat 0 (consMat r M) (Fin.cons t q : Fin (n + 1) → ℝ))
        ∂stdNormals n ∂upLaw n := by
    intro r t
    have hc : Measurable fun M => f (consMat (snocVec r t) M) := hcons.comp measurable_prodMk_left
    rw [lintegral_lowLaw_succ hc, h0]
    simp only [consMat_snocMat]
  have hG : Measurable fun M : Fin (n + 1) → Fin (n + 1) → ℝ =>
      ∫⁻ q, f (snocMat 0 M q) ∂stdNormals (n + 1) :=
    Measurable.lintegral_prod_right' (hf.comp measurable_snocMat)
  rw [e0]
  simp only [e1]
  rw [← h1, lintegral_upLaw_succ hG]
  apply lintegral_congr
  intro r
  have hFr : Measurable fun p : ℝ × (Fin n → Fin n → ℝ) =>
      ∫⁻ q, f (snocMat 0 (consMat r p.2) (Fin.cons p.1 q : Fin (n + 1) → ℝ)) ∂stdNormals n := by
    have : Measurable fun z : (ℝ × (Fin n → Fin n → ℝ)) × (Fin n → ℝ) =>
        f (snocMat 0 (consMat r z.1.2) (Fin.cons z.1.1 z.2 : Fin (n + 1) → ℝ)) :=
      hF.comp ((measurable_const.prodMk (measurable_snd.comp measurable_fst)).prodMk
        ((measurable_fst.comp measurable_fst).prodMk measurable_snd))
    exact this.lintegral_prod_right'
  rw [lintegral_lintegral_swap hFr.aemeasurable]
  apply lintegral_congr
  intro M
  have hM : Measurable fun q => f (snocMat 0 (consMat r M) q) :=
    hf.comp (measurable_snocMat.comp measurable_prodMk_left)
  rw [lintegral_stdNormals_cons hM]

/-- Drawing the part below the diagonal by rows or by columns gives the same law. -/
theorem upLaw_eq (n : ℕ) : upLaw n = lowLaw n := by
  have h : upLaw n = lowLaw n ∧ upLaw (n + 1) = lowLaw (n + 1) := by
    induction n with
    | zero => exact ⟨rfl, upLaw_one⟩
    | succ n ih => exact ⟨ih.2, upLaw_step ih.1 ih.2⟩
  exact h.1

/-- The part above the diagonal drawn in sequence, transposed. -/
noncomputable def realUppers (I : IdealRng σ) : (n : ℕ) → σ → (Fin n → Fin n → ℝ) × σ
  | 0, s => (Fin.elim0, s)
  | n + 1, s =>
    (consMat (realNormals I n s).1 (realUppers I n (realNormals I n s).2).1,
      (realUppers I n (realNormals I n s).2).2)

theorem realUppers_meas (I : IdealRng σ) (n : ℕ) : Measurable (realUppers I n) := by
  induction n with
  | zero => exact measurable_const.prodMk measurable_id
  | succ n ih =>
    have h : Measurable fun s => realUppers I n (realNormals I n s).2 :=
      ih.comp (realNormals_meas I n).snd
    exact (measurable_consMat.comp ((realNormals_meas I n).fst.prodMk h.fst)).prodMk h.snd

theorem realUppers_law (I : IdealRng σ) (n : ℕ) : HasLaw I.P (realUppers I n) (lowLaw n) := by
  rw [← upLaw_eq]
  induction n with
  | zero => exact HasLaw.const I.P _
  | succ n ih =>
    exact (realNormals_law I n).bind (realNormals_meas I n) ih (realUppers_meas I n)
      measurable_consMat

end Dist
