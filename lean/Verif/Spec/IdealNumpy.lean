import Mathlib.Probability.Distributions.Beta
import Verif.Spec.IdealRng
import Verif.Spec.MvNormal
import Verif.Model.DbgRandom

/-!
# An ideal numpy

The laws the documentation of numpy and scipy gives to the draws the reference implementation makes,
in the form of `Spec.IdealRng`, and what their linear algebra is trusted to compute.
-/

namespace Dist.Spec

open MeasureTheory ProbabilityTheory Matrix

/-- A coin that shows `true` with probability `p`. -/
noncomputable def coinMeasure (p : ℝ) : Measure Bool :=
  ENNReal.ofReal p • Measure.dirac true + ENNReal.ofReal (1 - p) • Measure.dirac false

/-- The Dirichlet law: independent gamma variables divided by their sum. -/
noncomputable def dirichletMeasure {n : ℕ} (a : Fin n → ℝ) : Measure (Fin n → ℝ) :=
  (Measure.pi fun i => gammaMeasure (a i) 1).map fun x i => x i / ∑ k, x k

/-- Independent standard normal variables. -/
noncomputable def stdNormal (d : ℕ) : Measure (Fin d → ℝ) :=
  Measure.pi fun _ => gaussianReal 0 1

/-- Draws of `IdealRng` and the other draws of numpy.  Parameters that the reference
implementation draws at random itself (the probability of a coin, mean and covariance of a normal
vector) enter measurably.  A normal vector is `mean + T z` with `z` standard normal and
`T Tᵀ = cov`. -/
structure IdealNumpy (σ : Type) [MeasurableSpace σ] extends IdealRng σ where
  beta : ℝ × ℝ → σ → ℝ × σ
  dirichlet : {n : ℕ} → (Fin n → ℝ) → σ → (Fin n → ℝ) × σ
  coin : ℝ × σ → Bool × σ
  mvNormal : {d : ℕ} → ((Fin d → ℝ) × (Fin d → Fin d → ℝ)) × σ → (Fin d → ℝ) × σ
  permutation : (n : ℕ) → σ → Equiv.Perm (Fin n) × σ
  beta_meas : ∀ q, Measurable (beta q)
  dirichlet_meas : ∀ {n : ℕ} (a : Fin n → ℝ), Measurable (dirichlet a)
  coin_meas : Measurable coin
  mvNormal_meas : ∀ {d : ℕ}, Measurable (mvNormal (d := d))
  permutation_meas : ∀ n p, MeasurableSet {s | (permutation n s).1 = p}
  permutation_state_meas : ∀ n, Measurable fun s => (permutation n s).2
  beta_law : ∀ a b : ℝ, 0 < a → 0 < b → HasLaw P (beta (a, b)) (betaMeasure a b)
  dirichlet_law : ∀ {n : ℕ} (a : Fin n → ℝ), (∀ i, 0 < a i) →
    HasLaw P (dirichlet a) (dirichletMeasure a)
  coin_law : ∀ p : ℝ, 0 ≤ p → p ≤ 1 → HasLaw P (fun s => coin (p, s)) (coinMeasure p)
  mvNormal_law : ∀ {d : ℕ} (mean : Fin d → ℝ) (T : Matrix (Fin d) (Fin d) ℝ), T.det ≠ 0 →
    HasLaw P (fun s => mvNormal ((mean, fun i j => (T * Tᵀ) i j), s))
      ((stdNormal d).map fun z => mean + T *ᵥ z)
  permutation_law : ∀ (n : ℕ) (p : Equiv.Perm (Fin n)) (B : Set σ), MeasurableSet B →
    P {s | (permutation n s).1 = p ∧ (permutation n s).2 ∈ B} = P B / n.factorial

open Classical in
/-- The ideal numpy as the parameter the model takes.  Parameters that are not numbers give values
that are not numbers (or `false`, or none). -/
noncomputable def IdealNumpy.toNumpy {σ : Type} [MeasurableSpace σ] (I : IdealNumpy σ) :
    Dbg.Numpy XR σ where
  toRng := I.toRng
  beta s a b := match a, b with
    | .fin a, .fin b => (.fin (I.beta (a, b) s).1, (I.beta (a, b) s).2)
    | _, _ => (.nan, s)
  dirichlet s alphas :=
    if h : ∃ q : (n : ℕ) × (Fin n → ℝ), alphas = List.ofFn fun i => XR.fin (q.2 i) then
      (List.ofFn fun i => XR.fin ((I.dirichlet h.choose.2 s).1 i), (I.dirichlet h.choose.2 s).2)
    else ([], s)
  bernoulli s p := match p with
    | .fin p => I.coin (p, s)
    | _ => (false, s)
  mvNormal s mean cov :=
    if h : ∃ q : (Fin _ → ℝ) × (Fin _ → Fin _ → ℝ),
        mean = (fun i => XR.fin (q.1 i)) ∧ cov = fun i j => XR.fin (q.2 i j) then
      (fun i => .fin ((I.mvNormal (h.choose, s)).1 i), (I.mvNormal (h.choose, s)).2)
    else (fun _ => .nan, s)
  permutation s n := (List.ofFn fun i => ((I.permutation n s).1 i).val, (I.permutation n s).2)
  whole x := if h : ∃ n : ℕ, x = .fin n then some h.choose else none

/-- The linear algebra is exact: `cholesky` of a positive definite matrix gives its Cholesky factor,
`qr(x, 'r')` of a matrix of full column rank an upper triangular matrix without zeros on the
diagonal and with `Rᵀ R = xᵀ x`, and `solve_triangular(a, b, lower=True)` the solution `x` of
`a x = b` if `a` is lower triangular without zeros on the diagonal. -/
structure ExactNumpy (la : Dbg.NumpyLinAlg XR) : Prop extends ExactLinAlg la.toLinAlg where
  chol : ∀ {d : ℕ} (M : Matrix (Fin d) (Fin d) ℝ), M.PosDef →
    ∃ L : Matrix (Fin d) (Fin d) ℝ, (∀ i j, i < j → L i j = 0) ∧ (∀ i, 0 < L i i) ∧
      L * Lᵀ = M ∧ la.chol (fun i j => .fin (M i j)) = some fun i j => .fin (L i j)
  qrR : ∀ {m d : ℕ} (X : Matrix (Fin m) (Fin d) ℝ), (Xᵀ * X).det ≠ 0 →
    ∃ R : Matrix (Fin d) (Fin d) ℝ, (∀ i j, j < i → R i j = 0) ∧ (∀ i, R i i ≠ 0) ∧
      Rᵀ * R = Xᵀ * X ∧ la.qrR (fun i j => .fin (X i j)) = fun i j => .fin (R i j)
  solve : ∀ {d : ℕ} (A B : Matrix (Fin d) (Fin d) ℝ), (∀ i j, i < j → A i j = 0) →
    (∀ i, A i i ≠ 0) →
    la.solveLower (fun i j => .fin (A i j)) (fun i j => .fin (B i j)) =
      some fun i j => .fin ((A⁻¹ * B) i j)

end Dist.Spec
