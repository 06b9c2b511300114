import Mathlib.Probability.Distributions.Gamma
import Mathlib.Probability.Distributions.Poisson.Basic
import Mathlib.Probability.Distributions.Gaussian.Real
import Mathlib.MeasureTheory.Measure.Prod
import Verif.Base.XR
import Verif.Model.Random

/-!
# An ideal source of randomness

The C++ standard gives every `std::` distribution a law and treats the engine as a source of
independent draws.  An `IdealRng` is a probability measure on engine states together with
real-valued draws such that, for every admissible parameter, the value drawn has the law of the
standard and is independent of the state left behind, which is again a typical state.
-/

namespace Dist.Spec

open MeasureTheory ProbabilityTheory

/-- Negative binomial law of `std::negative_binomial_distribution(r, p)`:
`P(i) = C(r + i - 1, i) p^r (1 - p)^i`. -/
noncomputable def negBinomialMeasure (r : ℕ) (p : ℝ) : Measure ℕ :=
  Measure.sum fun i => ENNReal.ofReal ((r + i - 1).choose i * p ^ r * (1 - p) ^ i) • Measure.dirac i

/-- A draw `d` has law `μ` and leaves a fresh state. -/
def HasLaw {σ β : Type} [MeasurableSpace σ] [MeasurableSpace β] (P : Measure σ) (d : σ → β × σ)
    (μ : Measure β) : Prop := P.map d = μ.prod P

/-- Engine states with a probability, and draws with the laws the C++ standard gives them.  The
second parameter of the gamma distribution is a scale, that of the normal distribution a standard
deviation. -/
structure IdealRng (σ : Type) [MeasurableSpace σ] where
  P : Measure σ
  prob : IsProbabilityMeasure P
  unif : σ → ℝ × σ
  gamma : (ℝ × ℝ) × σ → ℝ × σ
  normal : (ℝ × ℝ) × σ → ℝ × σ
  chisq : ℝ × σ → ℝ × σ
  poisson : ℝ × σ → ℕ × σ
  negBinomial : ℕ → ℝ × σ → ℕ × σ
  unif_meas : Measurable unif
  gamma_meas : Measurable gamma
  normal_meas : Measurable normal
  chisq_meas : Measurable chisq
  poisson_meas : Measurable poisson
  negBinomial_meas : ∀ r, Measurable (negBinomial r)
  unif_law : HasLaw P unif (volume.restrict (Set.Ico 0 1))
  gamma_law : ∀ shape scale : ℝ, 0 < shape → 0 < scale →
    HasLaw P (fun s => gamma ((shape, scale), s)) (gammaMeasure shape (1 / scale))
  normal_law : ∀ mean stddev : ℝ, 0 < stddev →
    HasLaw P (fun s => normal ((mean, stddev), s)) (gaussianReal mean (stddev ^ 2).toNNReal)
  chisq_law : ∀ nu : ℝ, 0 < nu →
    HasLaw P (fun s => chisq (nu, s)) (gammaMeasure (nu / 2) (1 / 2))
  poisson_law : ∀ mean : ℝ, 0 < mean →
    HasLaw P (fun s => poisson (mean, s)) (poissonMeasure mean.toNNReal)
  negBinomial_law : ∀ (r : ℕ) (p : ℝ), 0 < r → 0 < p → p < 1 →
    HasLaw P (fun s => negBinomial r (p, s)) (negBinomialMeasure r p)

/-- The ideal source as the generator the model takes.  Parameters that are not numbers give a
value that is not a number (or 0). -/
noncomputable def IdealRng.toRng {σ : Type} [MeasurableSpace σ] (I : IdealRng σ) : Rng XR σ where
  unif01 s := (.fin (I.unif s).1, (I.unif s).2)
  int s lo _ := (lo, s)
  gamma s a b := match a, b with
    | .fin a, .fin b => (.fin (I.gamma ((a, b), s)).1, (I.gamma ((a, b), s)).2)
    | _, _ => (.nan, s)
  normal s a b := match a, b with
    | .fin a, .fin b => (.fin (I.normal ((a, b), s)).1, (I.normal ((a, b), s)).2)
    | _, _ => (.nan, s)
  chisq s a := match a with
    | .fin a => (.fin (I.chisq (a, s)).1, (I.chisq (a, s)).2)
    | _ => (.nan, s)
  poisson s a := match a with
    | .fin a => ((I.poisson (a, s)).1, (I.poisson (a, s)).2)
    | _ => (0, s)
  negBinomial s p r := match p with
    | .fin p => ((I.negBinomial r.toNat (p, s)).1, (I.negBinomial r.toNat (p, s)).2)
    | _ => (0, s)

end Dist.Spec
