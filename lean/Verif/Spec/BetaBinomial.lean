import Mathlib.Probability.Distributions.Beta
import Verif.Spec.IdealRng
import Verif.Model.BetaBinomial

/-! # The laws behind the beta-binomial script -/

namespace Dist.Spec

open MeasureTheory ProbabilityTheory

/-- The binomial probability of `k` heads in `n` tosses. -/
noncomputable def binomialProb (n k : ℕ) (p : ℝ) : ℝ := n.choose k * p ^ k * (1 - p) ^ (n - k)

/-- The binomial law. -/
noncomputable def binomialMeasure (n : ℕ) (p : ℝ) : Measure ℕ :=
  Measure.sum fun k => ENNReal.ofReal (if k ≤ n then binomialProb n k p else 0) • Measure.dirac k

/-- The beta-binomial probability of the counts `ks`, each of `N` tosses of the same coin, whose
probability of heads has a beta law. -/
noncomputable def betaBinomialProb (alpha beta : ℝ) (N : ℕ) (ks : List ℕ) : ENNReal :=
  ∫⁻ p, (ks.map fun k => ENNReal.ofReal (binomialProb N k p)).prod ∂betaMeasure alpha beta

/-- States of a generator with a probability, and draws with the laws numpy documents. -/
structure IdealBinomial (σ : Type) [MeasurableSpace σ] extends BetaBinom.Numpy σ where
  P : Measure σ
  prob : IsProbabilityMeasure P
  beta_meas : ∀ q, Measurable (beta q)
  binomial_meas : ∀ n, Measurable (binomial n)
  beta_law : ∀ a b : ℝ, 0 < a → 0 < b → HasLaw P (beta (a, b)) (betaMeasure a b)
  binomial_law : ∀ (n : ℕ) (p : ℝ), 0 ≤ p → p ≤ 1 →
    HasLaw P (fun s => binomial n (p, s)) (binomialMeasure n p)

end Dist.Spec
