import Mathlib.Data.Fintype.BigOperators
import Mathlib.Data.Fintype.Pi
import Mathlib.Algebra.BigOperators.Fin
import Mathlib.Analysis.SpecialFunctions.Exp
import Mathlib.Analysis.SpecialFunctions.Sqrt

/-!
# Draws from a finite distribution

`n` independent draws from the distribution `p` on `k` categories are a function `Fin n → Fin k`;
its probability is the product of the probabilities of the draws.
-/

namespace Dist.Spec

/-- The expectation of `f` over `n` independent draws from `p`. -/
noncomputable def drawsMean {k : ℕ} (p : Fin k → ℝ) (n : ℕ) (f : (Fin n → Fin k) → ℝ) : ℝ :=
  ∑ x : Fin n → Fin k, (∏ i, p (x i)) * f x

/-- How many of the draws are `j`. -/
def occurrences {k n : ℕ} (x : Fin n → Fin k) (j : Fin k) : ℕ :=
  (Finset.univ.filter fun i => x i = j).card

/-- The term of category `j` with `c` draws of `n` in the statistic of the code: the squared
deviation over the variance. -/
noncomputable def scaledDeviation (n : ℝ) (p c : ℝ) : ℝ := (c - n * p) ^ 2 / (n * p * (1 - p))

/-- The term in Pearson's statistic: the squared deviation over the mean. -/
noncomputable def pearsonTerm (n : ℝ) (p c : ℝ) : ℝ := (c - n * p) ^ 2 / (n * p)

/-- `n` sorted samples with densities `p` become `n - 1` numbers in `[0, 1)`: `1 - e^(-n g d)` for
the gap `g` between neighbours and the geometric mean `d` of their densities. -/
noncomputable def gapScores (n : ℝ) (s : List (ℝ × ℝ)) : List ℝ :=
  List.zipWith (fun a b => 1 - Real.exp (-(n * (b.1 - a.1) * Real.sqrt (a.2 * b.2)))) s s.tail

/-- Ordered by the sample, then by the density. -/
def sampleOrder (a b : ℝ × ℝ) : Prop := a.1 < b.1 ∨ a.1 = b.1 ∧ a.2 ≤ b.2

/-- The number of samples in the `b`-th of `B` equal parts of `[0, 1)`. -/
noncomputable def inPart (B : ℕ) (xs : List ℝ) (b : ℕ) : ℕ := by
  classical exact xs.countP fun x => decide ((b : ℝ) / B ≤ x ∧ x < (b + 1) / B)

end Dist.Spec
