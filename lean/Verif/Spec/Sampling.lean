import Verif.Model.Scores
import Verif.Base.XR

/-! # Vocabulary for the sampling properties -/

namespace Dist.Spec

open FloatOps FloatNotation

variable {F σ : Type} [FloatOps F]

/-- The generator's next uniform draw is `u`, leaving state `s'`. -/
def Draws (rng : Rng F σ) (s : σ) (u : F) (s' : σ) : Prop := rng.unif01 s = (u, s')

/-- Sum of the first `i` entries. -/
noncomputable def cum (p : List ℝ) (i : Nat) : ℝ := (p.take i).sum

/-- The gamma draws made for the parameters in order: a nonpositive parameter makes no
draw and counts as 0. -/
def gammaDraws (rng : Rng F σ) : σ → List F → List F
  | _, [] => []
  | s, a :: as =>
    if lt (ofInt 0) a then (rng.gamma s a (lit 1 1)).1 ::
      gammaDraws rng (rng.gamma s a (lit 1 1)).2 as
    else ofInt 0 :: gammaDraws rng s as

/-- A generator whose uniform integers follow a script: state is the number of draws made. -/
def scripted (d : Nat → Int) : Rng XR Nat where
  unif01 n := (.nan, n)
  int n _ _ := (d n, n + 1)
  gamma n _ _ := (.nan, n)
  normal n _ _ := (.nan, n)
  chisq n _ := (.nan, n)
  poisson n _ := (0, n)
  negBinomial n _ _ := (0, n)

/-- `sample_int(low, high)` returns a number between its bounds. -/
def IntInBounds (rng : Rng F σ) : Prop :=
  ∀ s lo hi, lo ≤ hi → lo ≤ (rng.int s lo hi).1 ∧ (rng.int s lo hi).1 ≤ hi

end Dist.Spec
