import Verif.Model.BB
import Verif.Model.BNB
import Verif.Model.GP
import Verif.Model.NICH
import Verif.Model.NIW

/-! # The example parameters of the models

`Shared::EXAMPLE()` of every model but the Dirichlet process, which is in `Model/DPDExample`.  What an
object holds before it is assigned is a parameter where not all of it is. -/

namespace Dist.Examples

open FloatOps FloatNotation

variable {F : Type} [FloatOps F]

/-- `BetaBernoulli::Shared::EXAMPLE` (bb.hpp:70-75). -/
def bb : BB.Shared F := ⟨lit 1 2, lit 2 1⟩

/-- `BetaNegativeBinomial::Shared::EXAMPLE` (bnb.hpp:79-85). -/
def bnb : BNB.Shared F := ⟨lit 1 1, lit 1 1, 1⟩

/-- `GammaPoisson::Shared::EXAMPLE` (gp.hpp:75-80). -/
def gp : GP.Shared F := ⟨lit 1 1, lit 1 1⟩

/-- `NormalInverseChiSq::Shared::EXAMPLE` (nich.hpp:87-94). -/
def nich : NICH.Shared F := ⟨lit 0 1, lit 1 1, lit 1 1, lit 1 1⟩

/-- The loop of `DirichletDiscrete::Shared::EXAMPLE` (dd.hpp:81-83) with `n` entries to go. -/
def ddLoop : Nat → Nat → List F → Res (List F)
  | 0, _, alphas => .ok alphas
  | n + 1, i, alphas => do
    let alphas ← setAt alphas i (lit 1 2)
    ddLoop n (i + 1) alphas

/-- `DirichletDiscrete<max_dim>::Shared::EXAMPLE` (dd.hpp:78-85); `before` is what the array of
`max_dim` floats holds in a new object, and the result is `dim` and that array. -/
def dd (before : List F) : Res (Nat × List F) := do
  let maxDim := before.length
  let alphas ← ddLoop maxDim 0 before
  return (maxDim, alphas)

/-- `NormalInverseWishart<dim_>::Shared::EXAMPLE` (niw.hpp:160-170); `dim` is 3 where `dim_` is -1,
otherwise `dim_`. -/
def niw (dim : Nat) : NIW.Shared F dim :=
  ⟨fun _ => lit 0 1, lit 1 1, fun i j => if i = j then lit 1 1 else lit 0 1,
    ofInt (dim : Int) + ofInt 1⟩

end Dist.Examples
