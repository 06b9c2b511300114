import Verif.Model.DPD

/-! # `DirichletProcessDiscrete::Shared::EXAMPLE` -/

namespace Dist.DPD.Shared

open FloatOps FloatNotation

variable {F : Type} [FloatOps F]

/-- The loop of `EXAMPLE` (dpd.hpp:147-150) for the remaining values. -/
def exampleLoop (lvl : Nat) (dim : Nat) : List Nat → Shared F → Res (Shared F)
  | [], sh => .ok sh
  | i :: is, sh => do
    let betas ← Sparse.add lvl sh.betas (UInt32.ofNat i) (lit 1 1 / ofInt (dim : Int))
    let (_, counts) ← sh.counts.add (UInt32.ofNat i) 1
    exampleLoop lvl dim is { sh with betas := betas, counts := counts }

/-- `EXAMPLE()` (dpd.hpp:141-152).  `Shared shared;` leaves the counter as its implicit
constructor does. -/
def EXAMPLE (lvl : Nat) : Res (Shared F) :=
  exampleLoop lvl 100 (List.range 100)
    ⟨lit 1 1 / ofInt 100, lit 1 2, lit 0 1, FMap.empty, SparseCounter.raw⟩

end Dist.DPD.Shared
