import Verif.Model.SampleGroup
import Verif.Model.NIWSample

/-!
# `sample_group` of the normal-inverse-Wishart model
-/

namespace Dist

variable {F σ : Type} [FloatOps F] {d : Nat}

/-- `sample_group(shared, size)` (distributions/lp/models/_niw.pyx:90-102): the group is initialised,
the sampler draws mean and covariance once, and every value is drawn with them.  The conversion of a
value to an array copies its entries. -/
def NIW.sampleGroup (lvl : Nat) (e : NIW.Eigen F) (rng : Rng F σ) (s : σ) (sh : NIW.Shared F d)
    (size : Int) : Res (List (NIW.Vec F d) × σ) := do
  let size ← Hp.cInt size
  let g ← NIW.Group.init lvl
  let (p, s) ← NIW.Sampler.init lvl e rng s sh g
  sampleLoop (fun s => NIW.Sampler.eval e rng s p) size.toNat s

end Dist
