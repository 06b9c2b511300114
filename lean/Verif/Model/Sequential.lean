import Verif.Model.Gibbs

/-! # Sequential initialisation (examples/mixture/main.py:190-210)

As in `Verif.Model.Gibbs`, input and output are left out and the sampler is a parameter. -/

namespace Dist.FullMixture

variable {R S G V F σ : Type} [FloatOps F]

/-- The loop of `compress_sequential` (examples/mixture/main.py:202-206). -/
def placeRows (lvl : Nat) (m : PitmanYor F) (draw : List F → σ → Res (Nat × σ)) :
    List R → FullMixture R S G V F → σ → Res (FullMixture R S G V F × σ)
  | [], w, s => .ok (w, s)
  | r :: rs, w, s => do
    let scores ← w.scoreValue lvl m r
    let (groupid, s) ← draw scores s
    let w ← w.addValue lvl m groupid r
    placeRows lvl m draw rs w s

/-- `compress_sequential()` (examples/mixture/main.py:190-210): the mixture it ends with.  `n` is
`empty_group_count`. -/
def compressSequential (lvl : Nat) (m : PitmanYor F) (draw : List F → σ → Res (Nat × σ))
    (fs : List (FeatureModel R S G V F)) (n : Nat) (samples : List R) (s : σ) :
    Res (FullMixture R S G V F × σ) := do
  let w ← (FullMixture.raw fs).init lvl m n
  placeRows lvl m draw samples w s

end Dist.FullMixture
