import Verif.Model.Mixture

/-! # Beta-Negative-Binomial (include/distributions/models/bnb.hpp)

`count`, `sum`, `r` and values are `uint32_t`. -/

namespace Dist.BNB

open FloatOps FloatNotation

/-- `Shared` (bnb.hpp:52-86). -/
structure Shared (F : Type) where
  alpha : F
  beta : F
  r : UInt32

/-- `Group` (bnb.hpp:89-175). -/
structure Group where
  count : UInt32
  sum : UInt32
deriving DecidableEq

namespace Group

/-- `Group::init` (bnb.hpp:105-108). -/
def init : Group := ⟨0, 0⟩

/-- `Group::add_value` (bnb.hpp:110-116). -/
def addValue (g : Group) (value : UInt32) : Group := ⟨g.count + 1, g.sum + value⟩

/-- `Group::add_repeated_value` (bnb.hpp:118-125). -/
def addRepeatedValue (g : Group) (value : UInt32) (count : Int) : Group :=
  ⟨g.count + UInt32.ofInt count, g.sum + UInt32.ofInt count * value⟩

/-- `Group::remove_value` (bnb.hpp:127-133). -/
def removeValue (g : Group) (value : UInt32) : Group := ⟨g.count - 1, g.sum - value⟩

/-- `Group::merge` (bnb.hpp:135-141). -/
def merge (g source : Group) : Group := ⟨g.count + source.count, g.sum + source.sum⟩

end Group

variable {F : Type} [FloatOps F]

/-- Conversion of a `uint32_t` to float. -/
def u32 (n : UInt32) : F := ofInt (n.toNat : Int)

/-- `Shared::plus_group` (bnb.hpp:57-63). -/
def Shared.plusGroup (sh : Shared F) (g : Group) : Shared F :=
  ⟨sh.alpha + u32 sh.r * u32 g.count, sh.beta + u32 g.sum, sh.r⟩

/-- `Group::score_value` (bnb.hpp:143-155). -/
def Group.scoreValue (sh : Shared F) (g : Group) (value : UInt32) : F :=
  let post := sh.plusGroup g
  let alpha := post.alpha + u32 sh.r
  let beta := post.beta + u32 value
  let score := lgamma (post.alpha + post.beta) - lgamma (alpha + beta)
  let score := score + (lgamma alpha - lgamma post.alpha)
  score + (lgamma beta - lgamma post.beta)

/-- `Group::score_data` (bnb.hpp:157-166). -/
def Group.scoreData (sh : Shared F) (g : Group) : F :=
  let post := sh.plusGroup g
  let score := lgamma (sh.alpha + sh.beta) - lgamma (post.alpha + post.beta)
  let score := score + (lgamma post.alpha - lgamma sh.alpha)
  score + (lgamma post.beta - lgamma sh.beta)

/-- `Group::sample_value` (bnb.hpp:168-174) with `Sampler` (bnb.hpp:177-193). -/
def Group.sampleValue {σ : Type} (rng : Rng F σ) (s : σ) (sh : Shared F) (g : Group) :
    Int × σ :=
  let post := sh.plusGroup g
  let (p, s) := sampleBeta rng s post.alpha post.beta
  rng.negBinomial s p sh.r.toNat

/-- `Scorer` (bnb.hpp:195-220). -/
structure Scorer (F : Type) where
  score : F
  postBeta : F
  alpha : F

/-- `Scorer::init` (bnb.hpp:200-211). -/
def Scorer.init (sh : Shared F) (g : Group) : Scorer F :=
  let post := sh.plusGroup g
  let alpha := post.alpha + u32 sh.r
  ⟨lgamma (post.alpha + post.beta) - lgamma post.alpha - lgamma post.beta + lgamma alpha,
    post.beta, alpha⟩

/-- `Scorer::eval` (bnb.hpp:213-219). -/
def Scorer.eval (s : Scorer F) (value : UInt32) : F :=
  let beta := s.postBeta + u32 value
  s.score + lgamma beta - lgamma (s.alpha + beta)

/-- `MixtureDataScorer::score_data` (bnb.hpp:224-242). -/
def scoreData (sh : Shared F) (gs : List Group) : F :=
  let sharedPart := lgamma (sh.alpha + sh.beta) - lgamma sh.alpha - lgamma sh.beta
  gs.foldl (fun score g =>
    if g.count ≠ 0 then
      let post := sh.plusGroup g
      let score := score +
        (lgamma post.alpha + lgamma post.beta - lgamma (post.alpha + post.beta))
      score + sharedPart
    else score) (ofInt 0)

/-- State of `MixtureValueScorer` (bnb.hpp:245-341). -/
structure Cache (F : Type) where
  score : List F
  postBeta : List F
  alpha : List F

/-- `MixtureValueScorer::update_group` (bnb.hpp:264-275). -/
def updateGroup (sh : Shared F) (c : Cache F) (groupid : Nat) (g : Group) : Res (Cache F) := do
  let base := Scorer.init sh g
  let a ← setAt c.score groupid base.score
  let b ← setAt c.postBeta groupid base.postBeta
  let d ← setAt c.alpha groupid base.alpha
  return ⟨a, b, d⟩

/-- Loop of `MixtureValueScorer::update_all` (bnb.hpp:295-303). -/
def updateAllLoop (sh : Shared F) : Cache F → Nat → List Group → Res (Cache F)
  | c, _, [] => .ok c
  | c, i, g :: gs => do
    let c ← updateGroup sh c i g
    updateAllLoop sh c (i + 1) gs

/-- `MixtureValueScorer` (bnb.hpp:245-341). -/
def valueScorer (lvl : Nat) (sh : Shared F) : ValueScorerOps (Cache F) Group UInt32 F where
  -- bnb.hpp:246-250
  resize c n := .ok ⟨resizeWith c.score n (ofInt 0), resizeWith c.postBeta n (ofInt 0),
    resizeWith c.alpha n (ofInt 0)⟩
  -- bnb.hpp:252-256
  addGroup c := .ok ⟨packedAdd c.score (ofInt 0), packedAdd c.postBeta (ofInt 0),
    packedAdd c.alpha (ofInt 0)⟩
  -- bnb.hpp:258-262
  removeGroup c groupid := do
    let a ← packedRemove lvl c.score groupid
    let b ← packedRemove lvl c.postBeta groupid
    let d ← packedRemove lvl c.alpha groupid
    return ⟨a, b, d⟩
  updateGroup := updateGroup sh
  -- bnb.hpp:277-284
  addValue c groupid g _ := updateGroup sh c groupid g
  -- bnb.hpp:286-293
  removeValue c groupid g _ := updateGroup sh c groupid g
  -- bnb.hpp:295-303
  updateAll c gs := updateAllLoop sh c 0 gs
  -- bnb.hpp:305-314
  scoreValueGroup c _ groupid value := do
    let b ← getAt c.postBeta groupid
    let beta := b + u32 value
    let a ← getAt c.score groupid
    let d ← getAt c.alpha groupid
    return a + lgamma beta - lgamma (beta + d)
  -- bnb.hpp:316-327
  scoreValue c _ value accum :=
    accumulate (fun i => do
      let b ← getAt c.postBeta i
      let beta := b + u32 value
      let a ← getAt c.score i
      let d ← getAt c.alpha i
      return a + lgamma beta - lgamma (beta + d)) 0 accum

/-- The group operations as used by `MixtureSlave`. -/
def ops : GroupOps Group UInt32 :=
  ⟨Group.init, fun g v => .ok (g.addValue v), fun g v => .ok (g.removeValue v)⟩

end Dist.BNB
