import Verif.Model.Mixture

/-! # Gamma-Poisson (include/distributions/models/gp.hpp, src/models/gp.cc)

`count`, `sum` and values are `uint32_t`: arithmetic wraps around, as in `UInt32`. -/

namespace Dist.GP

open FloatOps FloatNotation

/-- `Shared` (gp.hpp:52-81). -/
structure Shared (F : Type) where
  alpha : F
  invBeta : F

/-- `Group` (gp.hpp:84-173). -/
structure Group (F : Type) where
  count : UInt32
  sum : UInt32
  logProd : F

variable {F : Type} [FloatOps F]

/-- Conversion of a `uint32_t` to float. -/
def u32 (n : UInt32) : F := ofInt (n.toNat : Int)

/-- `fast_log_factorial(value)`. -/
def logFact (n : UInt32) : F := logFactorial n.toNat

/-- `Shared::plus_group` (gp.hpp:56-61). -/
def Shared.plusGroup (sh : Shared F) (g : Group F) : Shared F :=
  ⟨sh.alpha + u32 g.sum, sh.invBeta + u32 g.count⟩

namespace Group

/-- `Group::init` (gp.hpp:103-107). -/
def init : Group F := ⟨0, 0, lit 0 1⟩

/-- `Group::add_value` (gp.hpp:109-116). -/
def addValue (g : Group F) (value : UInt32) : Group F :=
  ⟨g.count + 1, g.sum + value, g.logProd + logFact value⟩

/-- `Group::add_repeated_value` (gp.hpp:118-126): `count` is an `int`, converted to
`uint32_t` in the first two updates and to float in the third. -/
def addRepeatedValue (g : Group F) (value : UInt32) (count : Int) : Group F :=
  ⟨g.count + UInt32.ofInt count, g.sum + UInt32.ofInt count * value,
    g.logProd + ofInt count * logFact value⟩

/-- `Group::remove_value` (gp.hpp:128-135). -/
def removeValue (g : Group F) (value : UInt32) : Group F :=
  ⟨g.count - 1, g.sum - value, g.logProd - logFact value⟩

/-- `Group::merge` (gp.hpp:137-144). -/
def merge (g source : Group F) : Group F :=
  ⟨g.count + source.count, g.sum + source.sum, g.logProd + source.logProd⟩

/-- `Group::score_data` (gp.hpp:155-164). -/
def scoreData (sh : Shared F) (g : Group F) : F :=
  let post := sh.plusGroup g
  let score := lgamma post.alpha - lgamma sh.alpha
  let score := score + (sh.alpha * log sh.invBeta - post.alpha * log post.invBeta)
  score + -g.logProd

end Group

/-- `Scorer` (gp.hpp:193-218). -/
structure Scorer (F : Type) where
  score : F
  postAlpha : F
  scoreCoeff : F

/-- `Scorer::init` (gp.hpp:198-207). -/
def Scorer.init (sh : Shared F) (g : Group F) : Scorer F :=
  let post := sh.plusGroup g
  let scoreCoeff := -log (lit 1 1 + post.invBeta)
  ⟨-lgamma post.alpha + post.alpha * (log post.invBeta + scoreCoeff), post.alpha, scoreCoeff⟩

/-- `Scorer::eval` (gp.hpp:209-217). -/
def Scorer.eval (s : Scorer F) (value : UInt32) : F :=
  s.score + lgamma (s.postAlpha + u32 value) - logFact value + s.scoreCoeff * u32 value

/-- `Group::score_value` (gp.hpp:146-153). -/
def Group.scoreValue (sh : Shared F) (g : Group F) (value : UInt32) : F :=
  (Scorer.init sh g).eval value

/-- `Group::sample_value` (gp.hpp:166-172) with `Sampler` (gp.hpp:175-191). -/
def Group.sampleValue {σ : Type} (rng : Rng F σ) (s : σ) (sh : Shared F) (g : Group F) :
    Int × σ :=
  let post := sh.plusGroup g
  let (mean, s) := rng.gamma s post.alpha (lit 1 1 / post.invBeta)
  rng.poisson s mean

/-- `MixtureDataScorer::score_data` (gp.hpp:222-240). -/
def scoreData (sh : Shared F) (gs : List (Group F)) : F :=
  let alphaPart := lgamma sh.alpha
  let betaPart := sh.alpha * log sh.invBeta
  gs.foldl (fun score g =>
    if g.count ≠ 0 then
      let post := sh.plusGroup g
      let score := score + (lgamma post.alpha - alphaPart)
      let score := score + (betaPart - post.alpha * log post.invBeta)
      score + -g.logProd
    else score) (ofInt 0)

/-- State of `MixtureValueScorer` (gp.hpp:243-334). -/
structure Cache (F : Type) where
  score : List F
  postAlpha : List F
  scoreCoeff : List F

/-- `MixtureValueScorer::update_group` (gp.hpp:262-273). -/
def updateGroup (sh : Shared F) (c : Cache F) (groupid : Nat) (g : Group F) : Res (Cache F) := do
  let base := Scorer.init sh g
  let a ← setAt c.score groupid base.score
  let b ← setAt c.postAlpha groupid base.postAlpha
  let d ← setAt c.scoreCoeff groupid base.scoreCoeff
  return ⟨a, b, d⟩

/-- Loop of `MixtureValueScorer::update_all` (gp.hpp:293-301). -/
def updateAllLoop (sh : Shared F) : Cache F → Nat → List (Group F) → Res (Cache F)
  | c, _, [] => .ok c
  | c, i, g :: gs => do
    let c ← updateGroup sh c i g
    updateAllLoop sh c (i + 1) gs

/-- `MixtureValueScorer` (gp.hpp:243-334). -/
def valueScorer (lvl : Nat) (sh : Shared F) : ValueScorerOps (Cache F) (Group F) UInt32 F where
  -- gp.hpp:244-248
  resize c n := .ok ⟨resizeWith c.score n (ofInt 0), resizeWith c.postAlpha n (ofInt 0),
    resizeWith c.scoreCoeff n (ofInt 0)⟩
  -- gp.hpp:250-254
  addGroup c := .ok ⟨packedAdd c.score (ofInt 0), packedAdd c.postAlpha (ofInt 0),
    packedAdd c.scoreCoeff (ofInt 0)⟩
  -- gp.hpp:256-260
  removeGroup c groupid := do
    let a ← packedRemove lvl c.score groupid
    let b ← packedRemove lvl c.postAlpha groupid
    let d ← packedRemove lvl c.scoreCoeff groupid
    return ⟨a, b, d⟩
  updateGroup := updateGroup sh
  -- gp.hpp:275-282
  addValue c groupid g _ := updateGroup sh c groupid g
  -- gp.hpp:284-291
  removeValue c groupid g _ := updateGroup sh c groupid g
  -- gp.hpp:293-301
  updateAll c gs := updateAllLoop sh c 0 gs
  -- gp.hpp:303-313
  scoreValueGroup c _ groupid value := do
    let a ← getAt c.score groupid
    let b ← getAt c.postAlpha groupid
    let d ← getAt c.scoreCoeff groupid
    return a + lgamma (b + u32 value) - logFact value + d * u32 value
  -- src/models/gp.cc:32-67; the first loop fills `temp`, the second accumulates
  scoreValue c _ value accum := do
    let logFactorialValue : F := logFact value
    let temp ← (List.range accum.length).mapM fun i => do
      let b ← getAt c.postAlpha i
      return lgamma (b + u32 value)
    accumulate (fun i => do
      let a ← getAt c.score i
      let t ← getAt temp i
      let d ← getAt c.scoreCoeff i
      return a + t - logFactorialValue + d * u32 value) 0 accum

/-- The group operations as used by `MixtureSlave`. -/
def ops : GroupOps (Group F) UInt32 :=
  ⟨Group.init, fun g v => .ok (g.addValue v), fun g v => .ok (g.removeValue v)⟩

end Dist.GP
