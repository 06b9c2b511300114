import Verif.Model.Mixture

/-! # Normal-Inverse-ChiSq (include/distributions/models/nich.hpp, src/models/nich.cc) -/

namespace Dist.NICH

open FloatOps FloatNotation

/-- `Shared` (nich.hpp:52-95). -/
structure Shared (F : Type) where
  mu : F
  kappa : F
  sigmasq : F
  nu : F

/-- `Group` (nich.hpp:98-211); `count` is an `int`. -/
structure Group (F : Type) where
  count : Int
  mean : F
  countTimesVariance : F

variable {F : Type} [FloatOps F]

/-- `sqr(x)` (special.hpp:42-44). -/
def sqr (x : F) : F := x * x

/-- `Shared::plus_group` (nich.hpp:58-69). -/
def Shared.plusGroup (sh : Shared F) (g : Group F) : Shared F :=
  let n : F := ofInt g.count
  let mu1 := sh.mu - g.mean
  let kappa := sh.kappa + n
  let mu := (sh.kappa * sh.mu + g.mean * n) / kappa
  let nu := sh.nu + n
  let sigmasq := lit 1 1 / nu *
    (sh.nu * sh.sigmasq + g.countTimesVariance + (n * sh.kappa * mu1 * mu1) / kappa)
  ⟨mu, kappa, sigmasq, nu⟩

namespace Group

/-- `Group::init` (nich.hpp:117-123). -/
def init : Group F := ⟨0, lit 0 1, lit 0 1⟩

/-- `Group::add_value` (nich.hpp:125-133). -/
def addValue (g : Group F) (value : F) : Res (Group F) := do
  let count ← i32 (g.count + 1)
  let delta := value - g.mean
  let mean := g.mean + delta / ofInt count
  let ctv := g.countTimesVariance + delta * (value - mean)
  return ⟨count, mean, ctv⟩

/-- `Group::add_repeated_value` (nich.hpp:135-144). -/
def addRepeatedValue (g : Group F) (value : F) (count : Int) : Res (Group F) := do
  let total ← i32 (g.count + count)
  let delta := ofInt count * value - g.mean
  let mean := g.mean + delta / ofInt total
  let ctv := g.countTimesVariance + delta * (value - mean)
  return ⟨total, mean, ctv⟩

/-- `Group::remove_value` (nich.hpp:146-165); the assertion is unconditional. -/
def removeValue (g : Group F) (value : F) : Res (Group F) := do
  let total := g.mean * ofInt g.count
  let delta := value - g.mean
  distAssert0 (0 < g.count)
  let count := g.count - 1
  let mean := if count = 0 then lit 0 1 else (total - value) / ofInt count
  let ctv := if count ≤ 1 then lit 0 1 else g.countTimesVariance - delta * (value - mean)
  return ⟨count, mean, ctv⟩

/-- `Group::merge` (nich.hpp:167-179). -/
def merge (g source : Group F) : Res (Group F) := do
  let totalCount ← i32 (g.count + source.count)
  let delta := source.mean - g.mean
  let sourcePart := ofInt source.count / ofInt totalCount
  let crossPart := ofInt g.count * sourcePart
  let mean := g.mean + sourcePart * delta
  let ctv := g.countTimesVariance + (source.countTimesVariance + crossPart * sqr delta)
  return ⟨totalCount, mean, ctv⟩

/-- `Group::score_data` (nich.hpp:190-202). -/
def scoreData (sh : Shared F) (g : Group F) : F :=
  let half : F := lit 1 2
  let post := sh.plusGroup g
  let score := lgamma (half * post.nu) - lgamma (half * sh.nu)
  let score := score + half * log (sh.kappa / post.kappa)
  let score := score + (half * sh.nu * log (sh.nu * sh.sigmasq)
    - half * post.nu * log (post.nu * post.sigmasq))
  score + -half * ofInt g.count * logPi

end Group

/-- `Scorer` (nich.hpp:233-260). -/
structure Scorer (F : Type) where
  score : F
  logCoeff : F
  precision : F
  mean : F

/-- `Scorer::init` (nich.hpp:239-250). -/
def Scorer.init (sh : Shared F) (g : Group F) : Scorer F :=
  let half : F := lit 1 2
  let post := sh.plusGroup g
  let lambda := post.kappa / ((post.kappa + lit 1 1) * post.sigmasq)
  ⟨lgammaNu post.nu + half * log (lambda / (FloatOps.pi * post.nu)),
    -half * post.nu - half, lambda / post.nu, post.mu⟩

/-- `Scorer::eval` (nich.hpp:252-259). -/
def Scorer.eval (s : Scorer F) (value : F) : F :=
  s.score + s.logCoeff * log (lit 1 1 + s.precision * sqr (value - s.mean))

/-- `Group::score_value` (nich.hpp:181-188). -/
def Group.scoreValue (sh : Shared F) (g : Group F) (value : F) : F :=
  (Scorer.init sh g).eval value

/-- `Group::sample_value` (nich.hpp:204-210) with `Sampler` (nich.hpp:213-231). -/
def Group.sampleValue {σ : Type} (rng : Rng F σ) (s : σ) (sh : Shared F) (g : Group F) : F × σ :=
  let post := sh.plusGroup g
  let (c, s) := rng.chisq s post.nu
  let sigmasq := post.nu * post.sigmasq / c
  let (mu, s) := sampleNormal rng s post.mu (sigmasq / post.kappa)
  sampleNormal rng s mu sigmasq

/-- `MixtureDataScorer::score_data` (nich.hpp:264-287). -/
def scoreData (sh : Shared F) (gs : List (Group F)) : F :=
  let half : F := lit 1 2
  let nuPart := lgamma (half * sh.nu)
  let kappaPart := half * log sh.kappa
  let sigmasqPart := half * sh.nu * log (sh.nu * sh.sigmasq)
  gs.foldl (fun score g =>
    if g.count ≠ 0 then
      let post := sh.plusGroup g
      let score := score + (lgamma (half * post.nu) - nuPart)
      let score := score + (kappaPart - half * log post.kappa)
      let score := score + (sigmasqPart - half * post.nu * log (post.nu * post.sigmasq))
      score + -half * logPi * ofInt g.count
    else score) (ofInt 0)

/-- State of `MixtureValueScorer` (nich.hpp:290-385). -/
structure Cache (F : Type) where
  score : List F
  logCoeff : List F
  precision : List F
  mean : List F

/-- `MixtureValueScorer::update_group` (nich.hpp:312-324). -/
def updateGroup (sh : Shared F) (c : Cache F) (groupid : Nat) (g : Group F) : Res (Cache F) := do
  let base := Scorer.init sh g
  let a ← setAt c.score groupid base.score
  let b ← setAt c.logCoeff groupid base.logCoeff
  let d ← setAt c.precision groupid base.precision
  let e ← setAt c.mean groupid base.mean
  return ⟨a, b, d, e⟩

/-- Loop of `MixtureValueScorer::update_all` (nich.hpp:344-352). -/
def updateAllLoop (sh : Shared F) : Cache F → Nat → List (Group F) → Res (Cache F)
  | c, _, [] => .ok c
  | c, i, g :: gs => do
    let c ← updateGroup sh c i g
    updateAllLoop sh c (i + 1) gs

/-- `MixtureValueScorer` (nich.hpp:290-385). -/
def valueScorer (lvl : Nat) (sh : Shared F) : ValueScorerOps (Cache F) (Group F) F F where
  -- nich.hpp:291-296
  resize c n := .ok ⟨resizeWith c.score n (ofInt 0), resizeWith c.logCoeff n (ofInt 0),
    resizeWith c.precision n (ofInt 0), resizeWith c.mean n (ofInt 0)⟩
  -- nich.hpp:298-303
  addGroup c := .ok ⟨packedAdd c.score (ofInt 0), packedAdd c.logCoeff (ofInt 0),
    packedAdd c.precision (ofInt 0), packedAdd c.mean (ofInt 0)⟩
  -- nich.hpp:305-310
  removeGroup c groupid := do
    let a ← packedRemove lvl c.score groupid
    let b ← packedRemove lvl c.logCoeff groupid
    let d ← packedRemove lvl c.precision groupid
    let e ← packedRemove lvl c.mean groupid
    return ⟨a, b, d, e⟩
  updateGroup := updateGroup sh
  -- nich.hpp:326-333
  addValue c groupid g _ := updateGroup sh c groupid g
  -- nich.hpp:335-342
  removeValue c groupid g _ := updateGroup sh c groupid g
  -- nich.hpp:344-352
  updateAll c gs := updateAllLoop sh c 0 gs
  -- nich.hpp:354-362
  scoreValueGroup c _ groupid value := do
    let d ← getAt c.precision groupid
    let e ← getAt c.mean groupid
    let temp := lit 1 1 + d * sqr (value - e)
    let a ← getAt c.score groupid
    let b ← getAt c.logCoeff groupid
    return a + b * log temp
  -- src/models/nich.cc:33-66 ("Version 1"): fill `temp`, take logs, accumulate
  scoreValue c _ value accum := do
    let temp ← (List.range accum.length).mapM fun i => do
      let d ← getAt c.precision i
      let e ← getAt c.mean i
      return lit 1 1 + d * sqr (value - e)
    let temp := temp.map log
    accumulate (fun i => do
      let a ← getAt c.score i
      let b ← getAt c.logCoeff i
      let t ← getAt temp i
      return a + b * t) 0 accum

/-- The group operations as used by `MixtureSlave`. -/
def ops : GroupOps (Group F) F := ⟨Group.init, Group.addValue, Group.removeValue⟩

end Dist.NICH
