import Verif.Model.Mixture

/-! # Beta-Bernoulli (include/distributions/models/bb.hpp) -/

namespace Dist.BB

open FloatOps FloatNotation

/-- `Shared` (bb.hpp:54-76). -/
structure Shared (F : Type) where
  alpha : F
  beta : F

/-- `Group` (bb.hpp:79-161); `count_t = int`. -/
structure Group where
  heads : Int
  tails : Int
deriving DecidableEq, Repr

namespace Group

/-- `Group::init` (bb.hpp:95-100). -/
def init : Group := ⟨0, 0⟩

/-- `Group::add_repeated_value` (bb.hpp:109-115). -/
def addRepeatedValue (g : Group) (value : Bool) (count : Int) : Res Group := do
  if value then
    let h ← i32 (g.heads + count)
    return { g with heads := h }
  else
    let t ← i32 (g.tails + count)
    return { g with tails := t }

/-- `Group::add_value` (bb.hpp:102-107). -/
def addValue (g : Group) (value : Bool) : Res Group := do
  if value then
    let h ← i32 (g.heads + 1)
    return { g with heads := h }
  else
    let t ← i32 (g.tails + 1)
    return { g with tails := t }

/-- `Group::remove_value` (bb.hpp:117-122). -/
def removeValue (g : Group) (value : Bool) : Res Group := do
  if value then
    let h ← i32 (g.heads - 1)
    return { g with heads := h }
  else
    let t ← i32 (g.tails - 1)
    return { g with tails := t }

/-- `Group::merge` (bb.hpp:124-130). -/
def merge (g source : Group) : Res Group := do
  let h ← i32 (g.heads + source.heads)
  let t ← i32 (g.tails + source.tails)
  return ⟨h, t⟩

end Group

variable {F : Type} [FloatOps F]

/-- `Scorer` (bb.hpp:185-205). -/
structure Scorer (F : Type) where
  headsScore : F
  tailsScore : F

/-- `Scorer::init` (bb.hpp:189-197). -/
def Scorer.init (sh : Shared F) (g : Group) : Scorer F :=
  let alpha := sh.alpha + ofInt g.heads
  let beta := sh.beta + ofInt g.tails
  ⟨log (alpha / (alpha + beta)), log (beta / (alpha + beta))⟩

/-- `Scorer::eval` (bb.hpp:199-204). -/
def Scorer.eval (s : Scorer F) (value : Bool) : F :=
  if value then s.headsScore else s.tailsScore

/-- `Group::score_value` (bb.hpp:132-139). -/
def Group.scoreValue (sh : Shared F) (g : Group) (value : Bool) : F :=
  (Scorer.init sh g).eval value

/-- `Group::score_data` (bb.hpp:141-152). -/
def Group.scoreData (sh : Shared F) (g : Group) : F :=
  let alpha := sh.alpha + ofInt g.heads
  let beta := sh.beta + ofInt g.tails
  let score := ofInt 0
  let score := score + (lgamma alpha - lgamma sh.alpha)
  let score := score + (lgamma beta - lgamma sh.beta)
  score + (lgamma (sh.alpha + sh.beta) - lgamma (alpha + beta))

/-- `Sampler::init` (bb.hpp:166-176): the probability of heads. -/
def samplerInit {σ : Type} (rng : Rng F σ) (s : σ) (sh : Shared F) (g : Group) : Res (F × σ) := do
  let (ps, s) := sampleDirichlet rng s [sh.alpha + ofInt g.heads, sh.beta + ofInt g.tails]
  let p ← getAt ps 0
  return (p, s)

/-- `Group::sample_value` (bb.hpp:154-160) with `Sampler::eval` (bb.hpp:178-182). -/
def Group.sampleValue {σ : Type} (rng : Rng F σ) (s : σ) (sh : Shared F) (g : Group) :
    Res (Bool × σ) := do
  let (p, s) ← samplerInit rng s sh g
  return sampleBernoulli rng s p

/-- `MixtureDataScorer::score_data` (bb.hpp:209-228). -/
def scoreData (sh : Shared F) (gs : List Group) : F :=
  let sharedPart := lgamma (sh.alpha + sh.beta) - lgamma sh.alpha - lgamma sh.beta
  gs.foldl (fun score g =>
    let alpha := sh.alpha + ofInt g.heads
    let beta := sh.beta + ofInt g.tails
    let groupPart := lgamma alpha + lgamma beta - lgamma (alpha + beta)
    score + (sharedPart + groupPart)) (ofInt 0)

/-- State of `MixtureValueScorer` (bb.hpp:231-325). -/
structure Cache (F : Type) where
  heads : List F
  tails : List F

/-- `MixtureValueScorer::update_group` (bb.hpp:247-256). -/
def updateGroup (sh : Shared F) (c : Cache F) (groupid : Nat) (g : Group) : Res (Cache F) := do
  let s := Scorer.init sh g
  let h ← setAt c.heads groupid s.headsScore
  let t ← setAt c.tails groupid s.tailsScore
  return ⟨h, t⟩

/-- `MixtureValueScorer` (bb.hpp:231-325).  `vector_log` is `fast_log` element by
element (src/vector_math.cc:241-255 without MKL). -/
def valueScorer (lvl : Nat) (sh : Shared F) : ValueScorerOps (Cache F) Group Bool F where
  -- bb.hpp:232-235
  resize c size := .ok ⟨resizeWith c.heads size (ofInt 0), resizeWith c.tails size (ofInt 0)⟩
  -- bb.hpp:237-240
  addGroup c := .ok ⟨packedAdd c.heads (ofInt 0), packedAdd c.tails (ofInt 0)⟩
  -- bb.hpp:242-245
  removeGroup c groupid := do
    let h ← packedRemove lvl c.heads groupid
    let t ← packedRemove lvl c.tails groupid
    return ⟨h, t⟩
  updateGroup := updateGroup sh
  -- bb.hpp:258-265
  addValue c groupid g _ := updateGroup sh c groupid g
  -- bb.hpp:267-274
  removeValue c groupid g _ := updateGroup sh c groupid g
  -- bb.hpp:276-292
  updateAll _ gs := .ok
    ⟨gs.map fun g =>
        let heads := sh.alpha + ofInt g.heads
        let tails := sh.beta + ofInt g.tails
        log (heads / (heads + tails)),
      gs.map fun g =>
        let heads := sh.alpha + ofInt g.heads
        let tails := sh.beta + ofInt g.tails
        log (tails / (heads + tails))⟩
  -- bb.hpp:294-301
  scoreValueGroup c _ groupid value :=
    if value then getAt c.heads groupid else getAt c.tails groupid
  -- bb.hpp:303-313
  scoreValue c _ value accum := vectorAdd accum (if value then c.heads else c.tails)

/-- The group operations as used by `MixtureSlave` (mixture.hpp:188-215). -/
def ops : GroupOps Group Bool := ⟨Group.init, Group.addValue, Group.removeValue⟩

end Dist.BB
