import Verif.Model.Failure
import Verif.Model.Clustering
import Verif.Model.Scores
import Verif.Model.Random
import Verif.Model.PyMixture

/-! # Sampling functions and clusterings of the Python bindings

distributions/lp/random.pyx declares the C++ functions without `except +`: when a check
fails there, the C++ exception is not turned into a Python exception, no handler is found,
and the interpreter is terminated.  distributions/lp/clustering.pyx declares them with
`except +`, so a failed check is a Python exception.  The bindings are compiled at debug
level 3 with throwing checks (`pyLevel`). -/

namespace Dist.Py

open FloatOps FloatNotation

/-- What a call of a Python function does. -/
inductive Call (α : Type) where
  | value (a : α)
  | raises
  | terminates
  | undefined

/-- The outcome of a C++ function declared with `except +`, and of conversions. -/
def caught {α : Type} : Res α → Call α
  | .ok a => .value a
  | .fail => .raises
  | .ub => .undefined

/-- The outcome of a C++ function declared without `except +`. -/
def uncaught {α : Type} : Res α → Call α
  | .ok a => .value a
  | .fail => .terminates
  | .ub => .undefined

/-- Statements one after the other. -/
def Call.andThen {α β : Type} (x : Call α) (f : α → Call β) : Call β :=
  match x with
  | .value a => f a
  | .raises => .raises
  | .terminates => .terminates
  | .undefined => .undefined

variable {D F σ : Type} [FloatOps F]

/-! ## Sampling functions (distributions/lp/random.pyx)

The generator is the global one; its state is passed and returned.  A list of Python floats
becomes a `vector<float>`. -/

/-- `log_sum_exp(scores)` (random.pyx:83-85). -/
def logSumExp (c : Conv D F) (scores : List D) : Call D :=
  (uncaught (Dist.logSumExp (scores.map c.narrow))).andThen fun x => .value (c.widen x)

/-- `sample_prob_from_scores(scores)` (random.pyx:88-90). -/
def sampleProbFromScores (c : Conv D F) (rng : Rng F σ) (s : σ) (scores : List D) :
    Call ((Nat × D) × σ) :=
  (uncaught (sampleProbFromScoresOverwrite rng s (scores.map c.narrow))).andThen fun r =>
    .value ((r.1, c.widen r.2.1), r.2.2)

/-- `prob_from_scores(sample, scores)` (random.pyx:93-97): the score is a `float`, `exp` is
the C library's, in `double`, and its result is stored in a `float`. -/
def probFromScores (c : Conv D F) (exp : D → D) (rng : Rng F σ) (s : σ) (sample : Int)
    (scores : List D) : Call (D × σ) :=
  (caught (asInt sample)).andThen fun sample =>
    (uncaught (scoreFromScoresOverwrite rng s (toSize sample) (scores.map c.narrow))).andThen fun r =>
      .value (c.widen (c.narrow (exp (c.widen r.1))), r.2.2)

/-- `sample_pair_from_urn(urn)` (random.pyx:100-105): the urn holds references to the items. -/
def samplePairFromUrn {T : Type} (rng : Rng F σ) (s : σ) (urn : List T) : Call ((T × T) × σ) :=
  uncaught (Dist.samplePairFromUrn rng s urn)

/-- `sample_discrete(probs)` (random.pyx:108-111): reads `len` floats from the first item on,
whatever the stride.  All of them are read here; the C++ loop may stop earlier. -/
def sampleDiscrete (rng : Rng F σ) (s : σ) (probs : NdArray F) : Call (Nat × σ) :=
  (uncaught (fromNdarray probs)).andThen fun ps => uncaught (Dist.sampleDiscrete rng s ps)

/-! ## Clusterings (distributions/lp/clustering.pyx) -/

/-- Python integers to a C++ `vector<int>`: `OverflowError` when one does not fit. -/
def asInts : List Int → Res (List Int)
  | [] => .ok []
  | z :: zs => do
    let z ← asInt z
    let zs ← asInts zs
    return z :: zs

/-- `count_assignments(assignments)` (clustering.pyx:120-127): `items` are the entries of the
dictionary, so their keys are distinct; the hash map is visited in any order, here that of
the dictionary. -/
def countAssignments (items : List (Int × Int)) : Res (List Int) := do
  let _ ← asInts (items.map (·.1))
  let gids ← asInts (items.map (·.2))
  Dist.countAssignments pyLevel gids

/-- `PitmanYor.sample_assignments(size)` (clustering.pyx:178-180). -/
def sampleAssignmentsPY (m : PitmanYor F) (rng : Rng F σ) (s : σ) (size : Int) :
    Res (List Nat × σ) := do
  let size ← asInt size
  m.sampleAssignments rng size s

/-- `LowEntropy.sample_assignments(size)` (clustering.pyx:302-304). -/
def sampleAssignmentsLE (m : LowEntropy) (rng : Rng F σ) (s : σ) (size : Int) :
    Res (List Nat × σ) := do
  let size ← asInt size
  m.sampleAssignments pyLevel rng size s

/-! ### `PitmanYorMixture` (clustering.pyx:220-257) -/

namespace PYMixture

open PitmanYor

/-- The C++ object made by `__cinit__` (clustering.pyx:222-223). -/
def new : Cached F := ⟨Driver.raw [], []⟩

/-- Call a member function of `driver_` (clustering.hpp:232). -/
def onDriver {α : Type} (x : Act Driver α) : Act (Cached F) α :=
  Act.onMember (·.driver) (fun d c => ⟨d, c.shifted⟩) x

/-- Apply one of the functions that write the cached scores.  Their checks come before their
writes (clustering.hpp:215-230, vector.hpp:47-51). -/
def update (f : Cached F → Res (Cached F)) : Act (Cached F) Unit := do
  let c ← Act.get
  let c' ← Act.lift (f c)
  Act.modify fun _ => c'

/-- `init(model, counts)` (clustering.pyx:239-242, clustering.hpp:151-161): the counts are
assigned before they are checked. -/
def init (m : PitmanYor F) (counts : List Int) : Act (Cached F) Unit := do
  let counts ← Act.lift (asInts counts)
  Act.modify fun c => ⟨{ c.driver with counts := counts }, c.shifted⟩
  onDriver (Imp.Driver.init pyLevel)
  Act.modify fun c => ⟨c.driver, Cached.resize c.shifted c.driver.counts.length⟩
  update fun c => Cached.initLoop pyLevel m c.driver.counts.length 0 c
  update (Cached.updateEmpty m)

/-- `add_value(model, groupid)` (clustering.pyx:244-245, clustering.hpp:163-176). -/
def addValue (m : PitmanYor F) (groupid : Int) : Act (Cached F) Bool := do
  let groupid ← Act.lift (asInt groupid)
  let addGroup ← onDriver (Imp.Driver.addValue pyLevel (toSize groupid) 1)
  if addGroup then
    Act.modify fun c => ⟨c.driver, packedAdd c.shifted (ofInt 0)⟩
    update (Cached.updateEmpty m)
  update fun c => Cached.updateNonempty pyLevel m c (toSize groupid)
  return addGroup

/-- `remove_value(model, groupid)` (clustering.pyx:247-248, clustering.hpp:178-193). -/
def removeValue (m : PitmanYor F) (groupid : Int) : Act (Cached F) Bool := do
  let groupid ← Act.lift (asInt groupid)
  let removeGroup ← onDriver (Imp.Driver.removeValue pyLevel (toSize groupid) 1)
  if removeGroup then
    update fun c => do
      let shifted ← packedRemove pyLevel c.shifted (toSize groupid)
      return ⟨c.driver, shifted⟩
    update (Cached.updateEmpty m)
  else
    update fun c => Cached.updateNonempty pyLevel m c (toSize groupid)
  return removeGroup

/-- `score_value(model, scores)` (clustering.pyx:250-257). -/
def scoreValue (m : PitmanYor F) (c : Cached F) (a : NdArray F) : Res (NdArray F) := do
  let scores ← c.scoreValue pyLevel m c.driver.counts.length
  toNdarray scores a

end PYMixture

/-! ### `LowEntropyMixture` (clustering.pyx:343-380) -/

namespace LEMixture

/-- The C++ object made by `__cinit__` (clustering.pyx:345-346). -/
def new : Driver := Driver.raw []

/-- `init(model, counts)` (clustering.pyx:362-365). -/
def init (counts : List Int) : Act Driver Unit := do
  let counts ← Act.lift (asInts counts)
  Act.modify fun d => { d with counts := counts }
  Imp.Driver.init pyLevel

/-- `add_value(model, groupid)` (clustering.pyx:367-368). -/
def addValue (groupid : Int) : Act Driver Bool := do
  let groupid ← Act.lift (asInt groupid)
  Imp.Driver.addValue pyLevel (toSize groupid) 1

/-- `remove_value(model, groupid)` (clustering.pyx:370-371). -/
def removeValue (groupid : Int) : Act Driver Bool := do
  let groupid ← Act.lift (asInt groupid)
  Imp.Driver.removeValue pyLevel (toSize groupid) 1

/-- `score_value(model, scores)` (clustering.pyx:373-380). -/
def scoreValue (m : LowEntropy) (d : Driver) (a : NdArray F) : Res (NdArray F) := do
  let scores ← d.scoreValue pyLevel d.counts.length (m.scoreAddValue pyLevel)
  toNdarray scores a

end LEMixture

end Dist.Py
