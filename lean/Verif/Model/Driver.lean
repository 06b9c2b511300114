import Mathlib.Data.Finset.Card
import Verif.Base.Res

/-! # `MixtureDriver` (include/distributions/mixture.hpp:48-163)

`count_t` is `int32_t` (the only instantiation, src/clustering.cc bottom).
`empty_groupids_` is an `unordered_set<size_t>`, modelled by a `Finset Nat`.
`sample_size_` has no initialiser: it is `none` until `init` runs. -/

namespace Dist

/-- State of `MixtureDriver` (mixture.hpp:147-150). -/
structure Driver where
  counts : List Int
  emptyIds : Finset Nat
  sampleSize : Option Int
deriving DecidableEq

namespace Driver

/-- A default-constructed driver whose `counts()` were filled by the caller
(mixture.hpp:52,147-150): the other members are not initialised. -/
def raw (counts : List Int) : Driver := ⟨counts, ∅, none⟩

/-- Reading `sample_size_` (mixture.hpp:56): undefined before `init`. -/
def getSampleSize (d : Driver) : Res Int :=
  match d.sampleSize with
  | some s => .ok s
  | none => .ub

/-- `_validate()` (mixture.hpp:152-162). -/
def validate (lvl : Nat) (d : Driver) : Res Unit := do
  distAssert lvl 1 (d.emptyIds.card ≠ 0)
  distAssert lvl 2 (∀ i, (h : i < d.counts.length) → (d.counts[i] = 0 ↔ i ∈ d.emptyIds))

/-- The loop of `init` (mixture.hpp:63-69) from index `i` on: `cs` is the rest of
the counts vector. -/
def initLoop : List Int → Nat → Finset Nat → Int → Res (Finset Nat × Int)
  | [], _, e, s => .ok (e, s)
  | c :: cs, i, e, s => do
    let s ← i32 (s + c)
    initLoop cs (i + 1) (if c = 0 then insert i e else e) s

/-- `init(model)` (mixture.hpp:59-71). -/
def init (lvl : Nat) (d : Driver) : Res Driver := do
  let (e, s) ← initLoop d.counts 0 ∅ 0
  let d : Driver := ⟨d.counts, e, some s⟩
  d.validate lvl
  return d

/-- `add_value(model, groupid, count)` (mixture.hpp:73-92). -/
def addValue (lvl : Nat) (d : Driver) (groupid : Nat) (count : Int) : Res (Driver × Bool) := do
  distAssert lvl 1 (count ≠ 0)
  distAssert lvl 2 (groupid < d.counts.length)
  let old ← getAt d.counts groupid
  let addGroup : Bool := old == 0
  let new ← i32 (old + count)
  let counts ← setAt d.counts groupid new
  let s ← d.getSampleSize
  let s ← i32 (s + count)
  if addGroup then
    let d' : Driver :=
      ⟨counts ++ [0], insert counts.length (d.emptyIds.erase groupid), some s⟩
    d'.validate lvl
    return (d', addGroup)
  else
    return (⟨counts, d.emptyIds, some s⟩, addGroup)

/-- `remove_value(model, groupid, count)` (mixture.hpp:94-122). -/
def removeValue (lvl : Nat) (d : Driver) (groupid : Nat) (count : Int) :
    Res (Driver × Bool) := do
  distAssert lvl 1 (count ≠ 0)
  distAssert lvl 2 (groupid < d.counts.length)
  -- lines 100-102; the two level-2 assertions read `counts_[groupid]`
  let old ← getAt d.counts groupid
  distAssert lvl 2 (old ≠ 0)
  distAssert lvl 2 (count ≤ old)
  let new ← i32 (old - count)
  let counts ← setAt d.counts groupid new
  let s ← d.getSampleSize
  let s ← i32 (s - count)
  let removeGroup : Bool := new == 0
  if removeGroup then
    let groupCount := counts.length - 1
    let back ← backOf counts
    let counts' ← (if groupid ≠ groupCount then setAt counts groupid back else .ok counts : Res _)
    let emptyIds :=
      if groupid ≠ groupCount ∧ back = 0 then
        insert groupid (d.emptyIds.erase groupCount)
      else d.emptyIds
    let counts'' ← popBack counts'
    let d' : Driver := ⟨counts'', emptyIds, some s⟩
    d'.validate lvl
    return (d', removeGroup)
  else
    return (⟨counts, d.emptyIds, some s⟩, removeGroup)

/-- `score_value(model, scores)` (mixture.hpp:124-141).  `scoreAdd` is the
model's `score_add_value(group_size, nonempty_group_count, sample_size,
empty_group_count)`; the result is the vector written to `scores`, whose former
content only matters through its length `scoresLen`.
`group_count`, `empty_group_count` are converted to `count_t`; group counts of
`2^31` or more are outside the model (the vector of counts would exceed 8 GB). -/
def scoreValue {F : Type} (lvl : Nat) (d : Driver) (scoresLen : Nat)
    (scoreAdd : Int → Int → Int → Int → Res F) : Res (List F) := do
  distAssert lvl 1 (scoresLen = d.counts.length)
  -- writing `scores[i]` for `i < counts_.size()` is out of range if `scores` is shorter
  if scoresLen < d.counts.length then .ub else
  let emptyCount : Int := d.emptyIds.card
  let nonemptyCount : Int := d.counts.length - emptyCount
  if d.counts.isEmpty then .ok [] else
  let s ← d.getSampleSize
  d.counts.mapM fun c => scoreAdd c nonemptyCount s emptyCount

end Driver

end Dist
