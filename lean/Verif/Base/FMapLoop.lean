import Verif.Base.FMap

/-! # Loops over hash tables that treat every entry on its own -/

namespace Dist

namespace Res

variable {α : Type}

/-- The value of a successful call, or a default. -/
def getD : Res α → α → α
  | ok a, _ => a
  | _, d => d

def isOk : Res α → Bool
  | ok _ => true
  | _ => false

def isUb : Res α → Bool
  | ub => true
  | _ => false

@[simp] theorem getD_ok (a d : α) : (ok a).getD d = a := rfl
@[simp] theorem isOk_ok (a : α) : (ok a : Res α).isOk = true := rfl

end Res

namespace FMap

variable {K V W : Type} [DecidableEq K]

/-- Replace every value. -/
def mapValues (m : FMap K V) (f : K → V → W) : FMap K W where
  lookup k := (m.lookup k).map (f k)
  keys := m.keys
  mem_keys k := by rw [m.mem_keys]; simp

/-- Keep the entries whose key satisfies `p`. -/
def filterKeys (m : FMap K V) (p : K → Bool) : FMap K V where
  lookup k := if p k then m.lookup k else none
  keys := m.keys.filter fun k => p k
  mem_keys k := by
    rw [Finset.mem_filter, m.mem_keys]
    by_cases h : p k = true <;> simp [h]

/-- `for (auto & i : m) i.second = f(i.first, i.second)` where `f` may fail.  Each
iteration touches its own entry only, so the visiting order matters only if several
iterations misbehave; then undefined behaviour is reported if any of them has it. -/
def mapEntries (m : FMap K V) (f : K → V → Res W) (d : W) : Res (FMap K W) :=
  if ∀ k ∈ m.keys, ((m.lookup k).all fun v => (f k v).isOk) = true then
    .ok (m.mapValues fun k v => (f k v).getD d)
  else if ∃ k ∈ m.keys, ((m.lookup k).any fun v => (f k v).isUb) = true then .ub
  else .fail

@[simp] theorem lookup_mapValues (m : FMap K V) (f : K → V → W) (k : K) :
    (m.mapValues f).lookup k = (m.lookup k).map (f k) := rfl

@[simp] theorem keys_mapValues (m : FMap K V) (f : K → V → W) : (m.mapValues f).keys = m.keys :=
  rfl

@[simp] theorem lookup_filterKeys (m : FMap K V) (p : K → Bool) (k : K) :
    (m.filterKeys p).lookup k = if p k then m.lookup k else none := rfl

/-- If every iteration succeeds the loop does, and each entry holds its result. -/
theorem mapEntries_ok {m : FMap K V} {f : K → V → Res W} (φ : K → V → W) (d : W)
    (h : ∀ k v, m.lookup k = some v → f k v = .ok (φ k v)) :
    m.mapEntries f d = .ok (m.mapValues φ) := by
  unfold mapEntries
  rw [if_pos]
  · congr 1
    ext k : 1
    simp only [lookup_mapValues]
    cases hk : m.lookup k with
    | none => rfl
    | some v => simp [h k v hk]
  · intro k hk
    obtain ⟨v, hv⟩ := (m.mem_keys_iff k).mp hk
    simp [hv, h k v hv]

end FMap

end Dist
