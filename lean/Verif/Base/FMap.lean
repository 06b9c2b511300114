import Mathlib.Data.Finset.Card
import Mathlib.Algebra.BigOperators.Group.Finset.Basic
import Mathlib.Data.Finset.Dedup
import Verif.Base.Res

/-!
# Finite maps standing for `std::unordered_map`

A hash table is modelled by its observable content: a partial function with
finite domain.  Iteration order is not part of the state; every modelled loop
over a table takes the list of keys in visiting order as an argument together
with a proof obligation `Enum` (each key exactly once), so theorems hold for
every iteration order.
-/

namespace Dist

structure FMap (K V : Type) [DecidableEq K] where
  lookup : K → Option V
  keys : Finset K
  mem_keys : ∀ k, k ∈ keys ↔ (lookup k).isSome

namespace FMap

variable {K V : Type} [DecidableEq K]

@[ext] theorem ext {m n : FMap K V} (h : ∀ k, m.lookup k = n.lookup k) : m = n := by
  obtain ⟨l, ks, hk⟩ := m
  obtain ⟨l', ks', hk'⟩ := n
  have hl : l = l' := funext h
  subst hl
  have : ks = ks' := by
    ext k; rw [hk, hk']
  subst this; rfl

/-- The empty table. -/
def empty : FMap K V := ⟨fun _ => none, ∅, by simp⟩

instance : Inhabited (FMap K V) := ⟨empty⟩

/-- `map[k] = v` for new or existing `k`. -/
def set (m : FMap K V) (k : K) (v : V) : FMap K V where
  lookup := fun x => if x = k then some v else m.lookup x
  keys := insert k m.keys
  mem_keys := by
    intro x; by_cases h : x = k
    · simp [h]
    · simp [h, m.mem_keys]

/-- `map.erase(k)`. -/
def erase (m : FMap K V) (k : K) : FMap K V where
  lookup := fun x => if x = k then none else m.lookup x
  keys := m.keys.erase k
  mem_keys := by
    intro x; by_cases h : x = k
    · simp [h]
    · simp [h, m.mem_keys]

/-- `map.size()`. -/
def size (m : FMap K V) : Nat := m.keys.card

/-- `map.find(k) != map.end()`. -/
def contains (m : FMap K V) (k : K) : Bool := (m.lookup k).isSome

@[simp] theorem lookup_empty (k : K) : (empty : FMap K V).lookup k = none := rfl
@[simp] theorem keys_empty : (empty : FMap K V).keys = ∅ := rfl
@[simp] theorem lookup_set (m : FMap K V) (k x : K) (v : V) :
    (m.set k v).lookup x = if x = k then some v else m.lookup x := rfl
@[simp] theorem lookup_erase (m : FMap K V) (k x : K) :
    (m.erase k).lookup x = if x = k then none else m.lookup x := rfl
@[simp] theorem keys_set (m : FMap K V) (k : K) (v : V) :
    (m.set k v).keys = insert k m.keys := rfl
@[simp] theorem keys_erase (m : FMap K V) (k : K) : (m.erase k).keys = m.keys.erase k := rfl
@[simp] theorem size_empty : (empty : FMap K V).size = 0 := rfl

theorem mem_keys_iff (m : FMap K V) (k : K) : k ∈ m.keys ↔ ∃ v, m.lookup k = some v := by
  rw [m.mem_keys, Option.isSome_iff_exists]

theorem not_mem_keys_iff (m : FMap K V) (k : K) : k ∉ m.keys ↔ m.lookup k = none := by
  rw [m.mem_keys]; simp

theorem contains_iff (m : FMap K V) (k : K) : m.contains k = true ↔ k ∈ m.keys := by
  rw [m.mem_keys]; rfl

/-- `ks` visits every key of `m` exactly once: an iteration order of the table. -/
structure Enum (m : FMap K V) (ks : List K) : Prop where
  nodup : ks.Nodup
  mem : ∀ k, k ∈ ks ↔ k ∈ m.keys

/-- Iterating over the table visits these (key, value) pairs. -/
def entries (m : FMap K V) (ks : List K) : List (K × V) :=
  ks.filterMap fun k => (m.lookup k).map fun v => (k, v)

theorem enum_empty : Enum (empty : FMap K V) [] := ⟨by simp, by simp⟩

/-- Every table has an iteration order. -/
theorem exists_enum (m : FMap K V) : ∃ ks, m.Enum ks := by
  obtain ⟨l, hl⟩ := m.keys.val.exists_rep
  refine ⟨l, ?_, ?_⟩
  · have := m.keys.nodup
    rw [← hl] at this; exact this
  · intro k
    rw [← Finset.mem_val, ← hl]; rfl

theorem Enum.toFinset {m : FMap K V} {ks : List K} (h : m.Enum ks) : ks.toFinset = m.keys := by
  ext k; simp [h.mem]

theorem Enum.perm {m : FMap K V} {ks ks' : List K} (h : m.Enum ks) (h' : m.Enum ks') :
    ks.Perm ks' := by
  rw [List.perm_ext_iff_of_nodup h.nodup h'.nodup]
  intro a; rw [h.mem, h'.mem]

theorem Enum.length {m : FMap K V} {ks : List K} (h : m.Enum ks) : ks.length = m.size := by
  rw [size, ← h.toFinset, List.toFinset_card_of_nodup h.nodup]

end FMap

end Dist
