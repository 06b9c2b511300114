import Verif.Base.FMap

/-! # `Sparse_` and `SparseCounter` (include/distributions/sparse.hpp)

Both wrap an `unordered_map`.  References returned by `get`, `add`, `get_or_add`
are modelled by reading and writing the map. -/

namespace Dist

/-! ## `Sparse_` (sparse.hpp:37-108) -/

namespace Sparse

variable {K V : Type} [DecidableEq K]

/-- `Sparse_::add(key, value)` (sparse.hpp:62-65): `insert` does nothing if the key
is present; at level 1 this is an error. -/
def add (lvl : Nat) (m : FMap K V) (k : K) (v : V) : Res (FMap K V) := do
  let m' := if m.contains k then m else m.set k v
  distAssert lvl 1 (m.contains k = false)
  return m'

/-- `Sparse_::remove(key)` (sparse.hpp:67-70). -/
def remove (lvl : Nat) (m : FMap K V) (k : K) : Res (FMap K V) := do
  distAssert lvl 1 (m.contains k = true)
  return m.erase k

/-- `Sparse_::pop(key)` (sparse.hpp:72-78): dereferences `end()` if missing at level 0. -/
def pop (lvl : Nat) (m : FMap K V) (k : K) : Res (V × FMap K V) := do
  distAssert lvl 1 (m.contains k = true)
  match m.lookup k with
  | some v => .ok (v, m.erase k)
  | none => .ub

/-- `Sparse_::set(key, value)` (sparse.hpp:80-84). -/
def set (lvl : Nat) (m : FMap K V) (k : K) (v : V) : Res (FMap K V) := do
  distAssert lvl 1 (m.contains k = true)
  match m.lookup k with
  | some _ => .ok (m.set k v)
  | none => .ub

/-- `Sparse_::get(key)` (sparse.hpp:86-90, 96-100). -/
def get (lvl : Nat) (m : FMap K V) (k : K) : Res V := do
  distAssert lvl 1 (m.contains k = true)
  match m.lookup k with
  | some v => .ok v
  | none => .ub

/-- `Sparse_::get_or_add(key)` (sparse.hpp:92-94): `operator[]`, inserting a
value-initialised entry `dflt` if missing.  Returns the entry and the table. -/
def getOrAdd (m : FMap K V) (k : K) (dflt : V) : V × FMap K V :=
  match m.lookup k with
  | some v => (v, m)
  | none => (dflt, m.set k dflt)

end Sparse

/-! ## `SparseCounter` (sparse.hpp:111-182)

Instantiated with `value_t = int` (dpd.hpp).  `total_` has no initialiser: it is
`none` until `clear()` is called. -/

structure SparseCounter (K : Type) [DecidableEq K] where
  map : FMap K Int
  total : Option Int

namespace SparseCounter

variable {K : Type} [DecidableEq K]

/-- A default-constructed counter (no user-provided constructor): empty table,
indeterminate total. -/
def raw : SparseCounter K := ⟨.empty, none⟩

/-- `clear()` (sparse.hpp:123-126). -/
def clear (_c : SparseCounter K) : SparseCounter K := ⟨.empty, some 0⟩

/-- `total_ += value` : undefined on an indeterminate total or on overflow. -/
def bumpTotal (t : Option Int) (value : Int) : Res Int :=
  match t with
  | some t => i32 (t + value)
  | none => .ub

/-- `get_count(key)` (sparse.hpp:136-139). -/
def getCount (c : SparseCounter K) (k : K) : Int := (c.map.lookup k).getD 0

/-- `get_total()` (sparse.hpp:141). -/
def getTotal (c : SparseCounter K) : Res Int :=
  match c.total with
  | some t => .ok t
  | none => .ub

/-- `init_count(key, value)` (sparse.hpp:128-134). -/
def initCount (lvl : Nat) (c : SparseCounter K) (k : K) (value : Int) :
    Res (SparseCounter K) := do
  if value ≠ 0 then
    let success := !c.map.contains k
    let map := if success then c.map.set k value else c.map
    distAssert lvl 1 (success = true)
    let t ← bumpTotal c.total value
    return ⟨map, some t⟩
  else
    return c

/-- `add(key, value)` (sparse.hpp:143-159); returns the new count. -/
def add (c : SparseCounter K) (k : K) (value : Int) : Res (Int × SparseCounter K) := do
  if value ≠ 0 then
    let t ← bumpTotal c.total value
    match c.map.lookup k with
    | none => return (value, ⟨c.map.set k value, some t⟩)
    | some old => do
      let value ← i32 (old + value)
      if value = 0 then
        return (value, ⟨c.map.erase k, some t⟩)
      else
        return (value, ⟨c.map.set k value, some t⟩)
  else
    return (c.getCount k, c)

/-- `remove(key)` (sparse.hpp:161). -/
def remove (c : SparseCounter K) (k : K) : Res (Int × SparseCounter K) := c.add k (-1)

/-- The loop of `merge` (sparse.hpp:164-166) over the entries of the other table in
iteration order. -/
def mergeLoop (c : SparseCounter K) : List (K × Int) → Res (SparseCounter K)
  | [] => .ok c
  | (k, v) :: es => do
    let (_, c) ← c.add k v
    mergeLoop c es

/-- `merge(other)` (sparse.hpp:163-168), `other` distinct from `this`; `ks` is the
iteration order of `other.map_`. -/
def merge (c other : SparseCounter K) (ks : List K) : Res (SparseCounter K) := do
  let c ← mergeLoop c (other.map.entries ks)
  let ot ← other.getTotal
  let t ← bumpTotal c.total ot
  return ⟨c.map, some t⟩

/-- `rename(old_key, new_key)` (sparse.hpp:170-178). -/
def rename (lvl : Nat) (c : SparseCounter K) (oldKey newKey : K) : Res (SparseCounter K) :=
  match c.map.lookup oldKey with
  | none => .ok c
  | some value => do
    let m := c.map.erase oldKey
    let success := !m.contains newKey
    let m := if success then m.set newKey value else m
    distAssert lvl 1 (success = true)
    return ⟨m, c.total⟩

end SparseCounter

end Dist
