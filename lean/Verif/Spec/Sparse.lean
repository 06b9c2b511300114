import Verif.Model.Sparse

/-! # Specification of sparse counters: signed multisets -/

namespace Dist.Spec

/-- A signed multiset: every key has an integer multiplicity; `total` accumulates
everything ever added. -/
structure SignedMultiset (K : Type) where
  count : K → Int
  total : Int

namespace SignedMultiset

variable {K : Type} [DecidableEq K]

def empty : SignedMultiset K := ⟨fun _ => 0, 0⟩

/-- add `v` (possibly negative) to the multiplicity of `k` -/
def add (s : SignedMultiset K) (k : K) (v : Int) : SignedMultiset K :=
  ⟨fun x => if x = k then s.count k + v else s.count x, s.total + v⟩

/-- everything counted under `a` is now counted under `b` -/
def rename (s : SignedMultiset K) (a b : K) : SignedMultiset K :=
  ⟨fun x => if x = b then s.count a else if x = a then 0 else s.count x, s.total⟩

end SignedMultiset

inductive CounterOp (K : Type) where
  | clear
  | initCount (k : K) (v : Int)
  | add (k : K) (v : Int)
  | remove (k : K)
  | rename (a b : K)

namespace CounterOp

variable {K : Type} [DecidableEq K]

/-- Preconditions: counts and totals stay within `int`; `init_count` on a key of
count zero; `rename` onto a key of count zero (or onto itself). -/
def Valid (s : SignedMultiset K) : CounterOp K → Prop
  | clear => True
  | initCount k v => s.count k = 0 ∧ InInt32 v ∧ InInt32 (s.total + v)
  | add k v => InInt32 (s.count k + v) ∧ InInt32 (s.total + v)
  | remove k => InInt32 (s.count k - 1) ∧ InInt32 (s.total - 1)
  | rename a b => s.count a = 0 ∨ s.count b = 0 ∨ a = b

def step (s : SignedMultiset K) : CounterOp K → SignedMultiset K
  | clear => .empty
  | initCount k v => s.add k v
  | add k v => s.add k v
  | remove k => s.add k (-1)
  | rename a b => if s.count a = 0 then s else s.rename a b

/-- what the call returns -/
def result (s : SignedMultiset K) : CounterOp K → Option Int
  | clear => none
  | initCount _ _ => none
  | add k v => some (s.count k + v)
  | remove k => some (s.count k - 1)
  | rename _ _ => none

end CounterOp

def ValidCounterHistory {K : Type} [DecidableEq K] :
    SignedMultiset K → List (CounterOp K) → Prop
  | _, [] => True
  | s, op :: ops => op.Valid s ∧ ValidCounterHistory (op.step s) ops

def runCounter {K : Type} [DecidableEq K] (s : SignedMultiset K) (ops : List (CounterOp K)) :
    SignedMultiset K := ops.foldl CounterOp.step s

def counterResults {K : Type} [DecidableEq K] :
    SignedMultiset K → List (CounterOp K) → List (Option Int)
  | _, [] => []
  | s, op :: ops => op.result s :: counterResults (op.step s) ops

end Dist.Spec

namespace Dist.SparseCounter

open Spec

variable {K : Type} [DecidableEq K]

/-- One call on the modelled counter. -/
def stepOp (lvl : Nat) (c : SparseCounter K) : CounterOp K → Res (SparseCounter K × Option Int)
  | .clear => .ok (c.clear, none)
  | .initCount k v => do let c ← c.initCount lvl k v; return (c, none)
  | .add k v => do let (r, c) ← c.add k v; return (c, some r)
  | .remove k => do let (r, c) ← c.remove k; return (c, some r)
  | .rename a b => do let c ← c.rename lvl a b; return (c, none)

def runOps (lvl : Nat) : SparseCounter K → List (CounterOp K) →
    Res (SparseCounter K × List (Option Int))
  | c, [] => .ok (c, [])
  | c, op :: ops => do
    let (c, r) ← c.stepOp lvl op
    let (c, rs) ← runOps lvl c ops
    return (c, r :: rs)

end Dist.SparseCounter

namespace Dist.Spec

/-- Calls on a sparse key-value map. -/
inductive MapOp (K V : Type) where
  | add (k : K) (v : V)
  | remove (k : K)
  | pop (k : K)
  | set (k : K) (v : V)
  | get (k : K)
  | getOrAdd (k : K) (dflt : V)

namespace MapOp

variable {K V : Type} [DecidableEq K]

/-- Preconditions on the partial function `f` held by the map. -/
def Valid (f : K → Option V) : MapOp K V → Prop
  | add k _ => f k = none
  | remove k => f k ≠ none
  | pop k => f k ≠ none
  | set k _ => f k ≠ none
  | get k => f k ≠ none
  | getOrAdd _ _ => True

def step (f : K → Option V) : MapOp K V → K → Option V
  | add k v => fun x => if x = k then some v else f x
  | remove k => fun x => if x = k then none else f x
  | pop k => fun x => if x = k then none else f x
  | set k v => fun x => if x = k then some v else f x
  | get _ => f
  | getOrAdd k d => fun x => if x = k then some ((f k).getD d) else f x

/-- the value returned, if the call returns one -/
def result (f : K → Option V) : MapOp K V → Option V
  | pop k => f k
  | get k => f k
  | getOrAdd k d => some ((f k).getD d)
  | _ => none

end MapOp

def ValidMapHistory {K V : Type} [DecidableEq K] : (K → Option V) → List (MapOp K V) → Prop
  | _, [] => True
  | f, op :: ops => op.Valid f ∧ ValidMapHistory (op.step f) ops

def mapResults {K V : Type} [DecidableEq K] :
    (K → Option V) → List (MapOp K V) → List (Option V)
  | _, [] => []
  | f, op :: ops => op.result f :: mapResults (op.step f) ops

end Dist.Spec

namespace Dist.Sparse

open Spec

variable {K V : Type} [DecidableEq K]

/-- One call on the modelled map. -/
def stepOp (lvl : Nat) (m : FMap K V) : MapOp K V → Res (FMap K V × Option V)
  | .add k v => do let m ← add lvl m k v; return (m, none)
  | .remove k => do let m ← remove lvl m k; return (m, none)
  | .pop k => do let (v, m) ← pop lvl m k; return (m, some v)
  | .set k v => do let m ← set lvl m k v; return (m, none)
  | .get k => do let v ← get lvl m k; return (m, some v)
  | .getOrAdd k d => let (v, m) := getOrAdd m k d; .ok (m, some v)

def runOps (lvl : Nat) : FMap K V → List (MapOp K V) → Res (FMap K V × List (Option V))
  | m, [] => .ok (m, [])
  | m, op :: ops => do
    let (m, r) ← stepOp lvl m op
    let (m, rs) ← runOps lvl m ops
    return (m, r :: rs)

end Dist.Sparse
