import Verif.Lemmas.Sparse

/-! # Properties C02, C03, C04 (and the sparse-counter part of C56) -/

namespace Dist

open Spec

variable {K : Type} [DecidableEq K]

/-! ## C02 -/

/-- **C02.** After `clear()` and any valid history, at every debug level and
whatever the counter held before: every call returns what the signed multiset
says, `get_count` is the net count of every key, and iterating the table (in
whatever order) visits exactly the keys of nonzero count, whose counts sum to
`get_total`. -/
theorem C02_counter_is_signed_multiset (lvl : Nat) (c : SparseCounter K)
    (ops : List (CounterOp K)) (hv : ValidCounterHistory .empty ops) :
    ∃ c', (c.clear).runOps lvl ops = .ok (c', counterResults .empty ops) ∧
      (∀ k, c'.getCount k = (runCounter .empty ops).count k) ∧
      c'.getTotal = .ok (runCounter .empty ops).total ∧
      ∀ ks, c'.map.Enum ks →
        (∀ k, k ∈ ks ↔ (runCounter .empty ops).count k ≠ 0) ∧
        (ks.map (runCounter .empty ops).count).sum = (runCounter .empty ops).total := by
  obtain ⟨c', h1, h2⟩ := (SparseCounter.rep_clear c).run lvl hv
  refine ⟨c', h1, h2.getCount, by simp [SparseCounter.getTotal, h2.total], ?_⟩
  intro ks hk
  have hm : ∀ k, k ∈ ks ↔ (runCounter .empty ops).count k ≠ 0 := fun k => by
    rw [hk.mem, h2.mem_keys]
  refine ⟨hm, ?_⟩
  have := SparseCounter.totalIsSum_run SparseCounter.totalIsSum_empty hv ks.toFinset
    (fun k hk => by simpa using (hm k).mpr hk)
  rw [← this, List.sum_toFinset _ hk.nodup]

/-- A history with debt (removal before addition), cancellation and a rename. -/
example : ValidCounterHistory (K := Nat) .empty
    [.remove 7, .add 7 3, .initCount 2 5, .add 2 (-5), .rename 7 9] ∧
    (runCounter (K := Nat) .empty
      [.remove 7, .add 7 3, .initCount 2 5, .add 2 (-5), .rename 7 9]).count 9 = 2 := by
  refine ⟨⟨?_, ?_, ?_, ?_, ?_, trivial⟩, by decide⟩ <;> unfold CounterOp.Valid <;> decide

/-- What goes wrong outside the precondition of `rename` when assertions are off:
renaming onto a key that already has a count forgets the renamed count while
keeping it in the total, so the total is no longer the sum of the counts. -/
theorem C02_rename_collision_loses_count (c : SparseCounter K)
    (a b : K) (x y : Int) (hab : a ≠ b) (ha : c.map.lookup a = some x)
    (hb : c.map.lookup b = some y) :
    (∀ lvl, 1 ≤ lvl → c.rename lvl a b = .fail) ∧
    ∃ c', c.rename 0 a b = .ok c' ∧ c'.total = c.total ∧ c'.getCount a = 0 ∧
      ∀ k, k ≠ a → c'.getCount k = c.getCount k := by
  have hc : (c.map.erase a).contains b = true := by
    simp [FMap.contains, Ne.symm hab, hb]
  constructor
  · intro lvl hl
    simp only [SparseCounter.rename, ha, hc]
    rw [distAssert_of_not hl (by simp)]; rfl
  · simp only [SparseCounter.rename, ha, hc]
    rw [distAssert_of_lt (by omega)]
    refine ⟨_, rfl, rfl, ?_, ?_⟩
    · simp [SparseCounter.getCount]
    · intro k hk
      simp [SparseCounter.getCount, hk]

/-- `init_count` outside its precondition (key already counted): reported at level 1
and above; at level 0 the stored count is kept but the total still grows. -/
theorem C02_init_count_twice (c : SparseCounter K) (k : K) (v x t : Int)
    (hk : c.map.lookup k = some x) (ht : c.total = some t) (hv : v ≠ 0)
    (hb : InInt32 (t + v)) :
    (∀ lvl, 1 ≤ lvl → c.initCount lvl k v = .fail) ∧
    c.initCount 0 k v = .ok ⟨c.map, some (t + v)⟩ := by
  have hc : c.map.contains k = true := by simp [FMap.contains, hk]
  constructor
  · intro lvl hl
    simp only [SparseCounter.initCount, ne_eq, hv, not_false_eq_true, if_true, hc]
    rw [distAssert_of_not hl (by simp)]; rfl
  · simp only [SparseCounter.initCount, ne_eq, hv, not_false_eq_true, if_true, hc]
    rw [distAssert_of_lt (by omega)]
    simp [SparseCounter.bumpTotal, ht, hb]

/-! ## C03

Full statement: after `a.merge(b)` every count is the sum of the counts *and the
total is the sum of the totals*, for every iteration order of `b`.  The part about
counts holds; the part about the total is false of the code (sparse.hpp:163-168
adds `b`'s total once through `add` and once more after the loop). -/

/-- **C03 (partial).** `a` and `b` are counters produced by arbitrary valid
histories; `ks` is any iteration order of `b`.  Every count of the merged counter is
the sum of the two counts and no zero count is stored.  The side conditions say that
no counter overflows `int` on the way.
Missing: `total = a.total + b.total`, which is false: the last conjunct states the
total the code computes (`a.total + 2 * b.total`). -/
theorem C03_merge_partial (lvl : Nat) (a b a0 b0 : SparseCounter K)
    (opsA opsB : List (CounterOp K)) (rA rB : List (Option Int))
    (hA : ValidCounterHistory .empty opsA) (hB : ValidCounterHistory .empty opsB)
    (ha : a0.clear.runOps lvl opsA = .ok (a, rA)) (hb : b0.clear.runOps lvl opsB = .ok (b, rB))
    (ks : List K) (hks : b.map.Enum ks)
    (hcount : ∀ k, InInt32 (a.getCount k + b.getCount k))
    (htotal : |(runCounter .empty opsA).total| + 2 * (ks.map fun k => |b.getCount k|).sum
      ≤ 2147483647) :
    ∃ c', a.merge b ks = .ok c' ∧
      (∀ k, c'.getCount k = a.getCount k + b.getCount k) ∧
      (∀ ks', c'.map.Enum ks' → ∀ k, k ∈ ks' ↔ a.getCount k + b.getCount k ≠ 0) ∧
      c'.total = some ((runCounter .empty opsA).total + 2 * (runCounter .empty opsB).total) := by
  obtain ⟨a', h1, ha'⟩ := (SparseCounter.rep_clear a0).run lvl hA
  rw [ha] at h1; injection h1 with h1; injection h1 with h1 _; subst h1
  obtain ⟨b', h1, hb'⟩ := (SparseCounter.rep_clear b0).run lvl hB
  rw [hb] at h1; injection h1 with h1; injection h1 with h1 _; subst h1
  have hsum := SparseCounter.totalIsSum_run SparseCounter.totalIsSum_empty hB ks.toFinset
    (fun k hk => by simpa using (hks.mem k).mpr ((hb'.mem_keys k).mpr hk))
  rw [List.sum_toFinset _ hks.nodup] at hsum
  simp only [ha'.getCount, hb'.getCount] at hcount htotal ⊢
  exact SparseCounter.merge_rep ha' hb' ks hks hcount htotal hsum.symm

/-- The hypotheses are met by `a = {1 ↦ 2}` and `b = {1 ↦ -2, 5 ↦ 3}`. -/
example : ∃ a b : SparseCounter Nat,
    (SparseCounter.raw.clear).runOps 3 [.add 1 2] = .ok (a, [some 2]) ∧
    (SparseCounter.raw.clear).runOps 3 [.add 1 (-2), .add 5 3] = .ok (b, [some (-2), some 3]) ∧
    b.map.Enum [5, 1] ∧ (∀ k, InInt32 (a.getCount k + b.getCount k)) ∧
    ((2 : Int) + 2 * (([5, 1] : List Nat).map fun k => |b.getCount k|).sum ≤ 2147483647) := by
  refine ⟨_, _, rfl, rfl, ⟨by simp, by intro k; simp [or_comm, SparseCounter.clear]⟩, ?_, by decide⟩
  intro k
  by_cases h1 : k = 1
  · subst h1; decide
  · by_cases h5 : k = 5
    · subst h5; decide
    · simp [SparseCounter.getCount, h1, h5, SparseCounter.clear]; decide

/-- **C03 (finding).** The total after a merge is wrong whenever the merged counter
has a nonzero total: merging `{5 ↦ 3}` into an empty counter gives total 6, while
its only count is 3. -/
theorem C03_merge_total_is_wrong :
    ∃ b c' : SparseCounter Nat, (SparseCounter.raw.clear).runOps 3 [.add 5 3] = .ok (b, [some 3]) ∧
      (SparseCounter.raw.clear).merge b [5] = .ok c' ∧ b.map.Enum [5] ∧
      (∀ k, c'.getCount k = if k = 5 then 3 else 0) ∧ c'.getTotal = .ok 6 := by
  refine ⟨⟨FMap.empty.set 5 3, some 3⟩, ⟨FMap.empty.set 5 3, some 6⟩, ?_, ?_, ?_, ?_, ?_⟩
  · rfl
  · rfl
  · exact ⟨by simp, by intro k; simp⟩
  · intro k; by_cases hk : k = 5 <;> simp [SparseCounter.getCount, hk]
  · rfl

/-! ## C04 -/

/-- **C04.** A sparse map behaves as a partial function: for every history whose
calls meet their preconditions, at every debug level, all calls succeed with the
specified results and the final content is the specified function. -/
theorem C04_map_refines_partial_function {V : Type} (lvl : Nat) (m : FMap K V)
    (ops : List (MapOp K V)) (hv : ValidMapHistory m.lookup ops) :
    ∃ m', Sparse.runOps lvl m ops = .ok (m', mapResults m.lookup ops) ∧
      m'.lookup = ops.foldl MapOp.step m.lookup := by
  induction ops generalizing m with
  | nil => exact ⟨m, rfl, rfl⟩
  | cons op ops ih =>
    obtain ⟨m1, h1, h2⟩ := Sparse.step_ok lvl m op hv.1
    obtain ⟨m2, h3, h4⟩ := ih m1 (by rw [h2]; exact hv.2)
    refine ⟨m2, ?_, ?_⟩
    · simp [Sparse.runOps, h1, h3, mapResults, h2]
    · rw [h4, h2]; rfl

example : ValidMapHistory (fun _ : Nat => (none : Option Nat))
    [.add 1 10, .getOrAdd 2 0, .set 2 5, .pop 1, .add 1 11, .get 2, .remove 2] ∧
    mapResults (fun _ : Nat => (none : Option Nat))
      [.add 1 10, .getOrAdd 2 0, .set 2 5, .pop 1, .add 1 11, .get 2, .remove 2]
      = [none, some 0, none, some 10, none, some 5, none] := by
  refine ⟨⟨?_, ?_, ?_, ?_, ?_, ?_, ?_, trivial⟩, by decide⟩ <;> unfold MapOp.Valid <;>
    first | trivial | simp

/-- **C04, misuse.** A call outside its precondition is reported at every level from
1 on; at level 0 adding a present key and removing an absent one change nothing,
while reading, writing or popping an absent key is undefined behaviour. -/
theorem C04_misuse {V : Type} (m : FMap K V) (k : K) (v : V) :
    (m.lookup k ≠ none →
      (∀ lvl, 1 ≤ lvl → Sparse.add lvl m k v = .fail) ∧ Sparse.add 0 m k v = .ok m) ∧
    (m.lookup k = none →
      (∀ lvl, 1 ≤ lvl → Sparse.remove lvl m k = .fail ∧ Sparse.pop lvl m k = .fail ∧
        Sparse.get lvl m k = .fail ∧ Sparse.set lvl m k v = .fail) ∧
      Sparse.remove 0 m k = .ok m ∧ Sparse.pop 0 m k = .ub ∧ Sparse.get 0 m k = .ub ∧
      Sparse.set 0 m k v = .ub) := by
  constructor
  · intro hk
    have hc : m.contains k = true := by
      simpa [FMap.contains, Option.isSome_iff_ne_none] using hk
    refine ⟨fun lvl hl => ?_, ?_⟩
    · simp only [Sparse.add, hc, if_true]
      rw [distAssert_of_not hl (by simp)]; rfl
    · simp only [Sparse.add, hc, if_true]
      rw [distAssert_of_lt (by omega)]; rfl
  · intro hk
    have hc : m.contains k = false := by simpa [FMap.contains] using hk
    refine ⟨fun lvl hl => ⟨?_, ?_, ?_, ?_⟩, ?_, ?_, ?_, ?_⟩
    · simp only [Sparse.remove, hc]; rw [distAssert_of_not hl (by simp)]; rfl
    · simp only [Sparse.pop, hc]; rw [distAssert_of_not hl (by simp)]; rfl
    · simp only [Sparse.get, hc]; rw [distAssert_of_not hl (by simp)]; rfl
    · simp only [Sparse.set, hc]; rw [distAssert_of_not hl (by simp)]; rfl
    · simp only [Sparse.remove, hc]
      rw [distAssert_of_lt (by omega), Res.ok_bind]
      simp only [Res.pure_eq]
      congr 1
      ext x; by_cases hx : x = k <;> simp [hx, hk]
    · simp only [Sparse.pop, hc]; rw [distAssert_of_lt (by omega)]; simp [hk]
    · simp only [Sparse.get, hc]; rw [distAssert_of_lt (by omega)]; simp [hk]
    · simp only [Sparse.set, hc]; rw [distAssert_of_lt (by omega)]; simp [hk]

end Dist
