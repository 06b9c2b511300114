import Mathlib.Algebra.BigOperators.Group.Finset.Basic
import Mathlib.Algebra.BigOperators.Group.Finset.Piecewise
import Mathlib.Algebra.Ring.Int.Defs
import Mathlib.Algebra.Order.BigOperators.Group.List
import Mathlib.Algebra.Order.Group.Int
import Mathlib.Algebra.Order.Group.Abs
import Mathlib.Tactic.Linarith
import Mathlib.Tactic.Ring
import Verif.Spec.Sparse

set_option linter.unusedSimpArgs false

namespace Dist

open Spec

namespace SparseCounter

variable {K : Type} [DecidableEq K]

/-- The counter represents the signed multiset `s`. -/
structure Rep (c : SparseCounter K) (s : SignedMultiset K) : Prop where
  count : ∀ k, c.map.lookup k = if s.count k = 0 then none else some (s.count k)
  total : c.total = some s.total

theorem Rep.getCount {c : SparseCounter K} {s : SignedMultiset K} (h : c.Rep s) (k : K) :
    c.getCount k = s.count k := by
  unfold SparseCounter.getCount
  rw [h.count]; split_ifs with h0
  · simp [h0]
  · rfl

theorem Rep.mem_keys {c : SparseCounter K} {s : SignedMultiset K} (h : c.Rep s) (k : K) :
    k ∈ c.map.keys ↔ s.count k ≠ 0 := by
  rw [c.map.mem_keys, h.count]; split_ifs with h0 <;> simp [h0]

theorem rep_clear (c : SparseCounter K) : c.clear.Rep .empty :=
  ⟨by intro k; simp [clear, SignedMultiset.empty], rfl⟩

theorem Rep.add {c : SparseCounter K} {s : SignedMultiset K} (h : c.Rep s) {k : K} {v : Int}
    (h1 : InInt32 (s.count k + v)) (h2 : InInt32 (s.total + v)) :
    ∃ c', c.add k v = .ok (s.count k + v, c') ∧ c'.Rep (s.add k v) := by
  unfold SparseCounter.add
  by_cases hv : v = 0
  · subst hv
    simp only [ne_eq, not_true_eq_false, if_false, Res.pure_eq, h.getCount, Int.add_zero]
    refine ⟨c, rfl, ?_, ?_⟩
    · intro x
      rw [h.count]
      by_cases hx : x = k <;> simp [SignedMultiset.add, hx]
    · simp [SignedMultiset.add, h.total]
  · simp only [ne_eq, hv, not_false_eq_true, if_true, h.total, bumpTotal, i32_of h2, Res.ok_bind]
    rw [h.count]
    by_cases h0 : s.count k = 0
    · simp only [h0, if_true, Int.zero_add, Res.pure_eq]
      refine ⟨_, rfl, ?_, rfl⟩
      intro x
      simp only [FMap.lookup_set, SignedMultiset.add, h0, Int.zero_add]
      by_cases hx : x = k
      · simp [hx, hv]
      · simp [hx, h.count]
    · simp only [h0, if_false, i32_of h1, Res.ok_bind]
      by_cases hz : s.count k + v = 0
      · simp only [hz, if_true, Res.pure_eq]
        refine ⟨_, rfl, ?_, rfl⟩
        intro x
        simp only [FMap.lookup_erase, SignedMultiset.add, hz]
        by_cases hx : x = k
        · simp [hx]
        · simp [hx, h.count]
      · simp only [hz, if_false, Res.pure_eq]
        refine ⟨_, rfl, ?_, rfl⟩
        intro x
        simp only [FMap.lookup_set, SignedMultiset.add]
        by_cases hx : x = k
        · simp [hx, hz]
        · simp [hx, h.count]

theorem Rep.initCount {c : SparseCounter K} {s : SignedMultiset K} (h : c.Rep s) (lvl : Nat)
    {k : K} {v : Int} (h0 : s.count k = 0) (h2 : InInt32 (s.total + v)) :
    ∃ c', c.initCount lvl k v = .ok c' ∧ c'.Rep (s.add k v) := by
  unfold SparseCounter.initCount
  by_cases hv : v = 0
  · subst hv
    simp only [ne_eq, not_true_eq_false, if_false, Res.pure_eq]
    refine ⟨c, rfl, ?_, ?_⟩
    · intro x
      rw [h.count]
      by_cases hx : x = k <;> simp [SignedMultiset.add, hx]
    · simp [SignedMultiset.add, h.total]
  · have hc : c.map.contains k = false := by simp [FMap.contains, h.count, h0]
    simp only [ne_eq, hv, not_false_eq_true, if_true, hc, Bool.not_false, distAssert_of,
      Res.ok_bind, h.total, bumpTotal, i32_of h2, Res.pure_eq]
    refine ⟨_, rfl, ?_, rfl⟩
    intro x
    simp only [FMap.lookup_set, SignedMultiset.add, h0, Int.zero_add]
    by_cases hx : x = k
    · simp [hx, hv]
    · simp [hx, h.count]

theorem Rep.rename {c : SparseCounter K} {s : SignedMultiset K} (h : c.Rep s) (lvl : Nat)
    {a b : K} (hv : (CounterOp.rename a b).Valid s) :
    ∃ c', c.rename lvl a b = .ok c' ∧ c'.Rep ((CounterOp.rename a b).step s) := by
  unfold SparseCounter.rename
  rw [h.count]
  by_cases ha : s.count a = 0
  · simp only [ha, if_true, CounterOp.step]
    exact ⟨c, rfl, h⟩
  · simp only [ha, if_false, CounterOp.step]
    have hb : s.count b = 0 ∨ a = b := by
      rcases hv with hv | hv
      · exact absurd hv ha
      · exact hv
    have hc : (c.map.erase a).contains b = false := by
      simp only [FMap.contains, FMap.lookup_erase]
      split_ifs with hba
      · rfl
      · rw [h.count]
        rcases hb with hb | hb
        · simp [hb]
        · exact absurd hb.symm hba
    simp only [hc, Bool.not_false, distAssert_of, Res.ok_bind, if_true, Res.pure_eq]
    refine ⟨_, rfl, ?_, h.total⟩
    intro x
    simp only [FMap.lookup_set, FMap.lookup_erase, SignedMultiset.rename]
    by_cases hxb : x = b
    · simp [hxb, ha]
    · by_cases hxa : x = a
      · subst hxa
        simp [hxb]
      · simp [hxb, hxa, h.count]

theorem Rep.step {c : SparseCounter K} {s : SignedMultiset K} (h : c.Rep s) (lvl : Nat)
    {op : CounterOp K} (hv : op.Valid s) :
    ∃ c', c.stepOp lvl op = .ok (c', op.result s) ∧ c'.Rep (op.step s) := by
  cases op with
  | clear => exact ⟨_, rfl, rep_clear c⟩
  | initCount k v =>
    obtain ⟨c', h1, h2⟩ := h.initCount lvl hv.1 hv.2.2
    exact ⟨c', by simp [stepOp, h1, CounterOp.result], h2⟩
  | add k v =>
    obtain ⟨c', h1, h2⟩ := h.add hv.1 hv.2
    exact ⟨c', by simp [stepOp, h1, CounterOp.result], h2⟩
  | remove k =>
    obtain ⟨c', h1, h2⟩ := h.add (k := k) (v := -1) hv.1 hv.2
    exact ⟨c', by simp [stepOp, remove, h1, CounterOp.result, Int.sub_eq_add_neg], h2⟩
  | rename a b =>
    obtain ⟨c', h1, h2⟩ := h.rename lvl hv
    exact ⟨c', by simp [stepOp, h1, CounterOp.result], h2⟩

theorem Rep.run {c : SparseCounter K} {s : SignedMultiset K} (h : c.Rep s) (lvl : Nat)
    {ops : List (CounterOp K)} (hv : ValidCounterHistory s ops) :
    ∃ c', c.runOps lvl ops = .ok (c', counterResults s ops) ∧ c'.Rep (runCounter s ops) := by
  induction ops generalizing c s with
  | nil => exact ⟨c, rfl, h⟩
  | cons op ops ih =>
    obtain ⟨c1, h1, h2⟩ := h.step lvl hv.1
    obtain ⟨c2, h3, h4⟩ := ih h2 hv.2
    exact ⟨c2, by simp [runOps, h1, h3, counterResults], h4⟩

/-- The specified total is the sum of the multiplicities over any finite set
containing the support. -/
def TotalIsSum (s : SignedMultiset K) : Prop :=
  ∀ S : Finset K, (∀ k, s.count k ≠ 0 → k ∈ S) → ∑ k ∈ S, s.count k = s.total

theorem totalIsSum_add {s : SignedMultiset K} (h : TotalIsSum s)
    {k : K} {v : Int} : TotalIsSum (s.add k v) := by
  intro S hS
  have h1 : ∀ x, s.count x ≠ 0 → x ∈ insert k S := by
    intro x hx
    by_cases hxk : x = k
    · simp [hxk]
    · exact Finset.mem_insert_of_mem (hS x (by simpa [SignedMultiset.add, hxk] using hx))
  have h2 := h (insert k S) h1
  have h3 : ∑ x ∈ insert k S, (s.add k v).count x = ∑ x ∈ insert k S, s.count x + v := by
    have : ∀ x, (s.add k v).count x = s.count x + if x = k then v else 0 := by
      intro x; by_cases hx : x = k <;> simp [SignedMultiset.add, hx]
    simp only [this, Finset.sum_add_distrib]
    simp
  by_cases hk : k ∈ S
  · rw [Finset.insert_eq_of_mem hk] at h2 h3
    rw [h3, h2]; rfl
  · rw [Finset.sum_insert hk] at h3
    have h0 : (s.add k v).count k = 0 := by
      by_contra hne; exact hk (hS k hne)
    rw [h0, zero_add, h2] at h3
    exact h3

theorem totalIsSum_rename {s : SignedMultiset K} (h : TotalIsSum s) {a b : K}
    (ha : s.count a ≠ 0) (hb : s.count b = 0 ∨ a = b) : TotalIsSum (s.rename a b) := by
  intro S hS
  rcases eq_or_ne a b with hab | hab
  · subst hab
    have : (s.rename a a).count = s.count := by
      funext x; by_cases hx : x = a <;> simp [SignedMultiset.rename, hx]
    rw [this]
    refine h S fun k hk => hS k (by rw [this]; exact hk)
  · have hb0 : s.count b = 0 := by
      rcases hb with hb | hb
      · exact hb
      · exact absurd hb hab
    have hbS : b ∈ S := hS b (by simp [SignedMultiset.rename, ha])
    have h1 : ∀ x, s.count x ≠ 0 → x ∈ insert a (S.erase b) := by
      intro x hx
      by_cases hxa : x = a
      · simp [hxa]
      · have hxb : x ≠ b := by rintro rfl; exact hx hb0
        refine Finset.mem_insert_of_mem (Finset.mem_erase.mpr ⟨hxb, hS x ?_⟩)
        simpa [SignedMultiset.rename, hxa, hxb] using hx
    have h2 := h _ h1
    have h3 : ∑ x ∈ insert a (S.erase b), s.count x
        = s.count a + ∑ x ∈ (S.erase b).erase a, s.count x := by
      rw [← Finset.insert_erase (Finset.mem_insert_self a (S.erase b)),
        Finset.sum_insert (Finset.notMem_erase _ _), Finset.erase_insert_eq_erase]
    rw [h3] at h2
    rw [← Finset.add_sum_erase S _ hbS]
    have h4 : ∑ x ∈ S.erase b, (s.rename a b).count x
        = ∑ x ∈ (S.erase b).erase a, s.count x := by
      have hsub : (S.erase b).erase a ⊆ S.erase b := Finset.erase_subset _ _
      rw [← Finset.sum_subset hsub]
      · apply Finset.sum_congr rfl
        intro x hx
        rw [Finset.mem_erase, Finset.mem_erase] at hx
        simp [SignedMultiset.rename, hx.1, hx.2.1]
      · intro x hx hx'
        rw [Finset.mem_erase] at hx
        have : x = a := by
          by_contra hne
          exact hx' (Finset.mem_erase.mpr ⟨hne, Finset.mem_erase.mpr hx⟩)
        simp [SignedMultiset.rename, this, hab]
    rw [h4]
    have h5 : (s.rename a b).count b = s.count a := by simp [SignedMultiset.rename]
    rw [h5]; exact h2

theorem totalIsSum_step {s : SignedMultiset K} (h : TotalIsSum s) {op : CounterOp K}
    (hv : op.Valid s) : TotalIsSum (op.step s) := by
  cases op with
  | clear => intro S _; simp [CounterOp.step, SignedMultiset.empty]
  | initCount k v => exact totalIsSum_add h
  | add k v => exact totalIsSum_add h
  | remove k => exact totalIsSum_add h
  | rename a b =>
    simp only [CounterOp.step]
    split_ifs with ha
    · exact h
    · refine totalIsSum_rename h ha ?_
      rcases hv with hv | hv
      · exact absurd hv ha
      · exact hv

theorem totalIsSum_run {s : SignedMultiset K} (h : TotalIsSum s) {ops : List (CounterOp K)}
    (hv : ValidCounterHistory s ops) : TotalIsSum (runCounter s ops) := by
  induction ops generalizing s with
  | nil => exact h
  | cons op ops ih => exact ih (totalIsSum_step h hv.1) hv.2

omit [DecidableEq K] in
theorem totalIsSum_empty : TotalIsSum (SignedMultiset.empty : SignedMultiset K) := by
  intro S _; simp [SignedMultiset.empty]

end SparseCounter

end Dist

namespace Dist

open Spec

namespace SparseCounter

variable {K : Type} [DecidableEq K]

theorem Rep.mergeLoop {c : SparseCounter K} {s : SignedMultiset K} (h : c.Rep s)
    (es : List (K × Int))
    (hnd : (es.map Prod.fst).Nodup)
    (hc : ∀ e ∈ es, InInt32 (s.count e.1 + e.2))
    (hb : |s.total| + (es.map fun e => |e.2|).sum ≤ 2147483647) :
    ∃ c', c.mergeLoop es = .ok c' ∧
      c'.Rep (es.foldl (fun s e => s.add e.1 e.2) s) := by
  induction es generalizing c s with
  | nil => exact ⟨c, rfl, h⟩
  | cons e es ih =>
    obtain ⟨k, v⟩ := e
    simp only [List.map_cons, List.sum_cons, List.nodup_cons] at hb hnd
    have hnn : 0 ≤ (es.map fun e => |e.2|).sum := List.sum_nonneg (by
      intro x hx; simp only [List.mem_map] at hx
      obtain ⟨_, _, rfl⟩ := hx; exact abs_nonneg _)
    have habs : |s.total + v| ≤ |s.total| + |v| := abs_add_le _ _
    have hin : InInt32 (s.total + v) := by
      have := abs_le.mp (show |s.total + v| ≤ 2147483647 by omega)
      unfold InInt32 int32Min int32Max; omega
    obtain ⟨c1, h1, h2⟩ := h.add (hc (k, v) (by simp)) hin
    have := ih h2 hnd.2 (by
      intro e he
      have hne : e.1 ≠ k := by
        rintro rfl
        exact hnd.1 (List.mem_map.mpr ⟨e, he, rfl⟩)
      simpa [SignedMultiset.add, hne] using hc e (List.mem_cons_of_mem _ he))
      (by show |s.total + v| + _ ≤ _; omega)
    obtain ⟨c2, h3, h4⟩ := this
    exact ⟨c2, by simp [SparseCounter.mergeLoop, h1, h3], h4⟩

theorem foldl_add_total (es : List (K × Int)) (s : SignedMultiset K) :
    (es.foldl (fun s e => s.add e.1 e.2) s).total = s.total + (es.map Prod.snd).sum := by
  induction es generalizing s with
  | nil => simp
  | cons e es ih =>
    simp only [List.foldl_cons, ih, List.map_cons, List.sum_cons]
    show s.total + e.2 + _ = _
    ring

theorem foldl_add_count (es : List (K × Int)) (s : SignedMultiset K) (k : K) :
    (es.foldl (fun s e => s.add e.1 e.2) s).count k
      = s.count k + (es.map fun e => if e.1 = k then e.2 else 0).sum := by
  induction es generalizing s with
  | nil => simp
  | cons e es ih =>
    simp only [List.foldl_cons, ih, List.map_cons, List.sum_cons]
    have : (s.add e.1 e.2).count k = s.count k + if e.1 = k then e.2 else 0 := by
      by_cases hk : e.1 = k
      · simp [SignedMultiset.add, hk]
      · simp [SignedMultiset.add, hk, Ne.symm hk]
    rw [this]; ring

theorem Rep.entries {c : SparseCounter K} {s : SignedMultiset K} (h : c.Rep s) {ks : List K}
    (hk : ∀ k ∈ ks, s.count k ≠ 0) :
    c.map.entries ks = ks.map fun k => (k, s.count k) := by
  induction ks with
  | nil => rfl
  | cons k ks ih =>
    have h0 := hk k (by simp)
    have ih' := ih fun x hx => hk x (List.mem_cons_of_mem _ hx)
    unfold FMap.entries at ih' ⊢
    rw [List.filterMap_cons, h.count, if_neg h0, ih']; rfl

theorem sum_ite_enum (ks : List K) (hnd : ks.Nodup) (f : K → Int) (k : K) :
    (ks.map fun x => if x = k then f x else 0).sum = if k ∈ ks then f k else 0 := by
  induction ks with
  | nil => simp
  | cons a as ih =>
    rw [List.nodup_cons] at hnd
    simp only [List.map_cons, List.sum_cons, ih hnd.2, List.mem_cons]
    by_cases hak : a = k
    · subst hak; simp [hnd.1]
    · simp [hak, Ne.symm hak]

theorem merge_rep {a b : SparseCounter K} {s t : SignedMultiset K}
    (ha : a.Rep s) (hb : b.Rep t) (ks : List K) (hks : b.map.Enum ks)
    (hcount : ∀ k, InInt32 (s.count k + t.count k))
    (htotal : |s.total| + 2 * (ks.map fun k => |t.count k|).sum ≤ 2147483647)
    (ht : t.total = (ks.map t.count).sum) :
    ∃ c', a.merge b ks = .ok c' ∧
      (∀ k, c'.getCount k = s.count k + t.count k) ∧
      (∀ ks', c'.map.Enum ks' → ∀ k, k ∈ ks' ↔ s.count k + t.count k ≠ 0) ∧
      c'.total = some (s.total + 2 * t.total) := by
  have hmem : ∀ k ∈ ks, t.count k ≠ 0 := fun k hk => (hb.mem_keys k).mp ((hks.mem k).mp hk)
  have hent := hb.entries hmem
  have hnn : 0 ≤ (ks.map fun k => |t.count k|).sum := List.sum_nonneg (by
      intro x hx; simp only [List.mem_map] at hx
      obtain ⟨_, _, rfl⟩ := hx; exact abs_nonneg _)
  obtain ⟨c1, h1, h2⟩ := ha.mergeLoop (b.map.entries ks)
    (by rw [hent, List.map_map]; simpa [Function.comp_def] using hks.nodup)
    (by rw [hent]; intro e he; simp only [List.mem_map] at he
        obtain ⟨k, _, rfl⟩ := he; exact hcount k)
    (by rw [hent, List.map_map]; simp only [Function.comp_def]; omega)
  have hcnt : ∀ k, ((b.map.entries ks).foldl (fun s e => s.add e.1 e.2) s).count k
      = s.count k + t.count k := by
    intro k
    rw [SparseCounter.foldl_add_count, hent, List.map_map]
    simp only [Function.comp_def]
    rw [SparseCounter.sum_ite_enum ks hks.nodup]
    split_ifs with hk
    · rfl
    · have : t.count k = 0 := by
        by_contra hne
        exact hk ((hks.mem k).mpr ((hb.mem_keys k).mpr hne))
      rw [this]
  have htot : ((b.map.entries ks).foldl (fun s e => s.add e.1 e.2) s).total
      = s.total + t.total := by
    rw [SparseCounter.foldl_add_total, hent, List.map_map, ht]; rfl
  have habs : |t.total| ≤ (ks.map fun k => |t.count k|).sum := by
    rw [ht]
    clear ht hmem hent h1 h2 hcnt htot hks htotal hnn
    induction ks with
    | nil => simp
    | cons k ks ih =>
      simp only [List.map_cons, List.sum_cons]
      have := abs_add_le (t.count k) (ks.map t.count).sum
      omega
  have hov : InInt32 (s.total + t.total + t.total) := by
    have h1 := abs_le.mp (le_refl |s.total|)
    have h2 := abs_le.mp (le_refl |t.total|)
    unfold InInt32 int32Min int32Max; omega
  refine ⟨⟨c1.map, some (s.total + t.total + t.total)⟩, ?_, ?_, ?_, ?_⟩
  · simp only [SparseCounter.merge, h1, Res.ok_bind, SparseCounter.getTotal, hb.total,
      h2.total, htot, SparseCounter.bumpTotal, i32_of hov, Res.pure_eq]
  · intro k
    have := h2.getCount k
    rw [hcnt] at this; exact this
  · intro ks' hk' k
    rw [hk'.mem]
    have := h2.mem_keys k
    rw [hcnt] at this; exact this
  · simp only []; congr 1; ring

end SparseCounter

namespace Sparse

variable {K V : Type} [DecidableEq K]

theorem step_ok (lvl : Nat) (m : FMap K V) (op : MapOp K V) (hv : op.Valid m.lookup) :
    ∃ m', stepOp lvl m op = .ok (m', op.result m.lookup) ∧ m'.lookup = op.step m.lookup := by
  cases op with
  | add k v =>
    have hc : m.contains k = false := by simpa [FMap.contains, MapOp.Valid] using hv
    exact ⟨m.set k v, by simp [stepOp, add, hc, MapOp.result], rfl⟩
  | remove k =>
    have hc : m.contains k = true := by
      simpa [FMap.contains, MapOp.Valid, Option.isSome_iff_ne_none] using hv
    exact ⟨m.erase k, by simp [stepOp, remove, hc, MapOp.result], rfl⟩
  | pop k =>
    obtain ⟨v, hv'⟩ := Option.ne_none_iff_exists'.mp hv
    have hc : m.contains k = true := by simp [FMap.contains, hv']
    exact ⟨m.erase k, by simp [stepOp, pop, hc, hv', MapOp.result], rfl⟩
  | set k v =>
    obtain ⟨w, hv'⟩ := Option.ne_none_iff_exists'.mp hv
    have hc : m.contains k = true := by simp [FMap.contains, hv']
    exact ⟨m.set k v, by simp [stepOp, set, hc, hv', MapOp.result], rfl⟩
  | get k =>
    obtain ⟨w, hv'⟩ := Option.ne_none_iff_exists'.mp hv
    have hc : m.contains k = true := by simp [FMap.contains, hv']
    exact ⟨m, by simp [stepOp, get, hc, hv', MapOp.result], rfl⟩
  | getOrAdd k d =>
    cases hk : m.lookup k with
    | none => exact ⟨m.set k d, by simp [stepOp, getOrAdd, hk, MapOp.result],
        by funext x; simp [MapOp.step, hk]⟩
    | some v =>
      refine ⟨m, by simp [stepOp, getOrAdd, hk, MapOp.result], ?_⟩
      funext x
      by_cases hx : x = k <;> simp [MapOp.step, hk, hx]

end Sparse

end Dist
