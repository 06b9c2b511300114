import Mathlib.Data.List.Count
import Verif.Lemmas.Driver

/-! # Properties C05-C08, C12: the mixture driver -/

set_option linter.unusedSimpArgs false

namespace Dist

open Spec

/-! ## C05 -/

/-- **C05.** After `init` on any counts vector and any history of valid calls, at
every debug level: no assertion fires and nothing is undefined; the counts are the
specified group sizes, `empty_groupids` is exactly the set of positions of count
zero, and `sample_size` is the sum of the counts. -/
theorem C05_driver_bookkeeping (lvl : Nat) (l0 : List Nat) (ops : List Op)
    (hs : l0.sum ≤ 2147483647) (he : lvl = 0 ∨ 0 ∈ l0) (hv : ValidHistory l0 ops) :
    ∃ d0 d, (Driver.raw (l0.map Int.ofNat)).init lvl = .ok d0 ∧
      d0.runOps lvl ops = .ok (d, flags l0 ops) ∧
      d.counts = (run l0 ops).map Int.ofNat ∧
      (∀ i, i ∈ d.emptyIds ↔ d.counts[i]? = some 0) ∧
      d.sampleSize = some d.counts.sum := by
  refine ⟨Driver.ofSizes l0, Driver.ofSizes (run l0 ops), ?_,
    (Driver.runOps_ofSizes lvl hv he hs).1, rfl, ?_, ?_⟩
  · rw [Driver.init_eq lvl l0 hs, if_pos he]
  · intro i
    rw [Driver.mem_ofSizes]
    simp only [Driver.ofSizes_counts, List.getElem?_map]
    cases (run l0 ops)[i]? <;> simp
  · simp only [Driver.ofSizes_sampleSize, Driver.ofSizes_counts, Option.some.injEq]
    generalize run l0 ops = l
    induction l with
    | nil => simp
    | cons a l ih => simp [ih]

/-- With assertions on, `init` rejects a counts vector without an empty group. -/
theorem C05_init_rejects (lvl : Nat) (l0 : List Nat) (hs : l0.sum ≤ 2147483647)
    (hl : 1 ≤ lvl) (h0 : 0 ∉ l0) :
    (Driver.raw (l0.map Int.ofNat)).init lvl = .fail := by
  rw [Driver.init_eq lvl l0 hs, if_neg (by rintro (h | h); · omega
                                           · exact h0 h)]

/-- The hypotheses are met by a history that creates and drops groups. -/
example : ValidHistory [0, 2, 0] [.add 0 3, .remove 1 2, .add 1 1, .remove 0 3] ∧
    run [0, 2, 0] [.add 0 3, .remove 1 2, .add 1 1, .remove 0 3] = [0, 1, 0] := by
  refine ⟨?_, by decide⟩
  refine ⟨by decide, by decide, by decide, by decide, trivial⟩

/-! ## C06 -/

/-- **C06.** For every reachable driver and every valid call: the returned flag is
true exactly when the target group was empty (add) or becomes empty (remove); the
number of groups changes by one exactly then; and the number of empty groups never
changes. -/
theorem C06_flags_and_empty_groups (lvl : Nat) (d : Driver) (hd : d.Reachable lvl)
    (l : List Nat) (hl : d.counts = l.map Int.ofNat) (op : Op) (hv : op.Valid l) :
    ∃ d' b, d.stepOp lvl op = .ok (d', b) ∧ d'.Reachable lvl ∧
      d'.emptyIds.card = d.emptyIds.card ∧
      (match op with
       | .add g c =>
         (b = true ↔ l[g]? = some 0) ∧
         (b = true → d'.counts = (l.set g c).map Int.ofNat ++ [0]) ∧
         (b = false → d'.counts = (l.set g (l.getD g 0 + c)).map Int.ofNat)
       | .remove g c =>
         (b = true ↔ l[g]? = some c) ∧
         (b = true → d'.counts = (swapRemove l g).map Int.ofNat) ∧
         (b = false → d'.counts = (l.set g (l.getD g 0 - c)).map Int.ofNat)) := by
  have hd' := hd
  obtain ⟨l', rfl, hs, he⟩ := hd.eq_ofSizes
  have hll : l' = l := by
    have : Function.Injective Int.ofNat := fun a b h => by simpa using h
    exact List.map_injective_iff.mpr this (by simpa using hl)
  subst hll
  refine ⟨Driver.ofSizes (op.step l'), op.flag l', Driver.stepOp_ofSizes lvl hv he hs, ?_, ?_, ?_⟩
  · obtain ⟨l0, ops, d0, a1, a2, a3, a4, fl, a5⟩ := hd'
    have hd0 := a4
    rw [Driver.init_eq lvl l0 a1, if_pos a2] at a4
    injection a4 with a4
    subst a4
    obtain ⟨b1, _, _, _⟩ := Driver.runOps_ofSizes lvl a3 a2 a1
    rw [b1] at a5
    injection a5 with a5
    rw [Prod.mk.injEq] at a5
    have hrun : run l0 ops = l' := by
      have := congrArg Driver.counts a5.1
      simp only [Driver.ofSizes_counts] at this
      have inj : Function.Injective Int.ofNat := fun a b h => by simpa using h
      exact List.map_injective_iff.mpr inj this
    have hv' : ∀ (l : List Nat) (ops : List Op), ValidHistory l ops → op.Valid (run l ops) →
        ValidHistory l (ops ++ [op]) := by
      intro l ops
      induction ops generalizing l with
      | nil => intro _ h; exact ⟨h, trivial⟩
      | cons o os ih => intro h h'; exact ⟨h.1, ih _ h.2 h'⟩
    have hva := hv' l0 ops a3 (by rw [hrun]; exact hv)
    refine ⟨l0, ops ++ [op], _, a1, a2, hva, hd0, flags l0 (ops ++ [op]), ?_⟩
    rw [(Driver.runOps_ofSizes lvl hva a2 a1).1]
    congr 2
    simp [run, List.foldl_append, ← hrun]
  · rw [Driver.ofSizes_card, Driver.ofSizes_card, Driver.count_zero_step hv]
  · cases op with
    | add g c =>
      simp only [Op.flag, Op.step, beq_iff_eq, beq_eq_false_iff_ne, Driver.ofSizes_counts, true_and]
      refine ⟨fun h => ?_, fun h => ?_⟩
      · simp [addTo, h]
      · rw [addTo, if_neg h]
    | remove g c =>
      simp only [Op.flag, Op.step, beq_iff_eq, beq_eq_false_iff_ne, Driver.ofSizes_counts, true_and]
      refine ⟨fun h => ?_, fun h => ?_⟩
      · simp [removeFrom, h]
      · rw [removeFrom, if_neg h]

/-- **C06, whole histories.** The number of empty groups is the same before and
after every history; in particular an initial empty group guarantees one for ever. -/
theorem C06_empty_count_constant (lvl : Nat) (l0 : List Nat) (ops : List Op)
    (hs : l0.sum ≤ 2147483647) (he : lvl = 0 ∨ 0 ∈ l0) (hv : ValidHistory l0 ops)
    (d0 d : Driver) (fl : List Bool) (h0 : (Driver.raw (l0.map Int.ofNat)).init lvl = .ok d0)
    (h : d0.runOps lvl ops = .ok (d, fl)) :
    d.emptyIds.card = l0.count 0 := by
  rw [Driver.init_eq lvl l0 hs, if_pos he] at h0
  injection h0 with h0
  subst h0
  obtain ⟨b1, _, _, b4⟩ := Driver.runOps_ofSizes lvl hv he hs
  rw [b1] at h
  injection h with h
  rw [Prod.mk.injEq] at h
  rw [← h.1, Driver.ofSizes_card, b4]

/-! ## C07 -/

/-- **C07.** Adding and then removing the same values restores the driver exactly
(counts, empty ids, sample size), and both calls return the same flag. -/
theorem C07_add_remove (lvl : Nat) (d : Driver) (hd : d.Reachable lvl) (g c : Nat)
    (hg : g < d.counts.length) (hc : 0 < c) (hs : d.counts.sum + c ≤ 2147483647) :
    ∃ d' b, d.addValue lvl g c = .ok (d', b) ∧ d'.removeValue lvl g c = .ok (d, b) := by
  obtain ⟨l, rfl, hsl, he⟩ := hd.eq_ofSizes
  have hsum : ∀ l : List Nat, (l.map Int.ofNat).sum = ((l.sum : Nat) : Int) := by
    intro l; induction l with
    | nil => simp
    | cons a l ih => simp [ih]
  rw [Driver.ofSizes_counts, hsum] at hs
  rw [Driver.ofSizes_counts, List.length_map] at hg
  have hv : (Op.add g c).Valid l := ⟨hg, hc, by omega⟩
  have hgl : l[g]? = some l[g] := List.getElem?_eq_getElem hg
  refine ⟨_, _, Driver.addValue_ofSizes lvl hv, ?_⟩
  have he' : lvl = 0 ∨ 0 ∈ addTo l g c := Driver.has_empty_step (op := .add g c) hv he
  have hs' : (addTo l g c).sum ≤ 2147483647 := Driver.sum_step (op := .add g c) hv hsl
  have hget : (addTo l g c)[g]? = some (l[g] + c) := by
    unfold addTo
    split_ifs with h
    · have : l[g] = 0 := by rw [hgl] at h; simpa using h
      rw [List.getElem?_append_left (by simpa using hg)]
      simp [hg, this]
    · simp [hg, List.getD, hgl]
  rw [Driver.removeValue_ofSizes lvl ⟨hc, _, hget, by omega⟩ he' hs', hget]
  have hb : (some (l[g] + c) == some c) = (l[g]? == some 0) := by
    rw [hgl]; by_cases h : l[g] = 0 <;> simp [h]
  rw [hb]
  congr 3
  by_cases h : l[g] = 0
  · rw [removeFrom, if_pos (by rw [hget, h, Nat.zero_add])]
    have h0 : l[g]? = some 0 := by rw [hgl, h]
    have hadd : addTo l g c = l.set g c ++ [0] := by simp [addTo, h0]
    rw [hadd]
    simp only [swapRemove, List.append_eq_nil_iff, List.cons_ne_self, and_false, dite_false,
      List.getLast_append_singleton]
    rw [List.set_append_left _ _ (by simpa using hg)]
    rw [List.dropLast_concat, List.set_set, ← h, List.set_getElem_self]
  · rw [removeFrom, if_neg (by rw [hget]; simpa using h)]
    have h0 : l[g]? ≠ some 0 := by rw [hgl]; simpa using h
    have hadd : addTo l g c = l.set g (l[g] + c) := by
      rw [addTo, if_neg h0]; simp [List.getD, hgl]
    simp only [List.getD, hget, Option.getD_some, Nat.add_sub_cancel]
    rw [hadd, List.set_set, List.set_getElem_self]

/-- **C07, the other way round.** Removing values and adding them back, to the same
group if it survived and to any empty group otherwise, restores the multiset of
group sizes. -/
theorem C07_remove_add (lvl : Nat) (d : Driver) (hd : d.Reachable lvl) (g c : Nat)
    (hc : 0 < c) (n : Int) (hn : d.counts[g]? = some n) (hcn : c ≤ n) :
    ∃ d1 b, d.removeValue lvl g c = .ok (d1, b) ∧
      ∀ e, (if b then d1.counts[e]? = some 0 else e = g) →
        ∃ d2, d1.addValue lvl e c = .ok (d2, b) ∧ d2.counts.Perm d.counts := by
  obtain ⟨l, rfl, hsl, he⟩ := hd.eq_ofSizes
  rw [Driver.ofSizes_counts, List.getElem?_map] at hn
  obtain ⟨m, hm, rfl⟩ := Option.map_eq_some_iff.mp hn
  have hcm : c ≤ m := by simpa using hcn
  have hg : g < l.length := (List.getElem?_eq_some_iff.mp hm).1
  have hgm : l[g] = m := (List.getElem?_eq_some_iff.mp hm).2
  have hv : (Op.remove g c).Valid l := ⟨hc, m, hm, hcm⟩
  refine ⟨_, _, Driver.removeValue_ofSizes lvl hv he hsl, ?_⟩
  intro e hif
  by_cases hb : m = c
  · subst hb
    simp only [hm, beq_self_eq_true, if_true, Driver.ofSizes_counts, List.getElem?_map] at hif
    have hr : removeFrom l g m = swapRemove l g := by simp [removeFrom, hm]
    have hsr := Driver.sum_swapRemove hm
    rw [hr] at hif ⊢
    obtain ⟨z, hz, hz0⟩ := Option.map_eq_some_iff.mp hif
    have hz0' : z = 0 := by simpa using hz0
    subst hz0'
    have hel : e < (swapRemove l g).length := (List.getElem?_eq_some_iff.mp hz).1
    have hva : (Op.add e m).Valid (swapRemove l g) := ⟨hel, hc, by omega⟩
    refine ⟨Driver.ofSizes (addTo (swapRemove l g) e m), ?_, ?_⟩
    · rw [Driver.addValue_ofSizes lvl hva, hz, hm]; simp
    · simp only [Driver.ofSizes_counts]
      apply List.Perm.map
      have hadd : addTo (swapRemove l g) e m = (swapRemove l g).set e m ++ [0] := by
        simp [addTo, hz]
      rw [hadd]
      have h1 : ((swapRemove l g).set e m).Perm (m :: (swapRemove l g).eraseIdx e) :=
        List.set_perm_cons_eraseIdx hel _
      have h2 : (0 :: (swapRemove l g).eraseIdx e).Perm (swapRemove l g) := by
        have := List.getElem_cons_eraseIdx_perm hel
        have hz' : (swapRemove l g)[e] = 0 := (List.getElem?_eq_some_iff.mp hz).2
        rw [hz'] at this; exact this
      refine (List.perm_append_singleton _ _).trans ?_
      refine (List.Perm.cons 0 h1).trans ((List.Perm.swap _ _ _).trans ?_)
      exact (List.Perm.cons m h2).trans (Driver.perm_swapRemove hm)
  · have hb' : (l[g]? == some c) = false := by rw [hm]; simpa using hb
    rw [hb'] at hif ⊢
    simp only [Bool.false_eq_true, if_false] at hif
    subst hif
    have hr : removeFrom l e c = l.set e (m - c) := by
      rw [removeFrom, if_neg (by rw [hm]; simpa using hb)]; simp [List.getD, hm]
    rw [hr]
    have hss := Driver.sum_set_add (m := m - c) hm
    have hva : (Op.add e c).Valid (l.set e (m - c)) := ⟨by simpa using hg, hc, by omega⟩
    have hget : (l.set e (m - c))[e]? = some (m - c) := by simp [hg]
    refine ⟨Driver.ofSizes (addTo (l.set e (m - c)) e c), ?_, ?_⟩
    · rw [Driver.addValue_ofSizes lvl hva, hget]
      have : (some (m - c) == some 0) = false := by simp; omega
      rw [this]
    · have : addTo (l.set e (m - c)) e c = l := by
        rw [addTo, if_neg (by rw [hget]; simp; omega)]
        simp only [List.getD, hget, Option.getD_some, List.set_set]
        rw [Nat.sub_add_cancel hcm, ← hgm, List.set_getElem_self]
      rw [this]

/-- A state meeting the hypotheses of C07: two empty groups and one of size 2. -/
example : ∃ d, Driver.Reachable 3 d ∧ d.counts = [0, 2, 0] :=
  ⟨Driver.ofSizes [0, 2, 0], ⟨[0, 2, 0], [], _, by decide, .inr (by decide), trivial,
    by rw [Driver.init_eq _ _ (by decide), if_pos (by decide)], [], rfl⟩, rfl⟩

/-! ## C08 -/

/-- **C08.** At debug level 2 and above a call on *any* driver state (valid or not,
any group id, any count, negative ones included) never has undefined behaviour,
provided the member `sample_size_` is initialised and the two integer updates do
not overflow. -/
theorem C08_add_safe (lvl : Nat) (hl : 2 ≤ lvl) (d : Driver) (g : Nat) (c s : Int)
    (hs : d.sampleSize = some s) (ho : InInt32 (s + c))
    (ho' : ∀ n, d.counts[g]? = some n → InInt32 (n + c)) :
    (d.addValue lvl g c).Safe := by
  unfold Driver.addValue
  refine Res.safe_bind distAssert_safe fun _ _ => ?_
  refine Res.safe_bind distAssert_safe fun _ h => ?_
  have hg : g < d.counts.length := distAssert_eq_ok.mp h hl
  rw [getAt_of hg, Res.ok_bind, i32_of (ho' _ (List.getElem?_eq_getElem hg)), Res.ok_bind,
    setAt_of hg, Res.ok_bind]
  simp only [Driver.getSampleSize, hs, Res.ok_bind, i32_of ho]
  split_ifs
  · refine Res.safe_bind ?_ fun _ _ => by simp
    exact Res.safe_bind distAssert_safe fun _ _ => distAssert_safe
  · simp

theorem C08_remove_safe (lvl : Nat) (hl : 2 ≤ lvl) (d : Driver) (g : Nat) (c s : Int)
    (hs : d.sampleSize = some s) (ho : InInt32 (s - c))
    (ho' : ∀ n, d.counts[g]? = some n → InInt32 (n - c)) :
    (d.removeValue lvl g c).Safe := by
  unfold Driver.removeValue
  refine Res.safe_bind distAssert_safe fun _ _ => ?_
  refine Res.safe_bind distAssert_safe fun _ h => ?_
  have hg : g < d.counts.length := distAssert_eq_ok.mp h hl
  rw [getAt_of hg, Res.ok_bind]
  refine Res.safe_bind distAssert_safe fun _ _ => ?_
  refine Res.safe_bind distAssert_safe fun _ _ => ?_
  rw [i32_of (ho' _ (List.getElem?_eq_getElem hg)), Res.ok_bind, setAt_of hg, Res.ok_bind]
  simp only [Driver.getSampleSize, hs, Res.ok_bind, i32_of ho]
  have hne : ∀ (x : Int) (l : List Int), l.length = d.counts.length → l ≠ [] := by
    intro x l h h'; subst h'; simp at h; omega
  split_ifs
  all_goals try simp
  all_goals
    rw [backOf_of (hne 0 _ (by simp)), Res.ok_bind]
  · rw [setAt_of (by simpa using hg), Res.ok_bind, popBack_of (hne 0 _ (by simp)), Res.ok_bind]
    refine Res.safe_bind ?_ fun _ _ => by simp
    exact Res.safe_bind distAssert_safe fun _ _ => distAssert_safe
  · rw [popBack_of (hne 0 _ (by simp)), Res.ok_bind]
    refine Res.safe_bind ?_ fun _ _ => by simp
    exact Res.safe_bind distAssert_safe fun _ _ => distAssert_safe

/-- **C08, release builds.** Below level 2 an out-of-range group id is undefined
behaviour for every nonzero count. -/
theorem C08_release_bad_group (lvl : Nat) (hl : lvl < 2) (d : Driver) (g : Nat) (c : Int)
    (hc : c ≠ 0) (hg : d.counts.length ≤ g) :
    d.addValue lvl g c = .ub ∧ d.removeValue lvl g c = .ub := by
  constructor
  · unfold Driver.addValue
    rw [distAssert_of hc, Res.ok_bind, distAssert_of_lt hl, Res.ok_bind, getAt_of_ge hg]; rfl
  · unfold Driver.removeValue
    rw [distAssert_of hc, Res.ok_bind, distAssert_of_lt hl, Res.ok_bind, getAt_of_ge hg]; rfl

/-- **C08, incompleteness of the assertions (finding).** A negative count passed to
`add_value` is accepted at every debug level and can leave a group of size zero that
is not registered as empty. -/
theorem C08_negative_add_corrupts (lvl : Nat) :
    ∃ d d' b, Driver.Reachable lvl d ∧ d.addValue lvl 0 (-2) = .ok (d', b) ∧
      d'.counts[0]? = some 0 ∧ 0 ∉ d'.emptyIds := by
  refine ⟨Driver.ofSizes [2, 0], ⟨[0, 0], {1}, some 0⟩, false, ?_, ?_, ?_, ?_⟩
  · exact ⟨[2, 0], [], _, by decide, .inr (by decide), trivial,
      by rw [Driver.init_eq _ _ (by decide), if_pos (.inr (by decide))], [], rfl⟩
  · unfold Driver.addValue
    rw [distAssert_of (by decide), Res.ok_bind, distAssert_of (by decide), Res.ok_bind]
    rfl
  · decide
  · decide

/-- **C08, release builds.** At level 0 removing from an empty group silently
corrupts the bookkeeping: the group count becomes negative. -/
theorem C08_release_remove_from_empty :
    ∃ d d' b, Driver.Reachable 0 d ∧ d.removeValue 0 1 1 = .ok (d', b) ∧
      d'.counts[1]? = some (-1) ∧ 1 ∈ d'.emptyIds := by
  refine ⟨Driver.ofSizes [2, 0], ⟨[2, -1], {1}, some 1⟩, false, ?_, ?_, ?_, ?_⟩
  · exact ⟨[2, 0], [], _, by decide, .inl rfl, trivial,
      by rw [Driver.init_eq _ _ (by decide), if_pos (by decide)], [], rfl⟩
  all_goals decide

/-! ## C12 -/

/-- **C12.** On every reachable driver, `score_value` writes at each position the
model's `score_add_value` of that position's size, the number of nonempty groups,
the sample size and the number of empty groups, for every model and float type. -/
theorem C12_score_value {F : Type} (lvl : Nat) (d : Driver) (hd : d.Reachable lvl)
    (l : List Nat) (hl : d.counts = l.map Int.ofNat)
    (scoreAdd : Int → Int → Int → Int → F) :
    d.scoreValue lvl d.counts.length (fun a b c e => .ok (scoreAdd a b c e)) =
      .ok (l.map fun n : Nat => scoreAdd n (l.length - l.count 0 : Int) l.sum (l.count 0)) := by
  obtain ⟨l', rfl, hs, he⟩ := hd.eq_ofSizes
  have hll : l' = l := by
    have : Function.Injective Int.ofNat := fun a b h => by simpa using h
    exact List.map_injective_iff.mpr this (by simpa using hl)
  subst hll
  unfold Driver.scoreValue
  rw [distAssert_of rfl, Res.ok_bind, if_neg (by omega)]
  simp only [Driver.ofSizes_card, Driver.ofSizes_counts, List.length_map]
  have hm : ∀ (cs : List Nat) (f : Int → F),
      (cs.map Int.ofNat).mapM (fun c => (.ok (f c) : Res F)) = .ok (cs.map fun n : Nat => f n) := by
    intro cs f
    induction cs with
    | nil => rfl
    | cons a cs ih => simp [List.mapM_cons, ih]
  by_cases hnil : l' = []
  · subst hnil; simp
  · rw [if_neg (by simpa using hnil)]
    simp only [Driver.getSampleSize, Driver.ofSizes_sampleSize, Res.ok_bind]
    rw [hm]

end Dist
