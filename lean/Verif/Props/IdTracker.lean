import Verif.Lemmas.IdTracker

/-! # Properties C01, C09, C10: packed vectors and global ids -/

namespace Dist

open Spec

/-! ## C01 -/

/-- **C01.** Removing position `p` of a packed vector keeps every other element
exactly once: the removed element plus the result is a permutation of the input;
position `p` receives the former last element and no other position changes. -/
theorem C01_packed_remove {α : Type} (lvl : Nat) (v : List α) (p : Nat) (hp : p < v.length) :
    ∃ w, packedRemove lvl v p = .ok w ∧ w.length + 1 = v.length ∧
      (v[p] :: w).Perm v ∧
      (p < w.length → w[p]? = v.getLast?) ∧
      (∀ q, q < w.length → q ≠ p → w[q]? = v[q]?) := by
  refine ⟨_, packedRemove_eq lvl hp, ?_, ?_, ?_, ?_⟩
  · rw [Driver.swapRemove_length]; omega
  · exact Driver.perm_swapRemove (List.getElem?_eq_getElem hp)
  · intro h
    rw [Driver.swapRemove_length] at h
    rw [Driver.swapRemove_getElem? hp, if_pos h, if_pos rfl, List.getLast?_eq_getElem?]
  · intro q hq hqp
    rw [Driver.swapRemove_length] at hq
    rw [Driver.swapRemove_getElem? hp, if_pos hq, if_neg hqp]

/-- Outside the vector the call is rejected when assertions are on and undefined
in release builds. -/
theorem C01_packed_remove_out_of_range {α : Type} (lvl : Nat) (v : List α) (p : Nat)
    (hp : v.length ≤ p) : packedRemove lvl v p = if 1 ≤ lvl then .fail else .ub := by
  unfold packedRemove
  split_ifs with h
  · rw [distAssert_of_not h (by omega)]; rfl
  · rw [distAssert_of_lt (by omega), Res.ok_bind]
    by_cases hv : v = []
    · subst hv; simp
    · rw [backOf_of hv, Res.ok_bind, setAt_of_ge hp]; rfl

/-- Adding appends and disturbs nothing. -/
theorem C01_packed_add {α : Type} (v : List α) (a : α) :
    (packedAdd v a).length = v.length + 1 ∧ (packedAdd v a)[v.length]? = some a ∧
      ∀ q, q < v.length → (packedAdd v a)[q]? = v[q]? := by
  refine ⟨by simp [packedAdd], by simp [packedAdd], ?_⟩
  intro q hq
  simp [packedAdd, List.getElem?_append_left hq]

example : packedRemove 3 [10, 11, 12, 13] 1 = .ok [10, 13, 12] := by decide

/-! ## C09 -/

/-- **C09.** After `init(n)` and any valid history of `add_group`/`remove_group`
with at most `2^32` creations, at every debug level: every call succeeds; the group
at packed position `p` has as its global id its creation number (so ids of
surviving groups never change and are never reused); and `packed_to_global` and
`global_to_packed` are inverse to each other. -/
theorem C09_ids (lvl : Nat) (t : IdTracker) (n : Nat) (ops : List GroupOp)
    (hv : ValidGroupHistory (Groups.start n) ops)
    (hb : ((Groups.start n).run ops).created ≤ 4294967296) :
    ∃ t0 t', t.init n = .ok t0 ∧ t0.runOps lvl ops = .ok t' ∧
      t'.packedToGlobal.length = ((Groups.start n).run ops).live.length ∧
      ((Groups.start n).run ops).live.Nodup ∧
      ∀ p g, ((Groups.start n).run ops).live[p]? = some g →
        t'.packedToGlobalId lvl p = .ok g ∧ t'.globalToPackedId lvl g = .ok p := by
  obtain ⟨t0, h1, h2⟩ := IdTracker.rep_init t n
    (Nat.le_trans (IdTracker.created_mono (Groups.start n) ops) hb)
  obtain ⟨t', h3, h4⟩ := h2.run lvl hv hb
  exact ⟨t0, t', h1, h3, by rw [h4.p2g], h4.nodup,
    fun p g hp => ⟨h4.packedToGlobalId lvl hp, h4.globalToPackedId lvl hp⟩⟩

/-- Ids of dead or never created groups: with assertions on, looking them up is an
error; in release builds it is undefined behaviour. -/
theorem C09_stale_id (lvl : Nat) (t : IdTracker) (n : Nat) (ops : List GroupOp)
    (hv : ValidGroupHistory (Groups.start n) ops)
    (hb : ((Groups.start n).run ops).created ≤ 4294967296)
    (t0 t' : IdTracker) (h0 : t.init n = .ok t0) (h : t0.runOps lvl ops = .ok t') (g : Nat)
    (hg : g ∉ ((Groups.start n).run ops).live) :
    t'.globalToPackedId lvl g = if 1 ≤ lvl then .fail else .ub := by
  obtain ⟨t0', h1, h2⟩ := IdTracker.rep_init t n
    (Nat.le_trans (IdTracker.created_mono (Groups.start n) ops) hb)
  rw [h0] at h1; injection h1 with h1; subst h1
  obtain ⟨t'', h3, h4⟩ := h2.run lvl hv hb
  rw [h] at h3; injection h3 with h3; subst h3
  have hnone : t'.globalToPacked.lookup g = none := by
    cases hh : t'.globalToPacked.lookup g with
    | none => rfl
    | some p => exact absurd (List.mem_of_getElem? ((h4.g2p _ _).mp hh)) hg
  have hc : ¬ (t'.globalToPacked.contains g = true) := by simp [FMap.contains, hnone]
  unfold IdTracker.globalToPackedId
  split_ifs with hl
  · simp only [IdTracker.getGlobalSize, h4.size, Res.ok_bind]
    rw [distAssert_of_not hl hc]
    unfold distAssert; split_ifs <;> rfl
  · rw [Res.ok_bind, distAssert_of_lt (by omega), Res.ok_bind, distAssert_of_lt (by omega),
      Res.ok_bind]
    simp [hnone]

example : ValidGroupHistory (Groups.start 2) [.add, .remove 0, .add, .remove 1] ∧
    (Groups.start 2).run [.add, .remove 0, .add, .remove 1] = ⟨[2, 3], 4⟩ := by
  refine ⟨⟨trivial, by decide, trivial, by decide, trivial⟩, by decide⟩

/-! ## C10 -/

/-- `k` times: create a group and drop it again. -/
def churn : Nat → List GroupOp
  | 0 => []
  | k + 1 => .add :: .remove 1 :: churn k

theorem churn_valid (k c : Nat) : ValidGroupHistory ⟨[0], c⟩ (churn k) ∧
    (Groups.mk [0] c).run (churn k) = ⟨[0], c + k⟩ := by
  induction k generalizing c with
  | zero => exact ⟨trivial, rfl⟩
  | succ k ih =>
    obtain ⟨h1, h2⟩ := ih (c + 1)
    have hs : (GroupOp.remove 1).step (GroupOp.add.step ⟨[0], c⟩) = ⟨[0], c + 1⟩ := by
      simp [GroupOp.step, swapRemove]
    refine ⟨⟨trivial, ?_, ?_⟩, ?_⟩
    · show 1 < _; simp [GroupOp.step]
    · rw [hs]; exact h1
    · simp only [churn, Groups.run, List.foldl_cons, hs]
      rw [Groups.run] at h2
      rw [h2]; congr 1; omega

/-- **C10 (finding).** Global ids are 32 bits wide.  There is a valid history that
never has more than two groups alive, after which `add_group` succeeds at every
debug level and gives the new group the global id of a group that is still alive;
the id then translates back to the old group only. -/
theorem C10_global_ids_wrap (lvl : Nat) (t : IdTracker) :
    ∃ t0 t1 t2, t.init 1 = .ok t0 ∧ t0.runOps lvl (churn 4294967295) = .ok t1 ∧
      t1.stepOp lvl .add = .ok t2 ∧
      t2.packedToGlobalId lvl 0 = .ok 0 ∧ t2.packedToGlobalId lvl 1 = .ok 0 ∧
      t2.globalToPackedId lvl 0 = .ok 0 := by
  obtain ⟨hv, hr⟩ := churn_valid 4294967295 1
  obtain ⟨t0, h1, h2⟩ := IdTracker.rep_init t 1 (by omega)
  have hs : Groups.start 1 = ⟨[0], 1⟩ := by decide
  rw [hs] at h2
  obtain ⟨t1, h3, h4⟩ := h2.run lvl hv (by rw [hr])
  rw [hr] at h4
  have hk : t1.globalToPacked.lookup 0 = some 0 := (h4.g2p 0 0).mpr rfl
  have hp := h4.p2g
  have hg := h4.size
  simp only at hp hg
  have e1 : toU32 4294967296 = 0 := by decide
  have hc : t1.globalToPacked.contains 0 = true := by simp [FMap.contains, hk]
  have hstep : t1.stepOp lvl .add = .ok ⟨[0, 0], t1.globalToPacked, some 4294967297⟩ := by
    simp [IdTracker.stepOp, IdTracker.addGroup, IdTracker.getGlobalSize, hg, hp, packedAdd, e1,
      IdTracker.insertNew, hc]
  refine ⟨t0, t1, _, h1, h3, hstep, ?_, ?_, ?_⟩
  · unfold IdTracker.packedToGlobalId
    by_cases hl : 1 ≤ lvl <;> simp [getAt, IdTracker.getGlobalSize, distAssert, hl]
  · unfold IdTracker.packedToGlobalId
    by_cases hl : 1 ≤ lvl <;> simp [getAt, IdTracker.getGlobalSize, distAssert, hl]
  · unfold IdTracker.globalToPackedId
    by_cases hl : 1 ≤ lvl <;> simp [IdTracker.getGlobalSize, hc, hk, distAssert, hl]

end Dist
