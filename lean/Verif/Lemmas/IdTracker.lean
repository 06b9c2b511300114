import Verif.Lemmas.Driver
import Verif.Model.IdTracker
import Verif.Spec.Packed

set_option linter.unusedSimpArgs false

namespace Dist

open Spec

theorem packedRemove_eq {α : Type} (lvl : Nat) {v : List α} {p : Nat} (h : p < v.length) :
    packedRemove lvl v p = .ok (swapRemove v p) := by
  have hne : v ≠ [] := by rintro rfl; simp at h
  unfold packedRemove
  rw [distAssert_of h, Res.ok_bind, backOf_of hne, Res.ok_bind, setAt_of h, Res.ok_bind,
    popBack_of (by simpa using hne)]
  simp [swapRemove, hne]

namespace IdTracker

/-- The tracker represents the group list `s` (fewer than `2^32` creations). -/
structure Rep (t : IdTracker) (s : Groups) : Prop where
  p2g : t.packedToGlobal = s.live
  size : t.globalSize = some s.created
  nodup : s.live.Nodup
  lt : ∀ g ∈ s.live, g < s.created
  bound : s.created ≤ 4294967296
  g2p : ∀ g p, t.globalToPacked.lookup g = some p ↔ s.live[p]? = some g

theorem Rep.length_le {t : IdTracker} {s : Groups} (h : t.Rep s) :
    s.live.length ≤ s.created := by
  have h1 : s.live.toFinset ⊆ Finset.range s.created := by
    intro g hg
    rw [List.mem_toFinset] at hg
    exact Finset.mem_range.mpr (h.lt g hg)
  have := Finset.card_le_card h1
  rwa [List.toFinset_card_of_nodup h.nodup, Finset.card_range] at this

theorem Rep.addGroup {t : IdTracker} {s : Groups} (h : t.Rep s) (hb : s.created < 4294967296) :
    ∃ t', t.addGroup = .ok t' ∧ t'.Rep (GroupOp.add.step s) := by
  have hlen := h.length_le
  unfold IdTracker.addGroup
  simp only [getGlobalSize, h.size, Res.ok_bind, Res.pure_eq, Res.ok.injEq, exists_eq_left',
    GroupOp.step, packedAdd]
  have e1 : toU32 s.created = s.created := Nat.mod_eq_of_lt hb
  have e2 : toU32 t.packedToGlobal.length = s.live.length := by
    rw [h.p2g]; exact Nat.mod_eq_of_lt (by omega)
  have hnew : s.created ∉ s.live := fun hm => by
    have := h.lt _ hm; omega
  have hnone : t.globalToPacked.lookup s.created = none := by
    cases hh : t.globalToPacked.lookup s.created with
    | none => rfl
    | some p => exact absurd (List.mem_of_getElem? ((h.g2p _ _).mp hh)) hnew
  have e3 : insertNew t.globalToPacked (toU32 s.created) (toU32 t.packedToGlobal.length)
      = t.globalToPacked.set s.created s.live.length := by
    rw [e1, e2, insertNew]; simp [FMap.contains, hnone]
  constructor
  · simp [h.p2g, e1]
  · rfl
  · rw [List.nodup_append]
    refine ⟨h.nodup, by simp, ?_⟩
    intro a ha b hb'
    simp at hb'; subst hb'
    rintro rfl; exact hnew ha
  · intro g hg
    simp at hg
    show g < s.created + 1
    rcases hg with hg | rfl
    · have := h.lt _ hg; omega
    · omega
  · show s.created + 1 ≤ _
    omega
  · intro g p
    simp only [e3, FMap.lookup_set]
    by_cases hg : g = s.created
    · subst hg
      simp only [if_true, Option.some.injEq]
      rw [List.getElem?_append]
      split_ifs with hp
      · constructor
        · omega
        · intro hh; exact absurd (List.mem_of_getElem? hh) hnew
      · constructor
        · rintro rfl; simp
        · intro hh
          have := (List.getElem?_eq_some_iff.mp hh).1
          simp at this; omega
    · rw [if_neg hg, h.g2p, List.getElem?_append]
      split_ifs with hp
      · rfl
      · constructor
        · intro hh; exact absurd (List.getElem?_eq_some_iff.mp hh).1 hp
        · intro hh
          have := List.mem_of_getElem? hh
          simp at this; exact absurd this hg

theorem Rep.removeGroup {t : IdTracker} {s : Groups} (h : t.Rep s) (lvl : Nat) {p : Nat}
    (hp : p < s.live.length) :
    ∃ t', t.removeGroup lvl p = .ok t' ∧ t'.Rep ((GroupOp.remove p).step s) := by
  unfold IdTracker.removeGroup
  have hgs : ∃ gs, (if 1 ≤ lvl then t.getGlobalSize else .ok 0 : Res Nat) = .ok gs ∧
      (1 ≤ lvl → gs = s.created) := by
    split_ifs with hl
    · exact ⟨s.created, by simp [getGlobalSize, h.size], fun _ => rfl⟩
    · exact ⟨0, rfl, fun h => absurd h hl⟩
  obtain ⟨gs, hgs1, hgs2⟩ := hgs
  have hass : ∀ g ∈ s.live, distAssert lvl 1 (g < gs) = .ok () := by
    intro g hg
    rw [distAssert_eq_ok]
    intro hl; rw [hgs2 hl]; exact h.lt g hg
  simp only [h.p2g]
  rw [distAssert_of hp, Res.ok_bind, getAt_of hp, Res.ok_bind, hgs1, Res.ok_bind,
    hass _ (List.getElem_mem hp), Res.ok_bind, packedRemove_eq lvl hp, Res.ok_bind]
  have hpg : s.live[p]? = some s.live[p] := List.getElem?_eq_getElem hp
  have hperm := Driver.perm_swapRemove hpg
  have hnd : (swapRemove s.live p).Nodup := by
    have := hperm.nodup_iff.mpr h.nodup
    exact (List.nodup_cons.mp this).2
  have hmem : ∀ g, g ∈ swapRemove s.live p → g ∈ s.live := by
    intro g hg; exact hperm.subset (List.mem_cons_of_mem _ hg)
  have hlen := Driver.swapRemove_length s.live p
  have hnotin : s.live[p] ∉ swapRemove s.live p := by
    have := hperm.nodup_iff.mpr h.nodup
    exact (List.nodup_cons.mp this).1
  have inj : ∀ {i j : Nat} {a : Nat}, s.live[i]? = some a → s.live[j]? = some a → i = j := by
    intro i j a hi hj
    have hi' := List.getElem?_eq_some_iff.mp hi
    have hj' := List.getElem?_eq_some_iff.mp hj
    exact (List.Nodup.getElem_inj_iff h.nodup).mp (hi'.2.trans hj'.2.symm)
  -- the common part of the new invariant
  have mkRep : ∀ m : FMap Nat Nat,
      (∀ g q, m.lookup g = some q ↔ (swapRemove s.live p)[q]? = some g) →
      Rep ⟨swapRemove s.live p, m, t.globalSize⟩ ((GroupOp.remove p).step s) := by
    intro m hm
    exact ⟨rfl, h.size, hnd, fun g hg => h.lt g (hmem g hg), h.bound, hm⟩
  by_cases hlast : p = (swapRemove s.live p).length
  · rw [if_neg (by omega)]
    refine ⟨_, rfl, mkRep _ ?_⟩
    intro g q
    rw [FMap.lookup_erase, Driver.swapRemove_getElem? hp]
    by_cases hg : g = s.live[p]
    · subst hg
      simp only [if_true]
      split_ifs with h1 h2
      · omega
      · constructor
        · simp
        · intro hh; exact absurd (inj hh hpg) h2
      · simp
    · rw [if_neg hg, h.g2p]
      split_ifs with h1 h2
      · omega
      · rfl
      · constructor
        · intro hh
          have := (List.getElem?_eq_some_iff.mp hh).1
          have : q = p := by omega
          subst this
          rw [hpg] at hh; simp at hh; exact absurd hh.symm hg
        · simp
  · rw [if_pos hlast]
    have hp' : p < (swapRemove s.live p).length := by omega
    rw [getAt_of hp', Res.ok_bind, hass _ (hmem _ (List.getElem_mem hp')), Res.ok_bind]
    have hback : s.live[s.live.length - 1]? = some (swapRemove s.live p)[p] := by
      have := Driver.swapRemove_getElem? hp p
      rw [List.getElem?_eq_getElem hp', if_pos (by omega), if_pos rfl] at this
      exact this.symm
    have hbne : (swapRemove s.live p)[p] ≠ s.live[p] := by
      intro hh; apply hnotin; rw [← hh]; exact List.getElem_mem hp'
    have hc : (t.globalToPacked.erase s.live[p]).contains (swapRemove s.live p)[p] = true := by
      rw [FMap.contains, FMap.lookup_erase, if_neg hbne, (h.g2p _ _).mpr hback]; rfl
    rw [distAssert_of hc, Res.ok_bind, if_pos hc]
    refine ⟨_, rfl, mkRep _ ?_⟩
    intro g q
    rw [FMap.lookup_set, FMap.lookup_erase, Driver.swapRemove_getElem? hp]
    by_cases hgb : g = (swapRemove s.live p)[p]
    · rw [if_pos hgb]
      subst hgb
      split_ifs with h1 h2
      · subst h2; simp [hback]
      · constructor
        · intro hh; simp at hh; omega
        · intro hh; have := inj hh hback; omega
      · constructor
        · intro hh; simp at hh; omega
        · simp
    · rw [if_neg hgb]
      by_cases hg : g = s.live[p]
      · rw [if_pos hg]
        subst hg
        split_ifs with h1 h2
        · rw [hback]; simp; exact hbne
        · constructor
          · simp
          · intro hh; exact absurd (inj hh hpg) h2
        · simp
      · rw [if_neg hg, h.g2p]
        split_ifs with h1 h2
        · subst h2
          rw [hpg, hback]; simp only [Option.some.injEq]
          exact ⟨fun h => absurd h.symm hg, fun h => absurd h.symm hgb⟩
        · rfl
        · constructor
          · intro hh
            have := (List.getElem?_eq_some_iff.mp hh).1
            have : q = s.live.length - 1 := by omega
            subst this
            rw [hback] at hh; simp at hh; exact absurd hh.symm hgb
          · simp

theorem rep_init_aux (n : Nat) : ∀ (t : IdTracker) (k : Nat), t.Rep (Groups.start k) →
    k + n ≤ 4294967296 → ∃ t', addGroups n t = .ok t' ∧ t'.Rep (Groups.start (k + n)) := by
  induction n with
  | zero => intro t k h _; exact ⟨t, rfl, h⟩
  | succ n ih =>
    intro t k h hb
    obtain ⟨t1, h1, h2⟩ := h.addGroup (by show k < _; omega)
    have : GroupOp.add.step (Groups.start k) = Groups.start (k + 1) := by
      simp [GroupOp.step, Groups.start, List.range_succ]
    rw [this] at h2
    obtain ⟨t2, h3, h4⟩ := ih t1 (k + 1) h2 (by omega)
    refine ⟨t2, ?_, ?_⟩
    · rw [addGroups, h1]; exact h3
    · rw [show k + (n + 1) = k + 1 + n by omega]; exact h4

theorem rep_init (t : IdTracker) (n : Nat) (hn : n ≤ 4294967296) :
    ∃ t', t.init n = .ok t' ∧ t'.Rep (Groups.start n) := by
  have h0 : Rep ⟨[], .empty, some 0⟩ (Groups.start 0) :=
    ⟨rfl, rfl, by simp [Groups.start], by simp [Groups.start], by simp [Groups.start],
      by intro g p; simp [Groups.start]⟩
  obtain ⟨t', h1, h2⟩ := rep_init_aux n _ 0 h0 (by omega)
  exact ⟨t', h1, by rwa [Nat.zero_add] at h2⟩

/-- One API call on the tracker. -/
def stepOp (lvl : Nat) (t : IdTracker) : GroupOp → Res IdTracker
  | .add => t.addGroup
  | .remove p => t.removeGroup lvl p

def runOps (lvl : Nat) : IdTracker → List GroupOp → Res IdTracker
  | t, [] => .ok t
  | t, op :: ops => do
    let t ← t.stepOp lvl op
    runOps lvl t ops

theorem created_mono (s : Groups) (ops : List GroupOp) : s.created ≤ (s.run ops).created := by
  induction ops generalizing s with
  | nil => exact Nat.le_refl _
  | cons op ops ih =>
    refine Nat.le_trans ?_ (ih (op.step s))
    cases op <;> simp [GroupOp.step]

theorem Rep.step {t : IdTracker} {s : Groups} (h : t.Rep s) (lvl : Nat) {op : GroupOp}
    (hv : op.Valid s) (hb : (op.step s).created ≤ 4294967296) :
    ∃ t', t.stepOp lvl op = .ok t' ∧ t'.Rep (op.step s) := by
  cases op with
  | add => exact h.addGroup (by have : s.created + 1 ≤ 4294967296 := hb; omega)
  | remove p => exact h.removeGroup lvl hv

theorem Rep.run {t : IdTracker} {s : Groups} (h : t.Rep s) (lvl : Nat) {ops : List GroupOp}
    (hv : ValidGroupHistory s ops) (hb : (s.run ops).created ≤ 4294967296) :
    ∃ t', t.runOps lvl ops = .ok t' ∧ t'.Rep (s.run ops) := by
  induction ops generalizing t s with
  | nil => exact ⟨t, rfl, h⟩
  | cons op ops ih =>
    obtain ⟨t1, h1, h2⟩ := h.step lvl hv.1 (Nat.le_trans (created_mono _ ops) hb)
    obtain ⟨t2, h3, h4⟩ := ih h2 hv.2 hb
    exact ⟨t2, by rw [runOps, h1]; exact h3, h4⟩

theorem Rep.packedToGlobalId {t : IdTracker} {s : Groups} (h : t.Rep s) (lvl : Nat) {p g : Nat}
    (hp : s.live[p]? = some g) : t.packedToGlobalId lvl p = .ok g := by
  have hl := (List.getElem?_eq_some_iff.mp hp).1
  have hg := (List.getElem?_eq_some_iff.mp hp).2
  unfold IdTracker.packedToGlobalId
  rw [h.p2g, distAssert_of hl, Res.ok_bind, getAt_of hl, Res.ok_bind]
  have hlt := h.lt _ (List.mem_of_getElem? hp)
  split_ifs with h1
  · simp only [getGlobalSize, h.size, Res.ok_bind, hg]
    rw [distAssert_of hlt]; rfl
  · simp only [Res.ok_bind, hg]
    rw [distAssert_of_lt (by omega)]; rfl

theorem Rep.globalToPackedId {t : IdTracker} {s : Groups} (h : t.Rep s) (lvl : Nat) {p g : Nat}
    (hp : s.live[p]? = some g) : t.globalToPackedId lvl g = .ok p := by
  have hl := (List.getElem?_eq_some_iff.mp hp).1
  have hlt := h.lt _ (List.mem_of_getElem? hp)
  have hk := (h.g2p g p).mpr hp
  have hc : t.globalToPacked.contains g = true := by simp [FMap.contains, hk]
  unfold IdTracker.globalToPackedId
  split_ifs with h1
  · simp only [getGlobalSize, h.size, Res.ok_bind]
    rw [distAssert_of hlt, Res.ok_bind, distAssert_of hc, Res.ok_bind]
    simp only [hk]
    rw [h.p2g, distAssert_of hl]; rfl
  · simp only [Res.ok_bind]
    rw [distAssert_of_lt (by omega), Res.ok_bind, distAssert_of hc, Res.ok_bind]
    simp only [hk]
    rw [h.p2g, distAssert_of hl]; rfl

end IdTracker

end Dist
