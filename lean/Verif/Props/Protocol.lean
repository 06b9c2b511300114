import Verif.Lemmas.Protocol

/-! # Property C11: driver, feature mixtures and id tracker stay in step -/

namespace Dist

open Spec

variable {R G V : Type} [DecidableEq R] [DecidableEq V]

/-- **C11.** Start from `n ≥ 1` empty groups and any list of features whose group
operations respect a summary relation `S`.  For every history of rows added to and
removed from groups (known to the client only by global id), at every debug level:
no call fails or is undefined; all feature mixtures have as many groups as the
driver and the tracker; every live global id sits at exactly the position the
tracker reports; there the driver's count is the number of rows of that group and
every feature's group summarises exactly that feature's column of those rows; and
every position belongs to a live group. -/
theorem C11_in_step (lvl : Nat) (fs : List (Feature R G V))
    (S : Feature R G V → G → Multiset V → Prop) (hS : ∀ f ∈ fs, Summarises f.ops (S f))
    (n : Nat) (hn : 0 < n) (hb : n ≤ 4294967296)
    (ops : List (RowOp R)) (hv : ValidRowHistory (Clusters.start R n) ops) :
    ∃ w w', World.init lvl fs n = .ok w ∧ w.runOps lvl ops = .ok w' ∧
      w'.slaves.map Prod.fst = fs ∧
      w'.tracker.packedToGlobal.length = w'.driver.counts.length ∧
      (∀ sl ∈ w'.slaves, sl.2.length = w'.driver.counts.length) ∧
      (∀ gid M, ((Clusters.start R n).run ops).members gid = some M →
        ∃ p, w'.tracker.globalToPackedId lvl gid = .ok p ∧
          w'.tracker.packedToGlobalId lvl p = .ok gid ∧
          w'.driver.counts[p]? = some (M.card : Int) ∧
          ∀ sl ∈ w'.slaves, ∃ g, sl.2[p]? = some g ∧ S sl.1 g (M.map sl.1.col)) ∧
      (∀ p, p < w'.driver.counts.length → ∃ gid M,
        w'.tracker.packedToGlobalId lvl p = .ok gid ∧
          ((Clusters.start R n).run ops).members gid = some M) := by
  obtain ⟨w, ls, h1, h2⟩ := World.rep_init hS lvl n hn hb
  obtain ⟨w', ls', h3, h4⟩ := h2.run hS lvl hv
  have hlen : w'.driver.counts.length = ls'.length := by rw [h4.driver]; simp
  refine ⟨w, w', h1, h3, h4.feats, ?_, ?_, ?_, ?_⟩
  · rw [h4.tracker.p2g, hlen]; simp
  · intro sl hsl
    rw [(h4.slaves sl hsl).len, hlen]
  · intro gid M hM
    obtain ⟨p, hp⟩ := List.mem_iff_getElem?.mp ((h4.members gid M).mp hM)
    refine ⟨p, h4.tracker.globalToPackedId lvl (by simp [hp]),
      h4.tracker.packedToGlobalId lvl (by simp [hp]), ?_, ?_⟩
    · rw [h4.driver]; simp [hp]
    · intro sl hsl
      exact (h4.slaves sl hsl).get hp
  · intro p hp
    rw [hlen] at hp
    refine ⟨ls'[p].1, ls'[p].2, h4.tracker.packedToGlobalId lvl (by simp [hp]), ?_⟩
    exact (h4.members _ _).mpr (List.getElem_mem hp)

/-- Positions with count zero hold groups that summarise nothing, and one exists. -/
theorem C11_empty_groups (lvl : Nat) (fs : List (Feature R G V))
    (S : Feature R G V → G → Multiset V → Prop) (hS : ∀ f ∈ fs, Summarises f.ops (S f))
    (n : Nat) (hn : 0 < n) (hb : n ≤ 4294967296)
    (ops : List (RowOp R)) (hv : ValidRowHistory (Clusters.start R n) ops)
    (w w' : World R G V) (hw : World.init lvl fs n = .ok w) (hw' : w.runOps lvl ops = .ok w') :
    (∃ p : Nat, w'.driver.counts[p]? = some 0) ∧
    ∀ p : Nat, w'.driver.counts[p]? = some 0 → ∀ sl ∈ w'.slaves, ∃ g, sl.2[p]? = some g ∧ S sl.1 g 0 := by
  obtain ⟨w0, ls, h1, h2⟩ := World.rep_init hS lvl n hn hb
  rw [hw] at h1; injection h1 with h1; subst h1
  obtain ⟨w1, ls', h3, h4⟩ := h2.run hS lvl hv
  rw [hw'] at h3; injection h3 with h3; subst h3
  constructor
  · obtain ⟨p, hp⟩ := List.mem_iff_getElem?.mp h4.empty
    refine ⟨p, ?_⟩
    rw [h4.driver]
    simp only [Driver.ofSizes_counts, List.getElem?_map] at hp ⊢
    simp only [hp]; rfl
  · intro p hp sl hsl
    rw [h4.driver] at hp
    simp only [Driver.ofSizes_counts, List.getElem?_map, Option.map_map,
      Option.map_eq_some_iff] at hp
    obtain ⟨x, hx, hx0⟩ := hp
    obtain ⟨g, hg, hSg⟩ := (h4.slaves sl hsl).get hx
    refine ⟨g, hg, ?_⟩
    have : x.2 = 0 := by
      simp only [Function.comp] at hx0
      exact Multiset.card_eq_zero.mp (Int.ofNat.inj hx0)
    rw [this] at hSg; simpa using hSg

/-- The hypotheses are met: a feature whose groups sum one column of the rows, and a
history that creates a group, empties it and refills another. -/
example : Summarises (G := Int) (V := Int) ⟨0, fun g v => .ok (g + v), fun g v => .ok (g - v)⟩
      (fun g M => g = M.sum) ∧
    ValidRowHistory (Clusters.start (Int × Int) 1)
      [.add 0 (5, 1), .add 1 (7, 2), .add 0 (6, 3), .remove 0 (5, 1), .remove 1 (7, 2)] := by
  refine ⟨⟨rfl, ?_, ?_⟩, ?_⟩
  · rintro g M v rfl _; exact ⟨_, rfl, by simp [Int.add_comm]⟩
  · rintro g M v rfl hv
    refine ⟨_, rfl, ?_⟩
    have := Multiset.sum_erase hv
    show M.sum - v = _
    omega
  · simp [ValidRowHistory, RowOp.Valid, RowOp.step, Clusters.start]

end Dist
