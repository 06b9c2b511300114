import Mathlib.Data.List.Count
import Mathlib.Order.Lattice
import Mathlib.Order.Lattice.Nat
import Verif.Model.Clustering
import Verif.Lemmas.Contiguous

/-! Lemmas on `count_assignments` and the assignment samplers. -/

set_option linter.unusedSimpArgs false
set_option linter.unusedVariables false

namespace Dist

open Spec FloatOps FloatNotation

/-- One more than the largest id (0 if there is none). -/
def idBound (gids : List Nat) : Nat := gids.foldl (fun b g => max b (g + 1)) 0

theorem idBound_append (gids : List Nat) (g : Nat) :
    idBound (gids ++ [g]) = max (idBound gids) (g + 1) := by simp [idBound]

theorem lt_idBound {gids : List Nat} {g : Nat} (h : g ∈ gids) : g < idBound gids := by
  induction gids using List.reverseRecOn with
  | nil => simp at h
  | append_singleton l a ih =>
    rw [idBound_append]
    rw [List.mem_append, List.mem_singleton] at h
    rcases h with h | h
    · have := ih h; omega
    · omega

theorem idBound_mem {gids : List Nat} (h : gids ≠ []) : idBound gids - 1 ∈ gids := by
  induction gids using List.reverseRecOn with
  | nil => simp at h
  | append_singleton l a ih =>
    rw [idBound_append, List.mem_append, List.mem_singleton]
    by_cases hl : l = []
    · subst hl; right; simp [idBound]
    · have := ih hl
      rcases Nat.le_total (idBound l) (a + 1) with h1 | h1
      · right; rw [max_eq_right h1]; omega
      · left; rw [max_eq_left h1]; exact this

theorem idBound_pos {gids : List Nat} (h : gids ≠ []) : 0 < idBound gids := by
  obtain ⟨g, hg⟩ := List.exists_mem_of_ne_nil _ h
  have := lt_idBound hg; omega

/-- The table of group sizes. -/
def countTable (gids : List Nat) : List Int :=
  (List.range (idBound gids)).map fun g => ((gids.count g : Nat) : Int)

theorem countTable_getElem? (gids : List Nat) (g : Nat) (hg : g < idBound gids) :
    (countTable gids)[g]? = some ((gids.count g : Nat) : Int) := by
  simp [countTable, hg]

theorem countStep_table (p : List Nat) (x : Nat) (hlen : p.length < 2147483647) :
    countStep (countTable p) (x : Int) = .ok (countTable (p ++ [x])) := by
  unfold countStep
  rw [if_neg (by omega), if_neg (by omega)]
  simp only [Int.toNat_natCast]
  have hl : (countTable p).length = idBound p := by simp [countTable]
  have hc : p.count x ≤ p.length := List.count_le_length
  -- the (possibly extended) vector
  have hpad : ∃ cs : List Int,
      (if x ≥ (countTable p).length then padTo (countTable p) (x + 1) else countTable p) = cs ∧
      cs.length = max (idBound p) (x + 1) ∧
      ∀ g, g < cs.length → cs[g]? = some ((p.count g : Nat) : Int) := by
    refine ⟨_, rfl, ?_, ?_⟩
    · split_ifs with h
      · simp [padTo, hl]; omega
      · rw [hl] at *; omega
    · intro g hg
      split_ifs with h
      · simp only [padTo] 
        rcases Nat.lt_or_ge g (idBound p) with h1 | h1
        · rw [List.getElem?_append_left (by omega), countTable_getElem? p g h1]
        · rw [List.getElem?_append_right (by omega)]
          have hnm : g ∉ p := fun hm => by have := lt_idBound hm; omega
          rw [if_pos h] at hg
          simp only [padTo, List.length_append, List.length_replicate] at hg
          rw [List.getElem?_replicate, if_pos (by omega), List.count_eq_zero.mpr hnm]
          rfl
      · rw [if_neg h] at hg
        exact countTable_getElem? p g (by omega)
  obtain ⟨cs, h1, h2, h3⟩ := hpad
  rw [h1]
  have hx : x < cs.length := by omega
  have hget : getAt cs x = .ok ((p.count x : Nat) : Int) := by rw [getAt_eq_ok]; exact h3 x hx
  rw [hget, Res.ok_bind, i32_of (by unfold InInt32 int32Min int32Max; omega), Res.ok_bind, setAt_of hx]
  congr 1
  apply List.ext_getElem?
  intro g
  rcases Nat.lt_or_ge g (idBound (p ++ [x])) with hg | hg
  · rw [countTable_getElem? _ _ hg]
    rw [idBound_append] at hg
    by_cases hgx : g = x
    · subst hgx; rw [List.getElem?_set_self hx]; simp
    · rw [List.getElem?_set_ne (Ne.symm hgx), h3 g (by omega)]
      simp [List.count_append, List.count_singleton, Ne.symm hgx]
  · rw [List.getElem?_eq_none (by simp [countTable]; omega : (countTable (p ++ [x])).length ≤ g)]
    rw [idBound_append] at hg
    exact List.getElem?_eq_none (by simp; omega)

theorem countLoop_table (p gids : List Nat) (hlen : (p ++ gids).length ≤ 2147483647) :
    countLoop (countTable p) (gids.map Int.ofNat) = .ok (countTable (p ++ gids)) := by
  induction gids generalizing p with
  | nil => simp [countLoop]
  | cons x xs ih =>
    simp only [List.map_cons, countLoop]
    have := countStep_table p x (by simp at hlen; omega)
    rw [show Int.ofNat x = (x : Int) from rfl, this, Res.ok_bind, ih _ (by simpa using hlen)]
    simp

theorem countAssignments_eq (lvl : Nat) (gids : List Nat) (hlen : gids.length ≤ 2147483647) :
    countAssignments lvl (gids.map Int.ofNat) =
      if 2 ≤ lvl ∧ ∃ g, g < idBound gids ∧ g ∉ gids then .fail else .ok (countTable gids) := by
  unfold countAssignments
  have h := countLoop_table [] gids (by simpa using hlen)
  have h0 : countTable [] = [] := by simp [countTable, idBound]
  rw [h0, List.nil_append] at h
  rw [h, Res.ok_bind]
  have hall : (countTable gids = [] ∨ ∀ c ∈ countTable gids, 0 < c) ↔
      ¬ ∃ g, g < idBound gids ∧ g ∉ gids := by
    constructor
    · rintro (h | h) ⟨g, hg, hm⟩
      · have := congrArg List.length h; simp [countTable] at this; omega
      · have h1 := h ((gids.count g : Nat) : Int) (List.mem_of_getElem? (countTable_getElem? gids g hg))
        rw [List.count_eq_zero.mpr hm] at h1
        simp at h1
    · intro h
      right
      intro c hc
      simp only [countTable, List.mem_map, List.mem_range] at hc
      obtain ⟨g, hg, rfl⟩ := hc
      have : g ∈ gids := by by_contra hm; exact h ⟨g, hg, hm⟩
      have := List.count_pos_iff.mpr this
      omega
  split_ifs with hc
  · rw [distAssert_of_not hc.1 (by rw [hall]; exact fun h => h hc.2)]; rfl
  · rw [distAssert_eq_ok (u := ()) |>.mpr]
    · rfl
    · intro hl; rw [hall]; exact fun h => hc ⟨hl, h⟩

theorem idBound_perm {a b : List Nat} (h : a.Perm b) : idBound a = idBound b := by
  have key : ∀ {a b : List Nat}, (∀ x, x ∈ a → x ∈ b) → idBound a ≤ idBound b := by
    intro a b hab
    by_cases ha : a = []
    · subst ha; simp [idBound]
    · have h1 := lt_idBound (hab _ (idBound_mem ha))
      have := idBound_pos ha
      omega
  exact Nat.le_antisymm (key fun x hx => h.mem_iff.mp hx) (key fun x hx => h.mem_iff.mpr hx)

theorem countTable_perm {a b : List Nat} (h : a.Perm b) : countTable a = countTable b := by
  unfold countTable
  rw [idBound_perm h]
  apply List.map_congr_left
  intro g _
  rw [h.count_eq]

/-- On contiguous vectors the bound is the number of ids. -/
theorem idBound_of_bound {a : List Nat} {k : Nat} (hk : ∀ y, y ∈ a ↔ y < k) : idBound a = k := by
  by_cases ha : a = []
  · subst ha
    cases k with
    | zero => rfl
    | succ k => exact absurd ((hk 0).mpr (by omega)) (by simp)
  · have h1 := (hk _).mp (idBound_mem ha)
    have h2 := idBound_pos ha
    by_contra hne
    have : idBound a - 1 + 1 < k ∨ k < idBound a := by omega
    rcases this with h | h
    · have := lt_idBound ((hk (idBound a)).mpr (by omega)); omega
    · omega

/-! ### Samplers -/

section

variable {F σ : Type} [FloatOps F]

theorem likelihoodLoop_lt (size : Nat) (ls : List F) (i : Nat) (t : F) (h : i + ls.length = size)
    (hs : 0 < size) : likelihoodLoop size ls i t < size := by
  induction ls generalizing i t with
  | nil => simp [likelihoodLoop]; exact hs
  | cons l ls ih =>
    unfold likelihoodLoop
    simp only [List.length_cons] at h
    simp only
    split_ifs
    · omega
    · exact ih (i + 1) _ (by omega)

theorem sampleFromLikelihoods_ok (rng : Rng F σ) (s : σ) (ls : List F) (total : F) (h : ls ≠ []) :
    ∃ i s', sampleFromLikelihoods rng s ls total = .ok (i, s') ∧ i < ls.length := by
  have hl : 0 < ls.length := List.length_pos_iff.mpr h
  unfold sampleFromLikelihoods
  rw [distAssert0_of hl]
  simp only [Res.ok_bind]
  exact ⟨_, _, rfl, likelihoodLoop_lt _ _ _ _ (by omega) hl⟩

theorem PitmanYor.sampleLoop_ok (m : PitmanYor F) (rng : Rng F σ) (n i : Nat) (ls : List F)
    (tc : Nat) (s : σ) (p : List Nat) (hp : Contiguous p) (hb : ∀ y, y ∈ p ↔ y < tc)
    (hl : ls.length = tc + 1) :
    ∃ rest s', PitmanYor.sampleLoop m rng n i ls tc s = .ok (rest, s') ∧ rest.length = n ∧
      Contiguous (p ++ rest) := by
  induction n generalizing i ls tc s p with
  | zero => exact ⟨[], s, rfl, rfl, by simpa using hp⟩
  | succ n ih =>
    unfold PitmanYor.sampleLoop
    obtain ⟨a, s', h1, h2⟩ := sampleFromLikelihoods_ok rng s ls (ofInt i + m.alpha)
      (by intro h; subst h; simp at hl)
    simp only [h1, Res.ok_bind]
    have hpa : Contiguous (p ++ [a]) := (contiguous_append_of_bound hb).mpr ⟨hp, by omega⟩
    by_cases hat : a = tc
    · subst hat
      rw [if_pos rfl, setAt_of (by simp; omega), Res.ok_bind]
      obtain ⟨rest, s'', h3, h4, h5⟩ := ih (i + 1) _ (a + 1) s' (p ++ [a]) hpa
        (by intro y; rw [List.mem_append, hb, List.mem_singleton]; omega)
        (by simp [hl] : ((ls ++ [m.alpha + m.d * ofInt ((a + 1 : Nat) : Int)]).set a (ofInt 1 - m.d)).length = a + 1 + 1)
      rw [h3]
      exact ⟨a :: rest, s'', rfl, by simp [h4], by simpa using h5⟩
    · rw [if_neg hat, getAt_of h2, Res.ok_bind, setAt_of h2, Res.ok_bind]
      obtain ⟨rest, s'', h3, h4, h5⟩ := ih (i + 1) (ls.set a (ls[a] + lit 1 1)) tc s' (p ++ [a]) hpa
        (by intro y; rw [List.mem_append, hb, List.mem_singleton]; omega) (by simpa using hl)
      rw [h3]
      exact ⟨a :: rest, s'', rfl, by simp [h4], by simpa using h5⟩

/-- Adding to an empty group: defined as long as the sample is smaller than the dataset;
only the level-2 assertions on the rounded sizes may fire. -/
theorem LowEntropy.scoreAdd_empty (lvl : Nat) (m : LowEntropy) (hm : m.datasetSize ≤ 2147483647)
    (size : Int) (h0 : 0 ≤ size) (h : size < m.datasetSize) :
    (∃ x : F, LowEntropy.scoreAddValue lvl m 0 0 size 1 = .ok x) ∨
      (2 ≤ lvl ∧ (LowEntropy.scoreAddValue lvl m 0 0 size 1 : Res F) = .fail) := by
  unfold LowEntropy.scoreAddValue
  rw [distAssert_of h, Res.ok_bind, distAssert_of (by omega), Res.ok_bind, distAssert_of h0, Res.ok_bind,
    if_pos rfl]
  simp only
  rw [i32_of (by unfold InInt32 int32Min int32Max; omega), Res.ok_bind]
  split_ifs with h1
  · unfold LowEntropy.postpredCorrection
    by_cases hl : 2 ≤ lvl
    · unfold distAssert
      split_ifs <;> first | exact .inr ⟨hl, rfl⟩ | exact .inl ⟨_, rfl⟩
    · left
      rw [distAssert_of_lt (by omega), Res.ok_bind, distAssert_of_lt (by omega)]
      exact ⟨_, rfl⟩
  · left; exact ⟨_, rfl⟩

theorem LowEntropy.scoreAdd_nonempty (lvl : Nat) (m : LowEntropy) (c : Int) (hc : c ≠ 0)
    (h : 0 < m.datasetSize) : ∃ x : F, LowEntropy.scoreAddValue lvl m c 0 0 1 = .ok x := by
  unfold LowEntropy.scoreAddValue
  rw [distAssert_of h, Res.ok_bind, distAssert_of (by omega), Res.ok_bind, distAssert_of (by omega),
    Res.ok_bind, if_neg hc]
  simp only
  split_ifs <;> exact ⟨_, rfl⟩

/-- Counts held by the low-entropy sampler after the assignments `p`. -/
def LowEntropy.leCounts (p : List Nat) (tc : Nat) : List Int :=
  (List.range tc).map fun g => ((p.count g : Nat) : Int)

theorem LowEntropy.sampleLoop_ok (lvl : Nat) (m : LowEntropy) (rng : Rng F σ) (n : Nat)
    (hm : m.datasetSize ≤ 2147483647)
    (counts : List Int) (ls : List F) (s : σ) (p : List Nat) (tc : Nat)
    (hp : Contiguous p) (hb : ∀ y, y ∈ p ↔ y < tc)
    (hc : counts = LowEntropy.leCounts p tc ∨ counts = LowEntropy.leCounts p tc ++ [0])
    (hl : ls.length = counts.length) (hsz : ((p.length + n : Nat) : Int) ≤ m.datasetSize) :
    (∃ rest s', LowEntropy.sampleLoop lvl m rng n counts ls p.length s = .ok (rest, s') ∧
      rest.length = n ∧ Contiguous (p ++ rest)) ∨
    (2 ≤ lvl ∧ LowEntropy.sampleLoop lvl m rng n counts ls p.length s = .fail) := by
  induction n generalizing counts ls s p tc with
  | zero => exact .inl ⟨[], s, rfl, rfl, by simpa using hp⟩
  | succ n ih =>
    unfold LowEntropy.sampleLoop
    rcases LowEntropy.scoreAdd_empty (F := F) lvl m hm p.length (by omega) (by omega) with ⟨x, hx⟩ | ⟨h2, hx⟩
    swap
    · right; rw [hx]; exact ⟨h2, rfl⟩
    rw [hx, Res.ok_bind]
    simp only
    -- after making room for an empty group
    have hlast : (LowEntropy.leCounts p tc).getLast? ≠ some 0 := by
      intro h
      have := List.mem_of_getLast? h
      simp only [LowEntropy.leCounts, List.mem_map, List.mem_range] at this
      obtain ⟨g, hg, h0⟩ := this
      have := List.count_pos_iff.mpr ((hb g).mpr hg)
      omega
    have hroom : ∃ ls' : List F, (if counts.getLast? = none ∨ counts.getLast? ≠ some 0 then
        (.ok (counts ++ [0], ls ++ [exp x]) : Res (List Int × List F))
      else do
        let likelihoods ← (if ls.isEmpty then .ub
          else .ok (ls.dropLast ++ [exp x]) : Res (List F))
        return (counts, likelihoods)) = .ok (LowEntropy.leCounts p tc ++ [0], ls') ∧
        ls'.length = tc + 1 := by
      have hk : (LowEntropy.leCounts p tc).length = tc := by simp [LowEntropy.leCounts]
      rcases hc with hc | hc
      · subst hc
        rw [if_pos (.inr hlast)]
        exact ⟨_, rfl, by simp [hl, hk]⟩
      · subst hc
        rw [if_neg (by simp)]
        have hne : ls ≠ [] := by
          rintro rfl
          simp at hl
        simp only [List.isEmpty_iff, hne, if_false, Res.ok_bind]
        refine ⟨_, rfl, ?_⟩
        simp [hl, hk]
    obtain ⟨ls', h3, h4⟩ := hroom
    rw [h3, Res.ok_bind]
    simp only
    unfold sampleFromLikelihoodsSum
    obtain ⟨a, s', h5, h6⟩ := sampleFromLikelihoods_ok rng s ls' (vectorSum ls')
      (by rintro rfl; simp at h4)
    rw [h5, Res.ok_bind]
    simp only
    have hget : (LowEntropy.leCounts p tc ++ [0])[a]? = some ((p.count a : Nat) : Int) := by
      rcases Nat.lt_or_ge a tc with h | h
      · rw [List.getElem?_append_left (by simpa [LowEntropy.leCounts] using h)]
        simp [LowEntropy.leCounts, h]
      · have : a = tc := by omega
        subst this
        have hn : a ∉ p := fun h => by have := (hb a).mp h; omega
        rw [List.getElem?_append_right (by simp [LowEntropy.leCounts])]
        simp [LowEntropy.leCounts, List.count_eq_zero.mpr hn]
    have hcl : p.count a ≤ p.length := List.count_le_length
    have hlen0 : (LowEntropy.leCounts p tc ++ [0]).length = tc + 1 := by simp [LowEntropy.leCounts]
    rw [getAt_eq_ok.mpr hget, Res.ok_bind, i32_of (by unfold InInt32 int32Min int32Max; omega), Res.ok_bind,
      setAt_of (by omega), Res.ok_bind, i32_of (by unfold InInt32 int32Min int32Max; omega), Res.ok_bind]
    obtain ⟨y, hy⟩ := LowEntropy.scoreAdd_nonempty (F := F) lvl m ((p.count a : Nat) + 1) (by omega) (by omega)
    rw [hy, Res.ok_bind, setAt_of h6, Res.ok_bind]
    have hpa : Contiguous (p ++ [a]) := (contiguous_append_of_bound hb).mpr ⟨hp, by omega⟩
    have hcnt : ∀ g, (p ++ [a]).count g = p.count g + if g = a then 1 else 0 := by
      intro g
      rw [List.count_append, List.count_singleton]
      by_cases h : g = a
      · subst h; simp
      · simp [h, Ne.symm h]
    have hset : ∀ g, ((LowEntropy.leCounts p tc ++ [0]).set a ((p.count a : Nat) + 1 : Int))[g]? =
        if g < tc + 1 then some (((p ++ [a]).count g : Nat) : Int) else none := by
      intro g
      rw [List.getElem?_set]
      by_cases hga : a = g
      · subst hga
        rw [if_pos rfl, if_pos (by omega), if_pos (by omega), hcnt]; simp
      · rw [if_neg hga, hcnt, if_neg (Ne.symm hga)]
        split_ifs with hg
        · rcases Nat.lt_or_ge g tc with h | h
          · rw [List.getElem?_append_left (by simpa [LowEntropy.leCounts] using h)]
            simp [LowEntropy.leCounts, h]
          · have : g = tc := by omega
            subst this
            have hn : g ∉ p := fun h => by have := (hb g).mp h; omega
            rw [List.getElem?_append_right (by simp [LowEntropy.leCounts])]
            simp [LowEntropy.leCounts, List.count_eq_zero.mpr hn]
        · exact List.getElem?_eq_none (by omega)
    have hih : ∀ tc', (∀ y, y ∈ p ++ [a] ↔ y < tc') →
        ((LowEntropy.leCounts p tc ++ [0]).set a ((p.count a : Nat) + 1 : Int) = LowEntropy.leCounts (p ++ [a]) tc' ∨
          (LowEntropy.leCounts p tc ++ [0]).set a ((p.count a : Nat) + 1 : Int) = LowEntropy.leCounts (p ++ [a]) tc' ++ [0]) →
        (∃ rest s'', LowEntropy.sampleLoop lvl m rng n
            ((LowEntropy.leCounts p tc ++ [0]).set a ((p.count a : Nat) + 1 : Int)) (ls'.set a (exp y))
            ((p.length : Int) + 1) s' = .ok (rest, s'') ∧
          rest.length = n ∧ Contiguous (p ++ [a] ++ rest)) ∨
        (2 ≤ lvl ∧ LowEntropy.sampleLoop lvl m rng n
            ((LowEntropy.leCounts p tc ++ [0]).set a ((p.count a : Nat) + 1 : Int)) (ls'.set a (exp y))
            ((p.length : Int) + 1) s' = .fail) := by
      intro tc' hb' hc'
      have := ih ((LowEntropy.leCounts p tc ++ [0]).set a ((p.count a : Nat) + 1 : Int)) (ls'.set a (exp y))
        s' (p ++ [a]) tc' hpa hb' hc' (by simp [h4, LowEntropy.leCounts]) (by
          simp only [List.length_append, List.length_singleton]; omega)
      have hpl : (((p ++ [a]).length : Nat) : Int) = (p.length : Int) + 1 := by simp
      rw [hpl] at this
      exact this
    have hfin : (∃ rest s'', LowEntropy.sampleLoop lvl m rng n
            ((LowEntropy.leCounts p tc ++ [0]).set a ((p.count a : Nat) + 1 : Int)) (ls'.set a (exp y))
            ((p.length : Int) + 1) s' = .ok (rest, s'') ∧
          rest.length = n ∧ Contiguous (p ++ [a] ++ rest)) ∨
        (2 ≤ lvl ∧ LowEntropy.sampleLoop lvl m rng n
            ((LowEntropy.leCounts p tc ++ [0]).set a ((p.count a : Nat) + 1 : Int)) (ls'.set a (exp y))
            ((p.length : Int) + 1) s' = .fail) := by
      by_cases hat : a = tc
      · apply hih (tc + 1)
        · intro y; rw [List.mem_append, hb, List.mem_singleton]; omega
        · left
          apply List.ext_getElem?
          intro g
          rw [hset]
          split_ifs with hg
          · simp [LowEntropy.leCounts, hg]
          · exact (List.getElem?_eq_none (by simp [LowEntropy.leCounts]; omega)).symm
      · apply hih tc
        · intro y; rw [List.mem_append, hb, List.mem_singleton]; omega
        · right
          apply List.ext_getElem?
          intro g
          rw [hset]
          split_ifs with hg
          · rcases Nat.lt_or_ge g tc with h | h
            · rw [List.getElem?_append_left (by simpa [LowEntropy.leCounts] using h)]
              simp [LowEntropy.leCounts, h]
            · have : g = tc := by omega
              subst this
              have hn : g ∉ p ++ [a] := fun h => by
                rw [List.mem_append, hb, List.mem_singleton] at h; omega
              rw [List.getElem?_append_right (by simp [LowEntropy.leCounts])]
              rw [List.count_eq_zero.mpr hn]
              simp [LowEntropy.leCounts]
          · exact (List.getElem?_eq_none (by simp [LowEntropy.leCounts]; omega)).symm
    rcases hfin with ⟨rest, s'', h7, h8, h9⟩ | ⟨h7, h8⟩
    · left
      rw [h7]
      exact ⟨a :: rest, s'', rfl, by simp [h8], by simpa using h9⟩
    · right
      rw [h8]
      exact ⟨h7, rfl⟩

end

end Dist
