import Verif.Lemmas.Driver
import Verif.Lemmas.IdTracker
import Verif.Model.Clustering

/-! Lemmas for the cached Pitman-Yor mixture: its state is a function of the group sizes. -/

set_option linter.unusedSimpArgs false
set_option linter.unusedVariables false

namespace Dist

open Spec FloatOps FloatNotation

namespace PitmanYor.Cached

variable {F : Type} [FloatOps F]

/-- Cached score of an empty group. -/
def emptyScore (m : PitmanYor F) (l : List Nat) : F :=
  log ((m.alpha + m.d * ofInt ((l.length - l.count 0 : Nat) : Int)) / ofInt ((l.count 0 : Nat) : Int))

/-- Cached score of a group of size `n`. -/
def cell (m : PitmanYor F) (l : List Nat) (n : Nat) : F :=
  if n = 0 then emptyScore m l else log (ofInt (n : Int) - m.d)

/-- The cache state that group sizes `l` stand for. -/
def canon (m : PitmanYor F) (l : List Nat) : Cached F := ⟨Driver.ofSizes l, l.map (cell m l)⟩

theorem updateEmpty_ofSizes (m : PitmanYor F) (l : List Nat) (sh : List F)
    (hlen : sh.length = l.length) :
    updateEmpty m ⟨Driver.ofSizes l, sh⟩ =
      .ok ⟨Driver.ofSizes l, sh.mapIdx fun i x => if l[i]? = some 0 then emptyScore m l else x⟩ := by
  unfold updateEmpty
  simp only
  rw [if_pos]
  · simp only [Driver.mem_ofSizes, Driver.ofSizes_card, Driver.ofSizes_counts, List.length_map]
    rfl
  · intro i hi
    rw [Driver.mem_ofSizes] at hi
    rw [hlen]
    exact (List.getElem?_eq_some_iff.mp hi).1

theorem updateNonempty_ofSizes (lvl : Nat) (m : PitmanYor F) (l : List Nat) (sh : List F)
    (hlen : sh.length = l.length) (g n : Nat) (hg : l[g]? = some n) (hn : n ≠ 0) :
    updateNonempty lvl m ⟨Driver.ofSizes l, sh⟩ g =
      .ok ⟨Driver.ofSizes l, sh.set g (log (ofInt (n : Int) - m.d))⟩ := by
  have hlt : g < l.length := (List.getElem?_eq_some_iff.mp hg).1
  have h1 : getAt (Driver.ofSizes l).counts g = .ok (n : Int) := by
    rw [getAt_eq_ok]; simp [hg]
  unfold updateNonempty
  simp only
  rw [h1, Res.ok_bind, distAssert_of (by omega), Res.ok_bind, setAt_of (by omega)]
  rfl

/-- Filling in the empty groups completes the state once the nonempty ones are right. -/
theorem mapIdx_eq_canon (m : PitmanYor F) (l : List Nat) (sh : List F)
    (hlen : sh.length = l.length)
    (h : ∀ i n : Nat, l[i]? = some n → n ≠ 0 → sh[i]? = some (log (ofInt (n : Int) - m.d))) :
    (sh.mapIdx fun i x => if l[i]? = some 0 then emptyScore m l else x) = l.map (cell m l) := by
  apply List.ext_getElem?
  intro i
  rw [List.getElem?_mapIdx, List.getElem?_map]
  cases hl : l[i]? with
  | none =>
    rw [List.getElem?_eq_none_iff] at hl
    rw [List.getElem?_eq_none (by omega)]; rfl
  | some n =>
    by_cases hn : n = 0
    · subst hn
      have hi : i < sh.length := by rw [hlen]; exact (List.getElem?_eq_some_iff.mp hl).1
      simp [hi, cell]
    · rw [h i n hl hn]; simp [hn, cell]

theorem initLoop_ofSizes (lvl : Nat) (m : PitmanYor F) (l : List Nat) (n i : Nat)
    (hni : i + n = l.length) (sh : List F) (hlen : sh.length = l.length)
    (h : ∀ j k : Nat, j < i → l[j]? = some k → k ≠ 0 → sh[j]? = some (log (ofInt (k : Int) - m.d))) :
    ∃ sh', initLoop lvl m n i ⟨Driver.ofSizes l, sh⟩ = .ok ⟨Driver.ofSizes l, sh'⟩ ∧
      sh'.length = l.length ∧
      ∀ j k : Nat, l[j]? = some k → k ≠ 0 → sh'[j]? = some (log (ofInt (k : Int) - m.d)) := by
  induction n generalizing i sh with
  | zero =>
    refine ⟨sh, rfl, hlen, fun j k hj hk => h j k ?_ hj hk⟩
    have := (List.getElem?_eq_some_iff.mp hj).1
    omega
  | succ n ih =>
    have hi : i < l.length := by omega
    have hl : l[i]? = some l[i] := List.getElem?_eq_getElem hi
    have h1 : getAt (Driver.ofSizes l).counts i = .ok (l[i] : Int) := by
      rw [getAt_eq_ok]; simp [hl]
    unfold initLoop
    simp only [h1, Res.ok_bind]
    by_cases h0 : l[i] = 0
    · rw [if_neg (by simp [h0]), Res.ok_bind]
      apply ih (i + 1) (by omega) sh hlen
      intro j k hj hk hk0
      rcases Nat.lt_or_ge j i with hji | hji
      · exact h j k hji hk hk0
      · have : j = i := by omega
        subst this
        rw [hl, h0] at hk
        injection hk with hk
        omega
    · rw [if_pos (by omega), updateNonempty_ofSizes lvl m l sh hlen i _ hl h0, Res.ok_bind]
      apply ih (i + 1) (by omega) _ (by simpa using hlen)
      intro j k hj hk hk0
      rcases Nat.lt_or_ge j i with hji | hji
      · rw [List.getElem?_set_ne (by omega)]
        exact h j k hji hk hk0
      · have : j = i := by omega
        subst this
        rw [hl] at hk
        injection hk with hk
        rw [List.getElem?_set_self (by omega), hk]

theorem resize_length (xs : List F) (n : Nat) : (resize xs n).length = n := by
  simp [resize]; omega

/-- `init` does not depend on the former content of the score cache. -/
theorem init_eq (lvl : Nat) (m : PitmanYor F) (l : List Nat) (sh : List F)
    (hs : l.sum ≤ 2147483647) (he : lvl = 0 ∨ 0 ∈ l) :
    init lvl m ⟨Driver.raw (l.map Int.ofNat), sh⟩ = .ok (canon m l) := by
  unfold init
  rw [Driver.init_eq lvl l hs, if_pos he, Res.ok_bind]
  simp only [Driver.ofSizes_counts, List.length_map]
  obtain ⟨sh', h1, h2, h3⟩ := initLoop_ofSizes lvl m l l.length 0 (by omega)
    (resize sh l.length) (resize_length _ _) (by intro j k hj; omega)
  rw [h1, Res.ok_bind, updateEmpty_ofSizes m l sh' h2, mapIdx_eq_canon m l sh' h2 h3]
  rfl

theorem map_set_cell (m : PitmanYor F) (l : List Nat) (g k : Nat) (hk : k ≠ 0)
    (n : Nat) (hg : l[g]? = some n) (hn : n ≠ 0) :
    (l.map (cell m l)).set g (log (ofInt (k : Int) - m.d)) = (l.set g k).map (cell m (l.set g k)) := by
  have hlt : g < l.length := (List.getElem?_eq_some_iff.mp hg).1
  have hc : (l.set g k).count 0 = l.count 0 := by
    rw [List.count_set hlt]
    have : l[g] ≠ 0 := by rw [(List.getElem?_eq_some_iff.mp hg).2]; exact hn
    simp [this, hk]
  have hcell : cell m (l.set g k) = cell m l := by
    funext x; simp [cell, emptyScore, hc]
  rw [hcell]
  rw [List.map_set]; simp [cell, hk]

theorem addValue_canon (lvl : Nat) (m : PitmanYor F) {l : List Nat} {g c : Nat}
    (hv : (Op.add g c).Valid l) :
    addValue lvl m (canon m l) g c = .ok (canon m (addTo l g c), l[g]? == some 0) := by
  have hd := Driver.addValue_ofSizes lvl hv
  obtain ⟨hg, hc, hs⟩ := hv
  unfold addValue
  simp only [canon]
  rw [hd, Res.ok_bind]
  by_cases h0 : l[g]? = some 0
  · have hb : (l[g]? == some 0) = true := by simp [h0]
    simp only [hb, if_true]
    have hadd : addTo l g c = l.set g c ++ [0] := by simp [addTo, h0]
    have hlen : (packedAdd (l.map (cell m l)) (ofInt 0)).length = (addTo l g c).length := by
      simp [hadd, packedAdd]
    have hgg : (addTo l g c)[g]? = some c := by
      rw [hadd, List.getElem?_append_left (by simpa using hg), List.getElem?_set_self hg]
    rw [updateEmpty_ofSizes m _ _ hlen, Res.ok_bind,
      updateNonempty_ofSizes lvl m _ _ (by simpa using hlen) g c hgg (by omega), Res.ok_bind]
    simp only [Res.pure_eq]
    congr 2
    congr 1
    apply List.ext_getElem?
    intro i
    by_cases hig : i = g
    · subst hig
      rw [List.getElem?_set_self (by simp [packedAdd]; omega), List.getElem?_map, hgg]
      have : c ≠ 0 := by omega
      simp [cell, this]
    · rw [List.getElem?_set_ne (Ne.symm hig), List.getElem?_mapIdx, List.getElem?_map]
      rcases Nat.lt_or_ge i l.length with hil | hil
      · have : (addTo l g c)[i]? = l[i]? := by
          rw [hadd, List.getElem?_append_left (by simpa using hil), List.getElem?_set_ne (Ne.symm hig)]
        rw [this]
        show Option.map _ (_ ++ _)[i]? = _
        rw [List.getElem?_append_left (by simpa using hil)]
        simp only [List.getElem?_map, List.getElem?_eq_getElem hil]
        by_cases h : l[i] = 0 <;> simp [cell, h]
      · rcases Nat.eq_or_lt_of_le hil with hil' | hil'
        · subst hil'
          have h1 : (addTo l g c)[l.length]? = some 0 := by
            rw [hadd, List.getElem?_append_right (by simp)]; simp
          simp [h1, packedAdd, cell]
        · have h1 : (packedAdd (l.map (cell m l)) (ofInt 0))[i]? = none :=
            List.getElem?_eq_none (by simp [packedAdd]; omega)
          have h2 : (addTo l g c)[i]? = none := List.getElem?_eq_none (by simp [hadd]; omega)
          rw [h1, h2]; rfl
  · have hb : (l[g]? == some 0) = false := by simpa using h0
    simp only [hb, Bool.false_eq_true, if_false, Res.ok_bind]
    have hgl : l[g]? = some l[g] := List.getElem?_eq_getElem hg
    have hn : l[g] ≠ 0 := by intro h; rw [hgl, h] at h0; exact h0 rfl
    have hadd : addTo l g c = l.set g (l[g] + c) := by
      rw [addTo, if_neg h0]; simp [List.getD, hgl]
    have hgg : (addTo l g c)[g]? = some (l[g] + c) := by rw [hadd, List.getElem?_set_self hg]
    rw [updateNonempty_ofSizes lvl m _ _ (by simp [hadd]) g _ hgg (by omega), Res.ok_bind]
    rw [map_set_cell m l g (l[g] + c) (by omega) _ hgl hn, ← hadd]
    rfl

theorem removeValue_canon (lvl : Nat) (m : PitmanYor F) {l : List Nat} {g c : Nat}
    (hv : (Op.remove g c).Valid l) (he : lvl = 0 ∨ 0 ∈ l) (hs : l.sum ≤ 2147483647) :
    removeValue lvl m (canon m l) g c = .ok (canon m (removeFrom l g c), l[g]? == some c) := by
  have hd := Driver.removeValue_ofSizes lvl hv he hs
  obtain ⟨hc, n, hn, hcn⟩ := hv
  have hg : g < l.length := (List.getElem?_eq_some_iff.mp hn).1
  unfold removeValue
  simp only [canon]
  rw [hd, Res.ok_bind]
  by_cases h0 : l[g]? = some c
  · have hb : (l[g]? == some c) = true := by simp [h0]
    simp only [hb, if_true]
    have hr : removeFrom l g c = swapRemove l g := by simp [removeFrom, h0]
    rw [packedRemove_eq lvl (by simpa using hg), Res.ok_bind]
    have hlen : (swapRemove (l.map (cell m l)) g).length = (removeFrom l g c).length := by
      simp [hr, Driver.swapRemove_length]
    rw [updateEmpty_ofSizes m _ _ hlen, Res.ok_bind]
    rw [mapIdx_eq_canon m _ _ hlen]
    · rfl
    · intro i k hi hk
      rw [hr, Driver.swapRemove_getElem? hg] at hi
      rw [Driver.swapRemove_getElem? (by simpa using hg)]
      simp only [List.length_map, List.getElem?_map]
      split_ifs at hi ⊢ with h1 h2
      · rw [hi]; simp [cell, hk]
      · rw [hi]; simp [cell, hk]
  · have hb : (l[g]? == some c) = false := by simpa using h0
    simp only [hb, Bool.false_eq_true, if_false]
    have hnc : n ≠ c := by rintro rfl; exact h0 hn
    have hr : removeFrom l g c = l.set g (n - c) := by
      rw [removeFrom, if_neg h0]; simp [List.getD, hn]
    have hgg : (removeFrom l g c)[g]? = some (n - c) := by rw [hr, List.getElem?_set_self hg]
    rw [updateNonempty_ofSizes lvl m _ _ (by simp [hr]) g _ hgg (by omega), Res.ok_bind]
    rw [map_set_cell m l g (n - c) (by omega) n hn (by omega), ← hr]
    rfl

theorem scoreValue_canon (lvl : Nat) (m : PitmanYor F) (l : List Nat) :
    scoreValue lvl m (canon m l) l.length =
      .ok (l.map fun n => cell m l n + -log (ofInt ((l.sum : Nat) : Int) + m.alpha)) := by
  unfold scoreValue
  simp only [canon, Driver.ofSizes_counts, List.length_map]
  rw [distAssert_of trivial, Res.ok_bind]
  simp only [Driver.getSampleSize, Driver.ofSizes_sampleSize, Res.ok_bind]
  rw [if_neg (by omega)]
  simp [List.take_of_length_le, Function.comp_def]

end PitmanYor.Cached

end Dist
