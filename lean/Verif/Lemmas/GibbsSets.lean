import Mathlib.Tactic.Linarith
import Verif.Lemmas.PYScores
import Verif.Spec.Gibbs

/-! # Clusterings as sets of clusters, and their weight -/

namespace Dist

open Spec Finset

variable {ι : Type} [DecidableEq ι]

/-- `C` is a clustering of the items `A`. -/
structure Parts (A : Finset ι) (C : Finset (Finset ι)) : Prop where
  empty : ∅ ∉ C
  disj : ∀ b ∈ C, ∀ b' ∈ C, ∀ i, i ∈ b → i ∈ b' → b = b'
  cover : ∀ i, i ∈ A ↔ ∃ b ∈ C, i ∈ b

namespace Parts

variable {A : Finset ι} {C : Finset (Finset ι)} {i : ι}

theorem notMem (h : Parts A C) (hi : i ∉ A) {b : Finset ι} (hb : b ∈ insert ∅ C) : i ∉ b := by
  rcases mem_insert.mp hb with rfl | hb
  · simp
  · exact fun hib => hi ((h.cover i).mpr ⟨b, hb, hib⟩)

theorem insert_notMem (h : Parts A C) (hi : i ∉ A) (b : Finset ι) : insert i b ∉ C :=
  fun hC => hi ((h.cover i).mpr ⟨_, hC, mem_insert_self i b⟩)

theorem without_put (h : Parts A C) (hi : i ∉ A) {b : Finset ι} (hb : b ∈ insert ∅ C) :
    without i (put i b C) = C := by
  have hib := h.notMem hi hb
  ext x
  simp only [without, put, mem_erase, mem_image, mem_insert]
  constructor
  · rintro ⟨hx, y, rfl | ⟨hyb, hy⟩, rfl⟩
    · rw [erase_insert hib] at hx ⊢
      exact (mem_insert.mp hb).resolve_left hx
    · rwa [erase_eq_of_notMem (h.notMem hi (mem_insert_of_mem hy))]
  · intro hx
    have hx0 : x ≠ ∅ := by rintro rfl; exact h.empty hx
    refine ⟨hx0, ?_⟩
    by_cases hxb : x = b
    · exact ⟨_, .inl rfl, by rw [erase_insert hib, hxb]⟩
    · exact ⟨x, .inr ⟨hxb, hx⟩, erase_eq_of_notMem (h.notMem hi (mem_insert_of_mem hx))⟩

theorem put_inj (h : Parts A C) (hi : i ∉ A) {b b' : Finset ι} (hb : b ∈ insert ∅ C)
    (hb' : b' ∈ insert ∅ C) (he : put i b C = put i b' C) : b = b' := by
  have h1 : insert i b ∈ put i b' C := by rw [← he]; exact mem_insert_self _ _
  rcases mem_insert.mp h1 with h1 | h1
  · have := congrArg (fun s => s.erase i) h1
    simpa [erase_insert (h.notMem hi hb), erase_insert (h.notMem hi hb')] using this
  · exact absurd (mem_of_mem_erase h1) (h.insert_notMem hi b)

theorem put (h : Parts A C) (hi : i ∉ A) {b : Finset ι} (hb : b ∈ insert ∅ C) :
    Parts (insert i A) (Spec.put i b C) := by
  have hbA : ∀ j ∈ b, j ∈ A := fun j hj => by
    rcases mem_insert.mp hb with rfl | hb
    · simp at hj
    · exact (h.cover j).mpr ⟨b, hb, hj⟩
  refine ⟨?_, ?_, ?_⟩
  · simp only [Spec.put, mem_insert, mem_erase, not_or]
    exact ⟨fun h => by simpa using congrArg (fun s => i ∈ s) h, fun h' => h.empty h'.2⟩
  · have key : ∀ x ∈ C.erase b, ∀ j, j ∈ insert i b → j ∈ x → False := by
      intro x hx j hj hjx
      obtain ⟨hxb, hx⟩ := mem_erase.mp hx
      rcases mem_insert.mp hj with rfl | hj
      · exact h.notMem hi (mem_insert_of_mem hx) hjx
      · rcases mem_insert.mp hb with rfl | hb
        · simp at hj
        · exact hxb (h.disj x hx b hb j hjx hj)
    intro x hx y hy j hjx hjy
    rcases mem_insert.mp hx with rfl | hx <;> rcases mem_insert.mp hy with rfl | hy
    · rfl
    · exact (key y hy j hjx hjy).elim
    · exact (key x hx j hjy hjx).elim
    · exact h.disj x (mem_of_mem_erase hx) y (mem_of_mem_erase hy) j hjx hjy
  · intro j
    simp only [mem_insert, Spec.put, mem_erase]
    constructor
    · rintro (rfl | hj)
      · exact ⟨_, .inl rfl, mem_insert_self _ _⟩
      · obtain ⟨x, hx, hjx⟩ := (h.cover j).mp hj
        by_cases hxb : x = b
        · exact ⟨_, .inl rfl, mem_insert_of_mem (hxb ▸ hjx)⟩
        · exact ⟨x, .inr ⟨hxb, hx⟩, hjx⟩
    · rintro ⟨x, rfl | ⟨_, hx⟩, hj⟩
      · rcases mem_insert.mp hj with rfl | hj
        · exact .inl rfl
        · exact .inr (hbA j hj)
      · exact .inr ((h.cover j).mpr ⟨x, hx, hj⟩)

theorem without (h : Parts A C) (i : ι) : Parts (A.erase i) (Spec.without i C) := by
  refine ⟨by simp [Spec.without], ?_, ?_⟩
  · intro x hx y hy j hjx hjy
    obtain ⟨_, hx⟩ := mem_erase.mp hx
    obtain ⟨_, hy⟩ := mem_erase.mp hy
    obtain ⟨x', hx', rfl⟩ := mem_image.mp hx
    obtain ⟨y', hy', rfl⟩ := mem_image.mp hy
    rw [h.disj x' hx' y' hy' j (mem_of_mem_erase hjx) (mem_of_mem_erase hjy)]
  · intro j
    simp only [Spec.without, mem_erase, mem_image]
    constructor
    · rintro ⟨hji, hj⟩
      obtain ⟨x, hx, hjx⟩ := (h.cover j).mp hj
      have hm : j ∈ x.erase i := mem_erase.mpr ⟨hji, hjx⟩
      exact ⟨_, ⟨ne_empty_of_mem hm, x, hx, rfl⟩, hm⟩
    · rintro ⟨_, ⟨_, x, hx, rfl⟩, hj⟩
      exact ⟨(mem_erase.mp hj).1, (h.cover j).mpr ⟨x, hx, (mem_erase.mp hj).2⟩⟩

/-- A clustering arises from that of the other items by putting the item back. -/
theorem exists_put (h : Parts A C) (hi : i ∈ A) :
    ∃ b ∈ insert ∅ (Spec.without i C), Spec.put i b (Spec.without i C) = C := by
  obtain ⟨x, hx, hix⟩ := (h.cover i).mp hi
  have hother : ∀ y ∈ C, y ≠ x → y.erase i = y := fun y hy hyx =>
    erase_eq_of_notMem fun hiy => hyx (h.disj y hy x hx i hiy hix)
  refine ⟨x.erase i, ?_, ?_⟩
  · by_cases h0 : x.erase i = ∅
    · rw [h0]; simp
    · exact mem_insert_of_mem (mem_erase.mpr ⟨h0, mem_image.mpr ⟨x, hx, rfl⟩⟩)
  · ext y
    simp only [Spec.put, Spec.without, mem_insert, mem_erase, mem_image]
    rw [insert_erase hix]
    constructor
    · rintro (rfl | ⟨hy1, hy2, z, hz, rfl⟩)
      · exact hx
      · by_cases hzx : z = x
        · exact absurd (by rw [hzx]) hy1
        · rwa [hother z hz hzx]
    · intro hy
      by_cases hyx : y = x
      · exact .inl hyx
      · refine .inr ⟨?_, ?_, y, hy, hother y hy hyx⟩
        · intro he
          have hne : y ≠ ∅ := by rintro rfl; exact h.empty hy
          obtain ⟨j, hj⟩ := nonempty_iff_ne_empty.mpr hne
          have hjx : j ∈ x := mem_of_mem_erase (he ▸ hj)
          exact hyx (h.disj y hy x hx j hj hjx)
        · rintro rfl; exact h.empty hy

theorem of_finpartition (P : Finpartition A) : Parts A P.parts := by
  refine ⟨P.bot_notMem, ?_, ?_⟩
  · intro b hb b' hb' j hj hj'
    exact P.eq_of_mem_parts hb hb' hj hj'
  · intro j
    exact ⟨fun hj => P.exists_mem hj, fun ⟨b, hb, hj⟩ => P.le hb hj⟩

/-- The clustering as a partition. -/
def toFinpartition (h : Parts A C) : Finpartition A where
  parts := C
  supIndep := by
    rw [Finset.supIndep_iff_pairwiseDisjoint]
    intro b hb b' hb' hne
    rw [Function.onFun, id, id, disjoint_left]
    exact fun j hj hj' => hne (h.disj b hb b' hb' j hj hj')
  sup_parts := by
    ext j
    rw [mem_sup, h.cover]; rfl
  bot_notMem := h.empty

end Parts

/-! ## The clusters of assignments -/

section

variable [Fintype ι] {a : ι → Option Nat}

theorem clusters_parts (a : ι → Option Nat) :
    Parts (univ.filter fun i => a i ≠ none) (clusters a) := by
  refine ⟨?_, ?_, ?_⟩
  · simp only [clusters, mem_image, not_exists, not_and]
    intro i hi he
    have : i ∈ (∅ : Finset ι) := by rw [← he]; simp
    simp at this
  · intro b hb b' hb' j hj hj'
    simp only [clusters, mem_image] at hb hb'
    obtain ⟨i, _, rfl⟩ := hb
    obtain ⟨i', _, rfl⟩ := hb'
    simp only [mem_filter, mem_univ, true_and] at hj hj'
    rw [← hj, ← hj']
  · intro j
    simp only [clusters, mem_image, mem_filter, mem_univ, true_and]
    constructor
    · intro hj; exact ⟨_, ⟨j, hj, rfl⟩, by simp⟩
    · rintro ⟨_, ⟨i, hi, rfl⟩, hj⟩
      simp only [mem_filter, mem_univ, true_and] at hj
      rwa [hj]

theorem mem_clusters {b : Finset ι} :
    b ∈ clusters a ↔ ∃ g i, a i = some g ∧ b = univ.filter fun j => a j = some g := by
  simp only [clusters, mem_image, mem_filter, mem_univ, true_and]
  constructor
  · rintro ⟨i, hi, rfl⟩
    obtain ⟨g, hg⟩ := Option.ne_none_iff_exists'.mp hi
    exact ⟨g, i, hg, by rw [hg]⟩
  · rintro ⟨g, i, hi, rfl⟩
    exact ⟨i, by simp [hi], by rw [hi]⟩

theorem clusters_assign {i : ι} (hi : a i = none) (g : Nat) :
    clusters (Inference.assign a i (some g)) =
      put i (univ.filter fun j => a j = some g) (clusters a) := by
  have hin : ∀ j g', a j = some g' → j ≠ i := by rintro j g' h rfl; simp [hi] at h
  have hself : (univ.filter fun j => Inference.assign a i (some g) j = some g) =
      insert i (univ.filter fun j => a j = some g) := by
    ext j
    by_cases hj : j = i <;> simp [Inference.assign, hj]
  have hoth : ∀ g', g' ≠ g → (univ.filter fun j => Inference.assign a i (some g) j = some g') =
      univ.filter fun j => a j = some g' := by
    intro g' hg'
    ext j
    rw [mem_filter, mem_filter]
    by_cases hj : j = i
    · subst hj; simp [Inference.assign, hi, hg'.symm]
    · simp [Inference.assign, hj]
  ext b
  rw [mem_clusters, put, mem_insert, mem_erase, mem_clusters]
  constructor
  · rintro ⟨g', j, hj, rfl⟩
    by_cases hg' : g' = g
    · subst hg'; exact .inl hself
    · rw [hoth g' hg']
      have hji : j ≠ i := by
        rintro rfl; simp [Inference.assign] at hj; exact hg' hj.symm
      have hj' : a j = some g' := by simpa [Inference.assign, hji] using hj
      refine .inr ⟨?_, g', j, hj', rfl⟩
      intro he
      have : j ∈ univ.filter fun j => a j = some g := by rw [← he]; simp [hj']
      simp [hj'] at this; exact hg' this
  · rintro (rfl | ⟨hne, g', j, hj, rfl⟩)
    · exact ⟨g, i, by simp [Inference.assign], hself.symm⟩
    · have hg' : g' ≠ g := by rintro rfl; exact hne rfl
      exact ⟨g', j, by simp [Inference.assign, hin j g' hj, hj], (hoth g' hg').symm⟩

theorem clusters_unassign (i : ι) :
    clusters (Inference.assign a i none) = without i (clusters a) := by
  have hset : ∀ g, (univ.filter fun j => Inference.assign a i none j = some g) =
      (univ.filter fun j => a j = some g).erase i := by
    intro g; ext j
    by_cases hj : j = i <;> simp [Inference.assign, hj]
  ext b
  simp only [without, mem_erase, mem_image, mem_clusters]
  constructor
  · rintro ⟨g, j, hj, rfl⟩
    have hji : j ≠ i := by rintro rfl; simp [Inference.assign] at hj
    have hj' : a j = some g := by simpa [Inference.assign, hji] using hj
    refine ⟨?_, _, ⟨g, j, hj', rfl⟩, (hset g).symm⟩
    rw [hset]
    exact ne_empty_of_mem (mem_erase.mpr ⟨hji, by simp [hj']⟩)
  · rintro ⟨hne, _, ⟨g, j, hj, rfl⟩, rfl⟩
    obtain ⟨k, hk⟩ := nonempty_iff_ne_empty.mpr hne
    rw [← hset] at hk ⊢
    exact ⟨g, k, by simpa using hk, rfl⟩

end

/-! ## Weights -/

open PitmanYor

/-- The logarithm of the weight of a clustering, for cluster data scores `D`. -/
noncomputable def logWeight (alpha d : ℝ) (D : Finset ι → ℝ) (C : Finset (Finset ι)) : ℝ :=
  logEppf alpha d (C.toList.map card) + ∑ b ∈ C, D b

theorem logEppf_finset (alpha d : ℝ) {C : Finset (Finset ι)} (h : ∅ ∉ C) :
    logEppf alpha d (C.toList.map card) =
      tableTerm alpha d C.card + ∑ b ∈ C, sizeTerm d (b.card - 1)
        - totalTerm alpha (∑ b ∈ C, b.card) := by
  have hf : (C.toList.map card).filter (fun c => c ≠ 0) = C.toList.map card := by
    rw [List.filter_eq_self]
    intro c hc
    obtain ⟨b, hb, rfl⟩ := List.mem_map.mp hc
    have hb0 : b ≠ ∅ := by rintro rfl; exact h (mem_toList.mp hb)
    simpa using hb0
  unfold logEppf
  rw [hf, List.length_map, length_toList, List.map_map, ← sum_map_toList C card,
    ← sum_map_toList C fun b => sizeTerm d (b.card - 1)]
  rfl

/-- The score of seating an item at one of `E` empty groups, or with `n` others; `K` groups
are taken by `N` items. -/
noncomputable def seatScore (alpha d : ℝ) (E K N n : ℕ) : ℝ :=
  (if n = 0 then Real.log ((alpha + d * K) / E) else Real.log (n - d)) - Real.log (N + alpha)

theorem logWeight_put {alpha d : ℝ} (ha : 0 < alpha) (hd : 0 ≤ d) (hd1 : d < 1)
    (D : Finset ι → ℝ) (hD : D ∅ = 0) {A : Finset ι} {C : Finset (Finset ι)} (h : Parts A C)
    {i : ι} (hi : i ∉ A) {b : Finset ι} (hb : b ∈ insert ∅ C) {E : ℕ} (hE : 0 < E) :
    seatScore alpha d E C.card (∑ b ∈ C, b.card) b.card + (D (insert i b) - D b) =
      logWeight alpha d D (put i b C) - logWeight alpha d D C -
        Real.log (if b = ∅ then E else 1) := by
  have hib := h.notMem hi hb
  have hn := h.insert_notMem hi b
  have hn' : insert i b ∉ C.erase b := fun h' => hn (mem_of_mem_erase h')
  unfold logWeight seatScore
  rw [logEppf_finset _ _ (h.put hi hb).empty, logEppf_finset _ _ h.empty]
  have hN : (∑ x ∈ put i b C, x.card) = (∑ x ∈ C, x.card) + 1 := by
    rw [put, sum_insert hn', card_insert_of_notMem hib]
    rcases mem_insert.mp hb with rfl | hbC
    · rw [erase_eq_of_notMem h.empty]; simp [add_comm]
    · have := add_sum_erase C card hbC
      omega
  have hlogN : totalTerm alpha ((∑ x ∈ C, x.card) + 1) = totalTerm alpha (∑ x ∈ C, x.card) +
      if (∑ x ∈ C, x.card) = 0 then 0 else Real.log (alpha + (∑ x ∈ C, x.card : ℕ)) :=
    totalTerm_succ _
  rw [hN, hlogN]
  by_cases hb0 : b = ∅
  · subst hb0
    have hC0 : C.erase ∅ = C := erase_eq_of_notMem h.empty
    have hcard : (put i ∅ C).card = C.card + 1 := by
      rw [put, card_insert_of_notMem hn', hC0]
    have hsz : ∑ x ∈ put i ∅ C, sizeTerm d (x.card - 1) = ∑ x ∈ C, sizeTerm d (x.card - 1) := by
      rw [put, sum_insert hn', hC0]; simp [sizeTerm]
    have hDs : ∑ x ∈ put i ∅ C, D x = D (insert i ∅) + ∑ x ∈ C, D x := by
      rw [put, sum_insert hn', hC0]
    rw [hcard, hsz, hDs, tableTerm_succ, hD]
    have hK : (C.card : ℕ) = 0 ↔ (∑ x ∈ C, x.card) = 0 := by
      rw [card_eq_zero, sum_eq_zero_iff]
      constructor
      · rintro rfl; simp
      · intro h0
        rw [eq_empty_iff_forall_notMem]
        intro x hx
        have := h0 x hx
        rw [card_eq_zero] at this
        exact h.empty (this ▸ hx)
    have hnum : 0 < alpha + d * (C.card : ℝ) := by positivity
    have hE' : (0 : ℝ) < E := by exact_mod_cast hE
    simp only [card_empty, if_true]
    rw [Real.log_div hnum.ne' hE'.ne']
    by_cases hK0 : C.card = 0
    · have hS0 := hK.mp hK0
      rw [hK0, hS0]
      simp
      ring
    · have hS0 : ¬ (∑ x ∈ C, x.card) = 0 := fun h0 => hK0 (hK.mpr h0)
      simp only [hK0, hS0, if_false]
      rw [add_comm (((∑ x ∈ C, x.card : ℕ) : ℝ)) alpha]
      ring
  · have hbC := (mem_insert.mp hb).resolve_left hb0
    have hcard : (put i b C).card = C.card := by
      rw [put, card_insert_of_notMem hn', card_erase_of_mem hbC]
      have := card_pos.mpr ⟨b, hbC⟩
      omega
    have hbc : b.card ≠ 0 := by simpa using hb0
    have hsz : ∑ x ∈ put i b C, sizeTerm d (x.card - 1) =
        ∑ x ∈ C, sizeTerm d (x.card - 1) + Real.log (b.card - d) := by
      rw [put, sum_insert hn', card_insert_of_notMem hib,
        ← add_sum_erase C (fun x => sizeTerm d (x.card - 1)) hbC]
      obtain ⟨k, hk⟩ : ∃ k, b.card = k + 1 := ⟨b.card - 1, by omega⟩
      simp only [hk, Nat.add_sub_cancel, sizeTerm_succ]
      push_cast; ring
    have hDs : ∑ x ∈ put i b C, D x = D (insert i b) - D b + ∑ x ∈ C, D x := by
      rw [put, sum_insert hn', ← add_sum_erase C D hbC]; ring
    have hS0 : (∑ x ∈ C, x.card) ≠ 0 := by
      intro h0
      exact hbc (sum_eq_zero_iff.mp h0 b hbC)
    rw [hcard, hsz, hDs]
    simp only [hbc, hb0, hS0, if_false]
    rw [add_comm (((∑ x ∈ C, x.card : ℕ) : ℝ)) alpha, Real.log_one]
    ring

end Dist
