import Verif.Model.Histogram
import Mathlib.Tactic.Linarith
import Mathlib.Tactic.FieldSimp
import Mathlib.Tactic.Push

/-! # C73: the histogram of the goodness-of-fit helpers -/

namespace Dist.Util

variable {α : Type}

theorem foldl_max_spec (cs : List Int) (c : Int) :
    cs.foldl max c ∈ c :: cs ∧ ∀ x ∈ c :: cs, x ≤ cs.foldl max c := by
  induction cs generalizing c with
  | nil => simp
  | cons d cs ih =>
    obtain ⟨h1, h2⟩ := ih (max c d)
    rw [List.foldl_cons]
    constructor
    · rcases List.mem_cons.mp h1 with h | h
      · rw [h]
        rcases max_choice c d with h | h <;> simp [h]
      · simp [h]
    · intro x hx
      have hm := h2 (max c d) (by simp)
      rcases List.mem_cons.mp hx with rfl | hx
      · exact (le_max_left _ _).trans hm
      · rcases List.mem_cons.mp hx with rfl | hx
        · exact (le_max_right _ _).trans hm
        · exact h2 x (by simp [hx])

theorem histogramLoop_eq (m : Int) (hm : m ≠ 0) (l : List (α × Int)) (out : List (Line α)) :
    histogramLoop m l out =
      .ok (out ++ l.map fun e => .row e.1 e.2 (pyRound (60 * e.2 / m)).toNat) () := by
  induction l generalizing out with
  | nil => simp [histogramLoop]
  | cons e l ih => simp [histogramLoop, hm, ih]

theorem sorted_spec [LinearOrder α] (l : List (α × Int)) :
    (l.mergeSort fun a b => b.1 < a.1 || (b.1 = a.1 && b.2 ≤ a.2)).Pairwise
      fun a b => b.1 < a.1 ∨ b.1 = a.1 ∧ b.2 ≤ a.2 := by
  have h := List.pairwise_mergeSort (le := fun a b : α × Int => b.1 < a.1 || (b.1 = a.1 && b.2 ≤ a.2))
    (by
      intro a b c h1 h2
      simp only [Bool.or_eq_true, decide_eq_true_eq, Bool.and_eq_true] at h1 h2 ⊢
      rcases h1 with h1 | ⟨h1, h1'⟩ <;> rcases h2 with h2 | ⟨h2, h2'⟩
      · exact .inl (h2.trans h1)
      · exact .inl (h2 ▸ h1)
      · exact .inl (h1 ▸ h2)
      · exact .inr ⟨h2.trans h1, h2'.trans h1'⟩)
    (by
      intro a b
      simp only [Bool.or_eq_true, decide_eq_true_eq, Bool.and_eq_true]
      rcases lt_trichotomy a.1 b.1 with h | h | h
      · exact .inr (.inl h)
      · rcases le_total b.2 a.2 with h' | h'
        · exact .inl (.inr ⟨h.symm, h'⟩)
        · exact .inr (.inr ⟨h, h'⟩)
      · exact .inl (.inl h)) l
  exact h.imp fun h => by simpa using h

/-- The length of a bar is the nearest integer. -/
theorem bar_near {m c : Int} (hm : 0 < m) (hc : 0 ≤ c) :
    |(((pyRound (60 * c / m)).toNat : ℕ) : ℚ) - 60 * c / m| ≤ 1 / 2 := by
  have hx : (0 : ℚ) ≤ 60 * c / m := by positivity
  have h0 : 0 ≤ ⌊(60 * c / m : ℚ) + 1 / 2⌋ := Int.floor_nonneg.mpr (by linarith)
  have h1 := Int.floor_le ((60 * c / m : ℚ) + 1 / 2)
  have h2 := Int.lt_floor_add_one ((60 * c / m : ℚ) + 1 / 2)
  have e : (((pyRound (60 * c / m)).toNat : ℕ) : ℚ) = (⌊(60 * c / m : ℚ) + 1 / 2⌋ : ℤ) := by
    rw [pyRound, if_pos hx]
    exact_mod_cast congrArg (fun z : ℤ => (z : ℚ)) (Int.toNat_of_nonneg h0)
  rw [e, abs_le]
  constructor <;> linarith

/-- **C73, histogram.** With as many counts as probabilities, none negative and not all zero, the
histogram has a header and one line for every category, in decreasing order of probability; the bar of
a category is as long as its count is in proportion to the greatest one, which has 60 dashes, to the
nearest dash. -/
theorem C73_histogram [LinearOrder α] (probs : List α) (counts : List Int) (out : List (Line α))
    (hl : probs.length = counts.length) (h0 : ∀ c ∈ counts, 0 ≤ c) (hp : ∃ c ∈ counts, 0 < c) :
    ∃ m ∈ counts, (∀ c ∈ counts, c ≤ m) ∧ ∃ rows : List (α × Int × Nat),
      printHistogram probs counts out =
        .ok (out ++ .header :: rows.map fun r => .row r.1 r.2.1 r.2.2) () ∧
      rows.length = probs.length ∧
      (rows.map fun r => (r.1, r.2.1)).Perm (probs.zip counts) ∧
      rows.Pairwise (fun r s => s.1 < r.1 ∨ s.1 = r.1 ∧ s.2.1 ≤ r.2.1) ∧
      ∀ r ∈ rows, |(r.2.2 : ℚ) - 60 * r.2.1 / m| ≤ 1 / 2 ∧ r.2.2 ≤ 60 ∧
        (r.2.1 = m → r.2.2 = 60) := by
  cases counts with
  | nil => simp at hp
  | cons c cs =>
    obtain ⟨hmem, hmax⟩ := foldl_max_spec cs c
    have hm : 0 < cs.foldl max c := by
      obtain ⟨d, hd, hd0⟩ := hp
      exact hd0.trans_le (hmax d hd)
    refine ⟨_, hmem, hmax, ((probs.zip (c :: cs)).mergeSort
      fun a b => b.1 < a.1 || (b.1 = a.1 && b.2 ≤ a.2)).map fun e =>
        (e.1, e.2, (pyRound (60 * e.2 / (cs.foldl max c : ℤ))).toNat), ?_, ?_, ?_, ?_, ?_⟩
    · rw [printHistogram, histogramLoop_eq _ hm.ne']
      simp [List.map_map, Function.comp_def]
    · simp [← hl]
    · rw [List.map_map]
      simpa [Function.comp_def] using List.mergeSort_perm (probs.zip (c :: cs)) _
    · rw [List.pairwise_map]
      exact sorted_spec _
    · intro r hr
      obtain ⟨e, he, rfl⟩ := List.mem_map.mp hr
      have hec : e.2 ∈ c :: cs := (List.of_mem_zip (List.mem_mergeSort.mp he)).2
      have hnear := bar_near hm (h0 _ hec)
      have hmq : (0 : ℚ) < (cs.foldl max c : ℤ) := by exact_mod_cast hm
      have hle : (60 * e.2 / (cs.foldl max c : ℤ) : ℚ) ≤ 60 := by
        rw [div_le_iff₀ hmq]
        have : (e.2 : ℚ) ≤ (cs.foldl max c : ℤ) := by exact_mod_cast hmax _ hec
        linarith
      have hn := abs_le.mp hnear
      refine ⟨hnear, ?_, ?_⟩
      · have : (((pyRound (60 * e.2 / (cs.foldl max c : ℤ))).toNat : ℕ) : ℚ) < 61 := by linarith
        have : (pyRound (60 * e.2 / (cs.foldl max c : ℤ))).toNat < 61 := by exact_mod_cast this
        exact Nat.lt_succ_iff.mp this
      · intro h
        replace h : e.2 = cs.foldl max c := h
        have hq : (60 * e.2 / (cs.foldl max c : ℤ) : ℚ) = 60 := by
          rw [h]; field_simp
        have a : (59 : ℚ) < ((pyRound (60 * e.2 / (cs.foldl max c : ℤ))).toNat : ℕ) := by linarith
        have b : (((pyRound (60 * e.2 / (cs.foldl max c : ℤ))).toNat : ℕ) : ℚ) < 61 := by linarith
        have a' : 59 < (pyRound (60 * e.2 / (cs.foldl max c : ℤ))).toNat := by exact_mod_cast a
        have b' : (pyRound (60 * e.2 / (cs.foldl max c : ℤ))).toNat < 61 := by exact_mod_cast b
        show (pyRound (60 * e.2 / (cs.foldl max c : ℤ))).toNat = 60
        omega

/-- **C73, histogram that raises.** Without counts nothing is printed; where all counts are zero, only
the header. -/
theorem C73_histogram_raises [LinearOrder α] (probs : List α) (counts : List Int)
    (out : List (Line α)) :
    (counts = [] → printHistogram probs counts out = .fail out) ∧
    (counts ≠ [] → probs ≠ [] → (∀ c ∈ counts, c = 0) →
      printHistogram probs counts out = .fail (out ++ [.header])) := by
  refine ⟨fun h => by subst h; rfl, fun hc hp h0 => ?_⟩
  obtain ⟨c, cs, rfl⟩ := List.exists_cons_of_ne_nil hc
  obtain ⟨p, ps, rfl⟩ := List.exists_cons_of_ne_nil hp
  rw [printHistogram, h0 _ (foldl_max_spec cs c).1]
  cases hs : (((p :: ps).zip (c :: cs)).mergeSort
      fun a b => b.1 < a.1 || (b.1 = a.1 && b.2 ≤ a.2)) with
  | nil =>
    have := congrArg List.length hs
    simp at this
  | cons e l => rfl

/-- Three categories: bars of 30, 60 and 8 dashes (7.5 is rounded up). -/
example : printHistogram [1, 5, 2] [4, 8, 1] ([] : List (Line Nat)) =
    .ok [.header, .row 5 8 60, .row 2 1 8, .row 1 4 30] () := by
  have hs : (([1, 5, 2].zip [4, 8, 1] : List (Nat × Int)).mergeSort
      fun a b => b.1 < a.1 || (b.1 = a.1 && b.2 ≤ a.2)) = [(5, 8), (2, 1), (1, 4)] := by
    simp [List.mergeSort, List.MergeSort.Internal.splitInTwo, List.merge]
  have hm : ([8, 1] : List Int).foldl max 4 = 8 := by decide
  rw [printHistogram, hs, hm, histogramLoop_eq _ (by decide)]
  have r1 : pyRound (60 * (8 : ℤ) / (8 : ℤ)) = 60 := by norm_num [pyRound]
  have r2 : pyRound (60 * (1 : ℤ) / (8 : ℤ)) = 8 := by norm_num [pyRound]
  have r3 : pyRound (60 * (4 : ℤ) / (8 : ℤ)) = 30 := by norm_num [pyRound, Int.floor_eq_iff]
  simp only [List.map_cons, List.map_nil, r1, r2, r3]
  rfl

end Dist.Util
