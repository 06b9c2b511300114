import Verif.Lemmas.GoodnessOfFit

/-! # Sorting in the goodness-of-fit helpers -/

namespace Dist

open FloatOps FloatNotation

namespace Util

/-- A sorted rearrangement is the result of sorting. -/
theorem sort_unique {α β : Type} {f : α → β} {R : β → β → Bool}
    (trans : ∀ a b c, R (f a) (f b) → R (f b) (f c) → R (f a) (f c))
    (total : ∀ a b, R (f a) (f b) || R (f b) (f a))
    (anti : ∀ a b, R (f a) (f b) → R (f b) (f a) → a = b)
    {l s : List α} (hp : s.Perm l) (hs : s.Pairwise fun a b => R (f a) (f b) = true) :
    (l.map f).mergeSort R = s.map f := by
  rw [← List.map_mergeSort (r := fun a b => R (f a) (f b)) (fun _ _ _ _ => rfl)]
  congr 1
  refine List.Perm.eq_of_pairwise (le := fun a b => R (f a) (f b) = true)
    (fun a b _ _ => anti a b) (List.pairwise_mergeSort trans total l) hs
    ((List.mergeSort_perm l _).trans hp.symm)

theorem pairLe_fin (a b : ℝ × ℝ) :
    pairLe (XR.fin a.1, XR.fin a.2) (XR.fin b.1, XR.fin b.2) = true ↔ Spec.sampleOrder a b := by
  rw [pairLe, Bool.or_eq_true, Bool.and_eq_true, XR.lt_fin, eqf_fin, XR.le_fin, Spec.sampleOrder]

theorem itemGe_fin (a b : ℝ × ℤ) :
    itemGe (XR.fin a.1, a.2) (XR.fin b.1, b.2) = true ↔ b.1 < a.1 ∨ a.1 = b.1 ∧ b.2 ≤ a.2 := by
  rw [itemGe, Bool.or_eq_true, Bool.and_eq_true, XR.lt_fin, eqf_fin, decide_eq_true_eq]

theorem sort_pairs {l s : List (ℝ × ℝ)} (hp : s.Perm l) (hs : s.Pairwise Spec.sampleOrder) :
    (l.map fun e => (XR.fin e.1, XR.fin e.2)).mergeSort pairLe =
      s.map fun e => (XR.fin e.1, XR.fin e.2) := by
  refine sort_unique (f := fun e : ℝ × ℝ => (XR.fin e.1, XR.fin e.2)) ?_ ?_ ?_ hp
    (hs.imp fun h => (pairLe_fin _ _).2 h)
  · intro a b c hab hbc
    rw [pairLe_fin] at *
    unfold Spec.sampleOrder at *
    rcases hab with h | ⟨h, h'⟩ <;> rcases hbc with g | ⟨g, g'⟩
    · exact .inl (h.trans g)
    · exact .inl (g ▸ h)
    · exact .inl (h ▸ g)
    · exact .inr ⟨h.trans g, h'.trans g'⟩
  · intro a b
    rw [Bool.or_eq_true, pairLe_fin, pairLe_fin]
    unfold Spec.sampleOrder
    rcases lt_trichotomy a.1 b.1 with h | h | h
    · exact .inl (.inl h)
    · rcases le_total a.2 b.2 with g | g
      · exact .inl (.inr ⟨h, g⟩)
      · exact .inr (.inr ⟨h.symm, g⟩)
    · exact .inr (.inl h)
  · intro a b hab hba
    rw [pairLe_fin] at *
    unfold Spec.sampleOrder at *
    rcases hab with h | ⟨h, h'⟩ <;> rcases hba with g | ⟨g, g'⟩
    · exact absurd h g.not_gt
    · exact absurd h g.not_gt
    · exact absurd g h.not_gt
    · exact Prod.ext h (le_antisymm h' g')

theorem sort_items {l s : List (ℝ × ℤ)} (hp : s.Perm l)
    (hs : s.Pairwise fun a b => b.1 < a.1 ∨ a.1 = b.1 ∧ b.2 ≤ a.2) :
    (l.map fun e => (XR.fin e.1, e.2)).mergeSort itemGe = s.map fun e => (XR.fin e.1, e.2) := by
  refine sort_unique (f := fun e : ℝ × ℤ => (XR.fin e.1, e.2)) ?_ ?_ ?_ hp
    (hs.imp fun h => (itemGe_fin _ _).2 h)
  · intro a b c hab hbc
    rw [itemGe_fin] at *
    rcases hab with h | ⟨h, h'⟩ <;> rcases hbc with g | ⟨g, g'⟩
    · exact .inl (g.trans h)
    · exact .inl (g ▸ h)
    · exact .inl (h ▸ g)
    · exact .inr ⟨h.trans g, g'.trans h'⟩
  · intro a b
    rw [Bool.or_eq_true, itemGe_fin, itemGe_fin]
    rcases lt_trichotomy a.1 b.1 with h | h | h
    · exact .inr (.inl h)
    · rcases le_total a.2 b.2 with g | g
      · exact .inr (.inr ⟨h.symm, g⟩)
      · exact .inl (.inr ⟨h, g⟩)
    · exact .inl (.inl h)
  · intro a b hab hba
    rw [itemGe_fin] at *
    rcases hab with h | ⟨h, h'⟩ <;> rcases hba with g | ⟨g, g'⟩
    · exact absurd h g.not_gt
    · exact absurd h g.not_lt
    · exact absurd g h.not_lt
    · exact Prod.ext h (le_antisymm g' h')

theorem sort_reals {l s : List ℝ} (hp : s.Perm l) (hs : s.Pairwise (· ≤ ·)) :
    (l.map XR.fin).mergeSort le = s.map XR.fin := by
  refine sort_unique (f := XR.fin) ?_ ?_ ?_ hp (hs.imp fun h => (XR.le_fin _ _).2 h)
  · intro a b c hab hbc
    rw [XR.le_fin] at *; exact hab.trans hbc
  · intro a b
    rw [Bool.or_eq_true, XR.le_fin, XR.le_fin]; exact le_total a b
  · intro a b hab hba
    rw [XR.le_fin] at *; exact le_antisymm hab hba

theorem gapTransform_eq (n : ℕ) (s : List (ℝ × ℝ)) (h : ∀ e ∈ s, 0 ≤ e.2) :
    gapTransform n (s.map fun e => (XR.fin e.1, XR.fin e.2)) =
      (Spec.gapScores n s).map XR.fin := by
  induction s with
  | nil => rfl
  | cons a s ih =>
    cases s with
    | nil => rfl
    | cons b s =>
      have h' : ∀ e ∈ b :: s, 0 ≤ e.2 := fun e he => h e (List.mem_cons_of_mem _ he)
      have := ih h'
      simp only [List.map_cons, gapTransform, Spec.gapScores, List.tail_cons,
        List.zipWith_cons_cons] at this ⊢
      rw [this]
      have ha := h a (by simp)
      have hb := h b (by simp)
      simp only [XR.ofInt_eq, XR.fin_mul, XR.fin_sub, XR.fin_neg]
      rw [XR.sqrt_fin (mul_nonneg hb ha)]
      simp only [XR.fin_mul, XR.exp_fin, XR.fin_sub]
      congr 2
      push_cast
      rw [mul_comm b.2]
      congr 2
      ring

theorem gapScores_mem {n : ℝ} (hn : 0 ≤ n) {s : List (ℝ × ℝ)} (hs : s.Pairwise Spec.sampleOrder) :
    ∀ x ∈ Spec.gapScores n s, 0 ≤ x ∧ x < 1 := by
  induction s with
  | nil => simp [Spec.gapScores]
  | cons a s ih =>
    cases s with
    | nil => simp [Spec.gapScores]
    | cons b s =>
      rw [List.pairwise_cons] at hs
      have := ih hs.2
      simp only [Spec.gapScores, List.tail_cons, List.zipWith_cons_cons, List.mem_cons] at this ⊢
      rintro x (rfl | hx)
      · have hab : a.1 ≤ b.1 := by
          rcases hs.1 b (by simp) with h | h
          · exact h.le
          · exact h.1.le
        have h0 : 0 ≤ n * (b.1 - a.1) * Real.sqrt (a.2 * b.2) := by
          have := sub_nonneg.2 hab; positivity
        have h1 := Real.exp_pos (-(n * (b.1 - a.1) * Real.sqrt (a.2 * b.2)))
        have h2 := Real.exp_le_one_iff.2 (neg_nonpos.2 h0)
        constructor <;> linarith
      · exact this x hx

theorem gapScores_length {n : ℝ} (s : List (ℝ × ℝ)) :
    (Spec.gapScores n s).length = s.length - 1 := by
  simp [Spec.gapScores]

theorem densityGof_eq (sp : Scipy XR) {l s : List (ℝ × ℝ)} (hl : 100 < l.length)
    (hp : s.Perm l) (hs : s.Pairwise Spec.sampleOrder) (h0 : ∀ e ∈ l, 0 ≤ e.2) :
    densityGof sp (l.map fun e => XR.fin e.1) (l.map fun e => XR.fin e.2) =
      unif01Gof sp ((Spec.gapScores l.length s).map XR.fin) := by
  have hz : (l.map fun e => XR.fin e.1).zip (l.map fun e => XR.fin e.2) =
      l.map fun e => (XR.fin e.1, XR.fin e.2) := List.zip_map' ..
  rw [densityGof]
  simp only [List.length_map, ne_eq, not_true_eq_false, if_false, hl, hz]
  rw [sort_pairs hp hs, gapTransform_eq _ _ fun e he => h0 e (hp.subset he)]

theorem inBin_eq {B : ℕ} (hB : 0 < B) (xs : List ℝ) (b : ℕ) :
    inBin B xs b = Spec.inPart B xs b := by
  have hB' : (0 : ℝ) < B := by exact_mod_cast hB
  rw [inBin, Spec.inPart]
  congr 1
  refine List.countP_congr fun x _ => ?_
  rw [decide_eq_true_iff, decide_eq_true_iff, Int.floor_eq_iff, div_le_iff₀ hB', lt_div_iff₀ hB']
  push_cast
  rw [mul_comm x]

theorem exists_sorted_pairs (l : List (ℝ × ℝ)) : ∃ s : List (ℝ × ℝ), s.Perm l ∧
    s.Pairwise Spec.sampleOrder := by
  refine ⟨l.mergeSort fun a b => pairLe (XR.fin a.1, XR.fin a.2) (XR.fin b.1, XR.fin b.2),
    List.mergeSort_perm _ _, (List.pairwise_mergeSort ?_ ?_ l).imp fun h => (pairLe_fin _ _).1 h⟩
  · intro a b c hab hbc
    rw [pairLe_fin] at *
    unfold Spec.sampleOrder at *
    rcases hab with h | ⟨h, h'⟩ <;> rcases hbc with g | ⟨g, g'⟩
    · exact .inl (h.trans g)
    · exact .inl (g ▸ h)
    · exact .inl (h ▸ g)
    · exact .inr ⟨h.trans g, h'.trans g'⟩
  · intro a b
    rw [Bool.or_eq_true, pairLe_fin, pairLe_fin]
    unfold Spec.sampleOrder
    rcases lt_trichotomy a.1 b.1 with h | h | h
    · exact .inl (.inl h)
    · rcases le_total a.2 b.2 with g | g
      · exact .inl (.inr ⟨h, g⟩)
      · exact .inr (.inr ⟨h.symm, g⟩)
    · exact .inr (.inl h)

theorem exists_sorted_reals (l : List ℝ) : ∃ s : List ℝ, s.Perm l ∧ s.Pairwise (· ≤ ·) := by
  refine ⟨l.mergeSort fun a b => FloatOps.le (XR.fin a) (XR.fin b),
    List.mergeSort_perm _ _, (List.pairwise_mergeSort ?_ ?_ l).imp fun h => (XR.le_fin _ _).1 h⟩
  · intro a b c hab hbc
    rw [XR.le_fin] at *; exact hab.trans hbc
  · intro a b
    rw [Bool.or_eq_true, XR.le_fin, XR.le_fin]; exact le_total a b

theorem exists_sorted_items (l : List (ℝ × ℤ)) : ∃ s : List (ℝ × ℤ), s.Perm l ∧
    s.Pairwise fun a b => b.1 < a.1 ∨ a.1 = b.1 ∧ b.2 ≤ a.2 := by
  refine ⟨l.mergeSort fun a b => itemGe (XR.fin a.1, a.2) (XR.fin b.1, b.2),
    List.mergeSort_perm _ _, (List.pairwise_mergeSort ?_ ?_ l).imp fun h => (itemGe_fin _ _).1 h⟩
  · intro a b c hab hbc
    rw [itemGe_fin] at *
    rcases hab with h | ⟨h, h'⟩ <;> rcases hbc with g | ⟨g, g'⟩
    · exact .inl (g.trans h)
    · exact .inl (g ▸ h)
    · exact .inl (h ▸ g)
    · exact .inr ⟨h.trans g, g'.trans h'⟩
  · intro a b
    rw [Bool.or_eq_true, itemGe_fin, itemGe_fin]
    rcases lt_trichotomy a.1 b.1 with h | h | h
    · exact .inr (.inl h)
    · rcases le_total a.2 b.2 with g | g
      · exact .inr (.inr ⟨h.symm, g⟩)
      · exact .inl (.inr ⟨h, g⟩)
    · exact .inl (.inl h)

theorem sum_count_keys {α : Type} [DecidableEq α] (samples keys : List α) (hk : keys.Nodup)
    (h : ∀ x ∈ samples, x ∈ keys) :
    (keys.map fun a => ((samples.count a : ℕ) : ℤ)).sum = samples.length := by
  induction samples with
  | nil => simp
  | cons x samples ih =>
    have e : (fun a => (((x :: samples).count a : ℕ) : ℤ)) =
        fun a => ((samples.count a : ℕ) : ℤ) + if x = a then 1 else 0 := by
      funext a
      rw [List.count_cons]
      by_cases hx : x = a <;> simp [hx]
    rw [e, List.sum_map_add, ih fun y hy => h y (List.mem_cons_of_mem _ hy)]
    have : (keys.map fun a => if x = a then (1 : ℤ) else 0).sum = 1 := by
      have hx := h x (by simp)
      clear h e ih
      induction keys with
      | nil => simp at hx
      | cons b keys ih =>
        rw [List.nodup_cons] at hk
        rw [List.map_cons, List.sum_cons]
        by_cases hb : x = b
        · subst hb
          have : (keys.map fun a => if x = a then (1 : ℤ) else 0).sum = 0 := by
            refine List.sum_eq_zero fun y hy => ?_
            obtain ⟨a, ha, rfl⟩ := List.mem_map.1 hy
            rw [if_neg]
            rintro rfl; exact hk.1 ha
          simp [this]
        · rw [if_neg hb, zero_add]
          exact ih hk.2 ((List.mem_cons.1 hx).resolve_left hb)
    rw [this]; simp

/-- The items handed on, whether cut or not. -/
theorem discreteGof_items {α : Type} [DecidableEq α] (sp : Scipy XR) (samples : List α)
    (dict : List (α × ℝ)) (T : ℕ) (hs : 100 < samples.length)
    (hm : ∀ x ∈ samples, x ∈ dict.map Prod.fst) {s : List (ℝ × ℤ)}
    (hp : s.Perm (dict.map fun e => (e.2, (samples.count e.1 : ℤ))))
    (ho : s.Pairwise fun a b => b.1 < a.1 ∨ a.1 = b.1 ∧ b.2 ≤ a.2) :
    discreteGof sp samples (dict.map fun e => (e.1, XR.fin e.2)) T =
      let cut := decide (T ≠ 0 ∧ T < dict.length)
      let kept := if cut then s.take T else s
      multinomialGof sp (kept.map fun e => XR.fin e.1) (kept.map Prod.snd) samples.length cut := by
  have hall : samples.all (fun x => ((dict.map fun e => (e.1, XR.fin e.2)).map Prod.fst).contains x)
      = true := by
    rw [List.all_eq_true]
    intro x hx
    have := hm x hx
    simpa [List.map_map, Function.comp_def] using this
  have hitems : ((dict.map fun e => (e.1, XR.fin e.2)).map fun e =>
      (e.2, (samples.count e.1 : ℤ))) =
      (dict.map fun e => (e.2, (samples.count e.1 : ℤ))).map fun e => (XR.fin e.1, e.2) := by
    simp [List.map_map, Function.comp_def]
  have hl : s.length = dict.length := by rw [hp.length_eq, List.length_map]
  rw [discreteGof]
  simp only [hs, not_true_eq_false, if_false, hall, Bool.not_true, Bool.false_eq_true, hitems]
  rw [sort_items hp ho]
  simp only [List.length_map, hl]
  by_cases hc : T ≠ 0 ∧ T < dict.length
  · rw [decide_eq_true hc]
    simp only [if_true, ← List.map_take, List.map_map, Function.comp_def]
  · rw [decide_eq_false hc]
    simp only [Bool.false_eq_true, if_false, List.map_map, Function.comp_def]

end Util

end Dist
