import Verif.Lemmas.GibbsSets
import Mathlib.Algebra.Order.BigOperators.Group.Finset

/-! # The chain of clusterings -/

namespace Dist

open Spec Finset

variable {ι : Type} [DecidableEq ι]

/-- The mean of `κ` after item `i` is put by weight. -/
noncomputable def putMean (W : Finset (Finset ι) → ℝ) (i : ι) (κ : Finset (Finset ι) → ℝ)
    (C : Finset (Finset ι)) : ℝ :=
  ∑ b ∈ insert ∅ C, W (put i b C) / (∑ b ∈ insert ∅ C, W (put i b C)) * κ (put i b C)

/-- The mean of `κ` after the items are resampled. -/
noncomputable def sweepMean (W : Finset (Finset ι) → ℝ) : List ι → (Finset (Finset ι) → ℝ) →
    Finset (Finset ι) → ℝ
  | [], κ, C => κ C
  | i :: is, κ, C => putMean W i (sweepMean W is κ) (without i C)

/-- The mean of `κ` after `n` passes. -/
noncomputable def passMean (W : Finset (Finset ι) → ℝ) (items : List ι) :
    Nat → (Finset (Finset ι) → ℝ) → Finset (Finset ι) → ℝ
  | 0, κ, C => κ C
  | n + 1, κ, C => sweepMean W items (passMean W items n κ) C

/-- The mean of `κ` after the items are placed. -/
noncomputable def startMean (W : Finset (Finset ι) → ℝ) : List ι → (Finset (Finset ι) → ℝ) →
    Finset (Finset ι) → ℝ
  | [], κ, C => κ C
  | i :: is, κ, C => putMean W i (startMean W is κ) C

section means

variable {W : Finset (Finset ι) → ℝ} (hW : ∀ C, 0 < W C)
include hW

theorem putTotal_pos (i : ι) (C : Finset (Finset ι)) :
    0 < ∑ b ∈ insert ∅ C, W (put i b C) :=
  sum_pos (fun _ _ => hW _) ⟨∅, mem_insert_self _ _⟩

theorem putMean_nonneg {i : ι} {κ : Finset (Finset ι) → ℝ} (hκ : ∀ C, 0 ≤ κ C)
    (C : Finset (Finset ι)) : 0 ≤ putMean W i κ C :=
  sum_nonneg fun _ _ => mul_nonneg (div_nonneg (hW _).le (putTotal_pos hW i C).le) (hκ _)

theorem sweepMean_nonneg (items : List ι) {κ : Finset (Finset ι) → ℝ} (hκ : ∀ C, 0 ≤ κ C)
    (C : Finset (Finset ι)) : 0 ≤ sweepMean W items κ C := by
  induction items generalizing C with
  | nil => exact hκ C
  | cons i is ih => exact putMean_nonneg hW ih _

theorem passMean_nonneg (items : List ι) (n : Nat) {κ : Finset (Finset ι) → ℝ}
    (hκ : ∀ C, 0 ≤ κ C) (C : Finset (Finset ι)) : 0 ≤ passMean W items n κ C := by
  induction n generalizing C with
  | zero => exact hκ C
  | succ n ih => exact sweepMean_nonneg hW items ih C

theorem startMean_nonneg (items : List ι) {κ : Finset (Finset ι) → ℝ} (hκ : ∀ C, 0 ≤ κ C)
    (C : Finset (Finset ι)) : 0 ≤ startMean W items κ C := by
  induction items generalizing C with
  | nil => exact hκ C
  | cons i is ih => exact putMean_nonneg hW ih _

theorem putMean_const (i : ι) (c : ℝ) (C : Finset (Finset ι)) : putMean W i (fun _ => c) C = c := by
  unfold putMean
  rw [← sum_mul, ← sum_div, div_self (putTotal_pos hW i C).ne', one_mul]

theorem sweepMean_const (items : List ι) (c : ℝ) (C : Finset (Finset ι)) :
    sweepMean W items (fun _ => c) C = c := by
  induction items generalizing C with
  | nil => rfl
  | cons i is ih =>
    rw [sweepMean]
    have : sweepMean W is (fun _ => c) = fun _ => c := funext ih
    rw [this, putMean_const hW]

/-- Means are within the range of the function. -/
theorem startMean_sub_le (items : List ι) {κ : Finset (Finset ι) → ℝ} {A : Finset ι}
    (hnd : items.Nodup) (hA : ∀ i ∈ items, i ∉ A) {C : Finset (Finset ι)} (hC : Parts A C) {m e : ℝ}
    (hκ : ∀ C', Parts (A ∪ items.toFinset) C' → |κ C' - m| ≤ e) :
    |startMean W items κ C - m| ≤ e := by
  induction items generalizing A C with
  | nil => exact hκ C (by simpa using hC)
  | cons i is ih =>
    rw [startMean]
    have hi : i ∉ A := hA i (by simp)
    have hb : ∀ b ∈ insert ∅ C, |startMean W is κ (put i b C) - m| ≤ e := by
      intro b hb
      refine ih (A := insert i A) hnd.of_cons ?_ (hC.put hi hb) ?_
      · intro j hj hjA
        rcases mem_insert.mp hjA with rfl | hjA
        · exact (List.nodup_cons.mp hnd).1 hj
        · exact hA j (List.mem_cons_of_mem _ hj) hjA
      · intro C' hC'
        refine hκ C' ?_
        have : A ∪ (i :: is).toFinset = insert i A ∪ is.toFinset := by
          ext j; simp
        rw [this]; exact hC'
    have h1 := putMean_const hW i m C
    have hpos := putTotal_pos hW i C
    have e1 : putMean W i (startMean W is κ) C - m =
        ∑ b ∈ insert ∅ C, W (put i b C) / (∑ b ∈ insert ∅ C, W (put i b C)) *
          (startMean W is κ (put i b C) - m) := by
      conv_lhs => rw [← h1]
      unfold putMean
      rw [← sum_sub_distrib]
      exact sum_congr rfl fun b _ => by ring
    rw [e1]
    calc |∑ b ∈ insert ∅ C, W (put i b C) / (∑ b ∈ insert ∅ C, W (put i b C)) *
          (startMean W is κ (put i b C) - m)|
        ≤ ∑ b ∈ insert ∅ C, |W (put i b C) / (∑ b ∈ insert ∅ C, W (put i b C)) *
          (startMean W is κ (put i b C) - m)| := abs_sum_le_sum_abs _ _
      _ ≤ ∑ b ∈ insert ∅ C, W (put i b C) / (∑ b ∈ insert ∅ C, W (put i b C)) * e := by
        refine sum_le_sum fun b hbm => ?_
        rw [abs_mul, abs_of_nonneg (div_nonneg (hW _).le hpos.le)]
        exact mul_le_mul_of_nonneg_left (hb b hbm) (div_nonneg (hW _).le hpos.le)
      _ = e := by rw [← sum_mul, ← sum_div, div_self hpos.ne', one_mul]

end means

theorem putMean_congr (W : Finset (Finset ι) → ℝ) {A : Finset ι} {i : ι} (hi : i ∉ A)
    {C : Finset (Finset ι)} (hC : Parts A C) {κ κ' : Finset (Finset ι) → ℝ}
    (h : ∀ C', Parts (insert i A) C' → κ C' = κ' C') : putMean W i κ C = putMean W i κ' C :=
  sum_congr rfl fun b hb => by rw [h _ (hC.put hi hb)]

theorem sweepMean_congr (W : Finset (Finset ι) → ℝ) {A : Finset ι} (items : List ι)
    (hit : ∀ i ∈ items, i ∈ A) {C : Finset (Finset ι)} (hC : Parts A C)
    {κ κ' : Finset (Finset ι) → ℝ} (h : ∀ C', Parts A C' → κ C' = κ' C') :
    sweepMean W items κ C = sweepMean W items κ' C := by
  induction items generalizing C with
  | nil => exact h C hC
  | cons i is ih =>
    rw [sweepMean, sweepMean]
    refine putMean_congr W (notMem_erase i A) (hC.without i) fun C' hC' => ?_
    rw [insert_erase (hit i (by simp))] at hC'
    exact ih (fun j hj => hit j (List.mem_cons_of_mem _ hj)) hC'

theorem sweepMean_sum (W : Finset (Finset ι) → ℝ) (items : List ι) {β : Type} (T : Finset β)
    (f : β → Finset (Finset ι) → ℝ) (c : β → ℝ) (C : Finset (Finset ι)) :
    sweepMean W items (fun C => ∑ q ∈ T, f q C * c q) C =
      ∑ q ∈ T, sweepMean W items (f q) C * c q := by
  induction items generalizing C with
  | nil => rfl
  | cons i is ih =>
    simp only [sweepMean]
    have : sweepMean W is (fun C => ∑ q ∈ T, f q C * c q) =
        fun C => ∑ q ∈ T, sweepMean W is (f q) C * c q := funext ih
    rw [this]
    simp only [putMean, mul_sum, sum_mul]
    rw [sum_comm]
    exact sum_congr rfl fun q _ => sum_congr rfl fun b _ => by ring

theorem parts_toFinpartition {A : Finset ι} {C : Finset (Finset ι)} (h : Parts A C) :
    h.toFinpartition.parts = C := rfl

/-- The clusterings that agree without item `i` are the ways to put it. -/
theorem sum_fiber {A : Finset ι} {i : ι} (hi : i ∈ A) {D : Finset (Finset ι)}
    (hD : Parts (A.erase i) D) (f : Finset (Finset ι) → ℝ) :
    ∑ Q : Finpartition A with without i Q.parts = D, f Q.parts =
      ∑ b ∈ insert ∅ D, f (put i b D) := by
  symm
  have hp : ∀ b ∈ insert ∅ D, Parts A (put i b D) := fun b hb => by
    have := hD.put (notMem_erase i A) hb
    rwa [insert_erase hi] at this
  refine sum_bij (fun b hb => (hp b hb).toFinpartition) ?_ ?_ ?_ (fun _ _ => rfl)
  · intro b hb
    simp only [mem_filter, mem_univ, true_and, parts_toFinpartition]
    exact hD.without_put (notMem_erase i A) hb
  · intro b hb b' hb' he
    exact hD.put_inj (notMem_erase i A) hb hb' (congrArg Finpartition.parts he)
  · intro Q hQ
    simp only [mem_filter, mem_univ, true_and] at hQ
    obtain ⟨b, hb, he⟩ := (Parts.of_finpartition Q).exists_put hi
    rw [hQ] at hb he
    exact ⟨b, hb, Finpartition.ext he⟩

section invariance

variable {W : Finset (Finset ι) → ℝ} (hW : ∀ C, 0 < W C)
include hW

theorem putMean_invariant {A : Finset ι} {i : ι} (hi : i ∈ A) (κ : Finset (Finset ι) → ℝ) :
    ∑ P : Finpartition A, W P.parts * putMean W i κ (without i P.parts) =
      ∑ P : Finpartition A, W P.parts * κ P.parts := by
  rw [← sum_fiberwise_of_maps_to (t := univ.image fun P : Finpartition A => without i P.parts)
      (g := fun P : Finpartition A => without i P.parts) (by simp),
    ← sum_fiberwise_of_maps_to (t := univ.image fun P : Finpartition A => without i P.parts)
      (g := fun P : Finpartition A => without i P.parts)
      (f := fun P : Finpartition A => W P.parts * κ P.parts) (by simp)]
  refine sum_congr rfl fun D hD => ?_
  obtain ⟨P0, _, rfl⟩ := mem_image.mp hD
  have hD := (Parts.of_finpartition P0).without i
  set D := without i P0.parts
  have h1 : ∑ P : Finpartition A with without i P.parts = D,
      W P.parts * putMean W i κ (without i P.parts) =
      ∑ P : Finpartition A with without i P.parts = D, W P.parts * putMean W i κ D :=
    sum_congr rfl fun P hP => by rw [(mem_filter.mp hP).2]
  rw [h1, sum_fiber hi hD (fun C => W C * putMean W i κ D),
    sum_fiber hi hD (fun C => W C * κ C), ← sum_mul]
  unfold putMean
  have hpos := putTotal_pos hW i D
  rw [mul_sum]
  refine sum_congr rfl fun b _ => ?_
  field_simp

theorem sweepMean_invariant {A : Finset ι} (items : List ι) (hit : ∀ i ∈ items, i ∈ A)
    (κ : Finset (Finset ι) → ℝ) :
    ∑ P : Finpartition A, W P.parts * sweepMean W items κ P.parts =
      ∑ P : Finpartition A, W P.parts * κ P.parts := by
  induction items with
  | nil => rfl
  | cons i is ih =>
    simp only [sweepMean]
    rw [putMean_invariant hW (hit i (by simp)),
      ih fun j hj => hit j (List.mem_cons_of_mem _ hj)]

theorem passMean_invariant {A : Finset ι} (items : List ι) (hit : ∀ i ∈ items, i ∈ A) (n : Nat)
    (κ : Finset (Finset ι) → ℝ) :
    ∑ P : Finpartition A, W P.parts * passMean W items n κ P.parts =
      ∑ P : Finpartition A, W P.parts * κ P.parts := by
  induction n with
  | zero => rfl
  | succ n ih =>
    simp only [passMean]
    rw [sweepMean_invariant hW items hit, ih]

end invariance

/-- A chain in which every step can lead anywhere forgets its start. -/
theorem doeblin {Ω : Type} [Fintype Ω] {K : Ω → Ω → ℝ} {π : Ω → ℝ} (hK : ∀ x, ∑ y, K x y = 1)
    (hπ : ∑ x, π x = 1) (hπ0 : ∀ x, 0 ≤ π x) (hst : ∀ y, ∑ x, π x * K x y = π y) {δ : ℝ}
    (hδ0 : 0 ≤ δ) (hδ : ∀ x y, δ ≤ K x y) (f : Nat → Ω → ℝ)
    (hf : ∀ n x, f (n + 1) x = ∑ y, K x y * f n y) (m : ℝ) (hm : ∑ x, π x * f 0 x = m)
    (h0 : ∀ x, |f 0 x - m| ≤ 1) : ∀ n x, |f n x - m| ≤ (1 - δ) ^ n := by
  have hπ1 : ∀ x, π x ≤ 1 := fun x => by
    rw [← hπ]; exact single_le_sum (fun y _ => hπ0 y) (mem_univ x)
  have hmean : ∀ n, ∑ x, π x * f n x = m := by
    intro n
    induction n with
    | zero => exact hm
    | succ n ih =>
      rw [← ih]
      simp only [hf, mul_sum]
      rw [sum_comm]
      refine sum_congr rfl fun y _ => ?_
      rw [← hst y, sum_mul]
      exact sum_congr rfl fun x _ => by ring
  intro n
  induction n with
  | zero => intro x; simpa using h0 x
  | succ n ih =>
    intro x
    have hnn : ∀ y, 0 ≤ K x y - δ * π y := fun y => by
      have := mul_le_mul_of_nonneg_left (hπ1 y) hδ0
      linarith [hδ x y]
    have e : f (n + 1) x - m = ∑ y, (K x y - δ * π y) * (f n y - m) := by
      rw [hf]
      have h1 : ∑ y, (K x y - δ * π y) * (f n y - m) =
          ∑ y, K x y * f n y - (∑ y, K x y) * m - δ * (∑ y, π y * f n y - (∑ y, π y) * m) := by
        rw [sum_mul, sum_mul, ← sum_sub_distrib, ← sum_sub_distrib, mul_sum, ← sum_sub_distrib]
        exact sum_congr rfl fun y _ => by ring
      rw [h1, hK, hπ, hmean]; ring
    rw [e]
    calc |∑ y, (K x y - δ * π y) * (f n y - m)|
        ≤ ∑ y, |(K x y - δ * π y) * (f n y - m)| := abs_sum_le_sum_abs _ _
      _ ≤ ∑ y, (K x y - δ * π y) * (1 - δ) ^ n := by
        refine sum_le_sum fun y _ => ?_
        rw [abs_mul, abs_of_nonneg (hnn y)]
        exact mul_le_mul_of_nonneg_left (ih y) (hnn y)
      _ = (1 - δ) ^ (n + 1) := by
        rw [← sum_mul, sum_sub_distrib, hK, ← mul_sum, hπ]; ring

section reach

variable [Fintype ι]

/-- The clusters of labels that agree with the parts. -/
theorem clusters_labels {A : Finset ι} (P : Finpartition A) {a : ι → Option Nat}
    (h1 : ∀ j, a j ≠ none ↔ j ∈ A)
    (h2 : ∀ j ∈ A, ∀ j' ∈ A, a j = a j' ↔ P.part j = P.part j') : clusters a = P.parts := by
  have hpart : ∀ j ∈ A, (univ.filter fun j' => a j' = a j) = P.part j := by
    intro j hj
    ext j'
    rw [mem_filter]
    constructor
    · rintro ⟨_, h⟩
      have hj' : j' ∈ A := (h1 j').mp (by rw [h]; exact (h1 j).mpr hj)
      rw [← (h2 j' hj' j hj).mp h]
      exact P.mem_part hj'
    · intro h
      have hj' : j' ∈ A := P.part_subset j h
      refine ⟨mem_univ _, (h2 j' hj' j hj).mpr ?_⟩
      exact (P.part_eq_of_mem (P.part_mem.mpr hj) h)
  ext b
  simp only [clusters, mem_image, mem_filter, mem_univ, true_and]
  constructor
  · rintro ⟨j, hj, rfl⟩
    rw [hpart j ((h1 j).mp hj)]
    exact P.part_mem.mpr ((h1 j).mp hj)
  · intro hb
    obtain ⟨j, hj⟩ := P.nonempty_of_mem_parts hb
    have hjA := P.le hb hj
    refine ⟨j, (h1 j).mpr hjA, ?_⟩
    rw [hpart j hjA]
    exact P.part_eq_of_mem hb hj

theorem sweepMean_pos {W : Finset (Finset ι) → ℝ} (hW : ∀ C, 0 < W C) {A : Finset ι}
    (items : List ι) (hit : ∀ i ∈ items, i ∈ A) (hall : ∀ i ∈ A, i ∈ items)
    (P Q : Finpartition A) :
    0 < sweepMean W items (fun C => if C = Q.parts then 1 else 0) P.parts := by
  let e := Fintype.equivFin (Finset ι)
  let lab : Finset ι → ι → Option Nat := fun T j =>
    if j ∈ A then (if j ∈ T then some (2 * (e (Q.part j)).1) else some (2 * (e (P.part j)).1 + 1))
    else none
  have hlabP : clusters (lab ∅) = P.parts := by
    refine clusters_labels P (fun j => ?_) fun j hj j' hj' => ?_
    · by_cases hj : j ∈ A <;> simp [lab, hj]
    · simp only [lab, hj, hj', if_true, notMem_empty, if_false, Option.some.injEq]
      rw [← e.injective.eq_iff, Fin.ext_iff]; omega
  have hlabQ : ∀ T, A ⊆ T → clusters (lab T) = Q.parts := by
    intro T hT
    refine clusters_labels Q (fun j => ?_) fun j hj j' hj' => ?_
    · by_cases hj : j ∈ A
      · simp [lab, hj, hT hj]
      · simp [lab, hj]
    · simp only [lab, hj, hj', if_true, hT hj, hT hj', Option.some.injEq]
      rw [← e.injective.eq_iff, Fin.ext_iff]; omega
  have key : ∀ (is : List ι) (T : Finset ι), (∀ i ∈ is, i ∈ A) → (∀ i ∈ A, i ∈ T ∨ i ∈ is) →
      0 < sweepMean W is (fun C => if C = Q.parts then 1 else 0) (clusters (lab T)) := by
    intro is
    induction is with
    | nil =>
      intro T _ h
      rw [sweepMean, hlabQ T fun i hi => (h i hi).resolve_right (by simp), if_pos rfl]
      exact one_pos
    | cons i is ih =>
      intro T h1 h2
      rw [sweepMean, ← clusters_unassign]
      set a := Inference.assign (lab T) i none with ha
      have hai : a i = none := by simp [ha, Inference.assign]
      have hiA := h1 i (by simp)
      let g := 2 * (e (Q.part i)).1
      have hstep : Inference.assign a i (some g) = lab (insert i T) := by
        funext j
        by_cases hj : j = i
        · subst hj; simp [Inference.assign, lab, hiA, g]
        · simp [Inference.assign, ha, lab, hj]
      have hput := clusters_assign hai g
      rw [hstep] at hput
      have hb : (univ.filter fun j => a j = some g) ∈ insert ∅ (clusters a) := by
        by_cases h0 : (univ.filter fun j => a j = some g) = ∅
        · rw [h0]; exact mem_insert_self _ _
        · obtain ⟨j, hj⟩ := nonempty_iff_ne_empty.mpr h0
          exact mem_insert_of_mem (mem_clusters.mpr ⟨g, j, by simpa using hj, rfl⟩)
      have hrec := ih (insert i T) (fun j hj => h1 j (List.mem_cons_of_mem _ hj)) (by
        intro j hj
        rcases h2 j hj with h | h
        · exact .inl (mem_insert_of_mem h)
        · rcases List.mem_cons.mp h with rfl | h
          · exact .inl (mem_insert_self _ _)
          · exact .inr h)
      unfold putMean
      refine sum_pos' (fun b _ => mul_nonneg (div_nonneg (hW _).le (putTotal_pos hW _ _).le)
        (sweepMean_nonneg hW is (fun C => by split_ifs <;> norm_num) _)) ⟨_, hb, ?_⟩
      rw [← hput]
      exact mul_pos (div_pos (hW _) (putTotal_pos hW _ _)) hrec
  have := key items ∅ hit fun i hi => .inr (hall i hi)
  rwa [hlabP] at this

/-- Passes over all items converge to the weights. -/
theorem passMean_converges {W : Finset (Finset ι) → ℝ} (hW : ∀ C, 0 < W C) {A : Finset ι}
    (items : List ι) (hit : ∀ i ∈ items, i ∈ A) (hall : ∀ i ∈ A, i ∈ items) :
    ∃ ε : ℝ, 0 < ε ∧ ε ≤ 1 ∧ ∀ (n : Nat) (P Q : Finpartition A),
      |passMean W items n (fun C => if C = Q.parts then 1 else 0) P.parts -
        W Q.parts / ∑ Q' : Finpartition A, W Q'.parts| ≤ (1 - ε) ^ n := by
  let ind : Finpartition A → Finset (Finset ι) → ℝ := fun Q C => if C = Q.parts then 1 else 0
  let K : Finpartition A → Finpartition A → ℝ := fun P Q => sweepMean W items (ind Q) P.parts
  have hpart : ∀ P Q : Finpartition A, P.parts = Q.parts ↔ P = Q :=
    fun P Q => ⟨fun h => Finpartition.ext h, fun h => by rw [h]⟩
  obtain ⟨x, _, hx⟩ := exists_min_image (univ : Finset (Finpartition A × Finpartition A))
    (fun x => K x.1 x.2) ⟨(⊥, ⊥), mem_univ _⟩
  have hZ : 0 < ∑ Q : Finpartition A, W Q.parts :=
    sum_pos (fun _ _ => hW _) ⟨⊥, mem_univ _⟩
  have hexpand : ∀ (κ : Finset (Finset ι) → ℝ) (P : Finpartition A),
      sweepMean W items κ P.parts = ∑ Q, K P Q * κ Q.parts := by
    intro κ P
    rw [← sweepMean_sum W items univ ind (fun Q => κ Q.parts)]
    refine sweepMean_congr W items hit (Parts.of_finpartition P) fun C' hC' => ?_
    rw [sum_eq_single hC'.toFinpartition]
    · simp [ind, parts_toFinpartition]
    · intro Q _ hQ
      have : C' ≠ Q.parts := fun h => hQ (Finpartition.ext h.symm)
      simp [ind, this]
    · simp
  have hK : ∀ P, ∑ Q, K P Q = 1 := by
    intro P
    have := hexpand (fun _ => 1) P
    rw [sweepMean_const hW] at this
    simpa using this.symm
  have hK0 : ∀ P Q, 0 < K P Q := fun P Q => sweepMean_pos hW items hit hall P Q
  have hK1 : ∀ P Q, K P Q ≤ 1 := fun P Q => by
    rw [← hK P]; exact single_le_sum (fun y _ => (hK0 P y).le) (mem_univ Q)
  refine ⟨K x.1 x.2, hK0 _ _, hK1 _ _, fun n P Q => ?_⟩
  have hst : ∀ y, ∑ P : Finpartition A, W P.parts / (∑ Q : Finpartition A, W Q.parts) * K P y =
      W y.parts / ∑ Q : Finpartition A, W Q.parts := by
    intro y
    have := sweepMean_invariant hW items hit (ind y)
    have h2 : ∑ P : Finpartition A, W P.parts * ind y P.parts = W y.parts := by
      simp [ind, hpart]
    rw [h2] at this
    rw [← this, sum_div]
    exact sum_congr rfl fun P _ => by ring
  refine doeblin (K := K) (π := fun P => W P.parts / ∑ Q : Finpartition A, W Q.parts) hK
    (by rw [← sum_div, div_self hZ.ne']) (fun P => div_nonneg (hW _).le hZ.le) hst
    (hK0 _ _).le (fun P Q => hx (P, Q) (mem_univ _))
    (fun n P => passMean W items n (ind Q) P.parts) ?_ _ ?_ ?_ n P
  · intro n P
    simp only [passMean]
    exact hexpand _ P
  · simp only [passMean, ind, hpart]
    simp
  · intro P'
    have h1 : 0 ≤ W Q.parts / ∑ Q' : Finpartition A, W Q'.parts := div_nonneg (hW _).le hZ.le
    have h2 : W Q.parts / ∑ Q' : Finpartition A, W Q'.parts ≤ 1 := by
      rw [div_le_one hZ]
      exact single_le_sum (f := fun Q : Finpartition A => W Q.parts) (fun y _ => (hW _).le)
        (mem_univ Q)
    simp only [passMean, ind]
    rw [abs_le]
    split_ifs <;> constructor <;> linarith

end reach

end Dist
