import Verif.Lemmas.LowEntropy
import Verif.Props.PitmanYor

/-! # Properties C20, C21, C23: the low-entropy clustering model -/

namespace Dist

open FloatOps FloatNotation LowEntropy

/-! ## C20 -/

/-- **C20, the part that holds.**  When the group stays nonempty and the sample after
the addition is still incomplete, the removal score evaluated after the addition is
the negated addition score, bit for bit for every float type and at every debug level.
Missing: groups that become empty, and complete samples; for both the claim is false
(`C20_singleton`, `C20_complete_sample`). -/
theorem C20_remove_is_minus_add_partial {F : Type} [FloatOps F] (lvl : Nat) (m : LowEntropy)
    (groupSize nonempty sampleSize empty : Int) (hg : 0 < groupSize) (hgm : groupSize < 2147483647)
    (he : 0 < empty) (hn : 0 ≤ sampleSize) (hk : nonempty ≤ sampleSize)
    (hs : sampleSize + 1 < m.datasetSize) :
    ∃ x : F, scoreAddValue lvl m groupSize nonempty sampleSize empty = .ok x ∧
      scoreRemoveValue lvl m (groupSize + 1) nonempty (sampleSize + 1) empty = .ok (-x) := by
  unfold scoreRemoveValue
  rw [distAssert_of (by omega), Res.ok_bind, show groupSize + 1 - 1 = groupSize by omega,
    i32_of (by unfold InInt32 int32Min int32Max; omega), Res.ok_bind]
  unfold scoreAddValue
  rw [distAssert_of (by omega), Res.ok_bind, distAssert_of he, Res.ok_bind, distAssert_of hk, Res.ok_bind,
    distAssert_of hs, Res.ok_bind, distAssert_of (by omega : nonempty ≤ sampleSize + 1), Res.ok_bind]
  have h0 : ¬ groupSize = 0 := by omega
  simp only [if_neg h0]
  split_ifs <;> exact ⟨_, rfl, rfl⟩

/-- **C20 (finding).**  On a complete sample `score_remove_value` always fails an
assertion when assertions are on: no removal from a complete dataset can be scored. -/
theorem C20_complete_sample {F : Type} [FloatOps F] (lvl : Nat) (hl : 1 ≤ lvl) (m : LowEntropy)
    (groupSize nonempty empty : Int) (hg : InInt32 (groupSize - 1)) (hd : 0 < m.datasetSize) :
    (scoreRemoveValue lvl m groupSize nonempty m.datasetSize empty : Res F) = .fail := by
  unfold scoreRemoveValue
  rw [distAssert_of hd, Res.ok_bind, i32_of hg, Res.ok_bind]
  unfold scoreAddValue
  rw [distAssert_of_not hl (by omega)]; rfl

/-- **C20 (finding).**  Opening a group as the last but one item and then removing it
again does not cancel, in exact arithmetic, for every dataset size from 2 on: the
removal is scored with a sample size that is one too high. -/
theorem C20_singleton (lvl : Nat) (m : LowEntropy) (nonempty empty : Int)
    (hd : 2 ≤ m.datasetSize) (hm : m.datasetSize ≤ 2147483647) (he : 0 < empty)
    (hk : nonempty ≤ m.datasetSize - 2) :
    ∃ a r : ℝ, scoreAddValue lvl m 0 nonempty (m.datasetSize - 2) empty = .ok (XR.fin a) ∧
      scoreRemoveValue lvl m 1 (nonempty + 1) (m.datasetSize - 1) empty = .ok (XR.fin r) ∧
      r ≠ -a := by
  refine ⟨_, Real.log empty, scoreAdd_zero lvl m nonempty (m.datasetSize - 2) empty (by omega) (by omega) he hk hm, ?_, ?_⟩
  · unfold scoreRemoveValue
    rw [distAssert_of (by omega), Res.ok_bind, i32_of (by unfold InInt32 int32Min int32Max; omega), Res.ok_bind,
      show (1 : Int) - 1 = 0 from rfl,
      scoreAdd_zero lvl m (nonempty + 1) (m.datasetSize - 1) empty (by omega) (by omega) he (by omega) hm, Res.ok_bind,
      if_neg (by omega)]
    simp
  · rw [if_pos (by omega)]
    have hpos : 0 < corr m.datasetSize ((m.datasetSize - 2 + 1 : Int) : ℝ) := by
      apply corr_pos
      · have : (1 : Int) ≤ m.datasetSize - 2 + 1 := by omega
        exact_mod_cast this
      · have : m.datasetSize - 2 + 1 < m.datasetSize := by omega
        exact_mod_cast this
    intro h
    linarith

example : (2 : Int) ≤ (⟨10⟩ : LowEntropy).datasetSize ∧ (3 : Int) ≤ (⟨10⟩ : LowEntropy).datasetSize - 2 := by decide

/-! ## C21 -/

/-- **C21, increments.**  Adding to a nonempty group of size `n` scores
`(n+1) log (n+1) - n log n`: exactly for `n ≤ 10000`, and at most `1/(2n)` too high (and
never too low) beyond. -/
theorem C21_increment (lvl : Nat) (m : LowEntropy) (n k s e : Int) (hn : 0 < n)
    (hs : s < m.datasetSize) (he : 0 < e) (hk : k ≤ s) :
    ∃ r : ℝ, scoreAddValue lvl m n k s e = .ok (XR.fin r) ∧
      (n ≤ 10000 → r = (n + 1) * Real.log (n + 1) - n * Real.log n) ∧
      (10000 < n →
        0 ≤ r - ((n + 1) * Real.log (n + 1) - n * Real.log n) ∧
        r - ((n + 1) * Real.log (n + 1) - n * Real.log n) ≤ 1 / (2 * n)) := by
  have hn' : (0 : ℝ) < n := by exact_mod_cast hn
  have h1 : (0 : ℝ) < 1 + n := by linarith
  refine ⟨_, scoreAdd_pos lvl m n k s e hn hs he hk, ?_, ?_⟩
  · intro h
    rw [if_neg (by omega), Real.log_div h1.ne' hn'.ne', add_comm (n : ℝ) 1]
    ring
  · intro h
    rw [if_pos (by omega), add_comm (n : ℝ) 1]
    have e1 : 1 + Real.log (1 + n) - ((1 + n) * Real.log (1 + n) - n * Real.log n)
        = 1 - n * Real.log (1 + 1 / n) := by
      have : (1 : ℝ) + 1 / n = (1 + n) / n := by field_simp; ring
      rw [this, Real.log_div h1.ne' hn'.ne']; ring
    rw [e1]
    have hx : (0 : ℝ) < 1 / n := by positivity
    constructor
    · have := Real.log_le_sub_one_of_pos (by linarith : (0 : ℝ) < 1 + 1 / n)
      have h2 : n * Real.log (1 + 1 / n) ≤ n * (1 / n) := by
        apply mul_le_mul_of_nonneg_left _ hn'.le; linarith
      rw [mul_one_div_cancel hn'.ne'] at h2
      linarith
    · -- log(1+x) ≥ 2x/(2+x)
      have h2 := Real.le_log_one_add_of_nonneg hx.le
      have h3 : n * (2 * (1 / n) / (1 / n + 2)) ≤ n * Real.log (1 + 1 / (n : ℝ)) :=
        mul_le_mul_of_nonneg_left h2 hn'.le
      have h4 : (n : ℝ) * (2 * (1 / n) / (1 / n + 2)) = 1 - 1 / (1 + 2 * n) := by
        field_simp; ring
      have h5 : 1 / (1 + 2 * (n : ℝ)) ≤ 1 / (2 * n) := by
        apply one_div_le_one_div_of_le <;> linarith
      linarith

/-- **C21, one group telescopes.**  Growing one group from 1 to `c ≤ 10001` members
one by one adds up to `c log c`, whatever the other arguments (within their checks). -/
theorem C21_group_telescopes (lvl : Nat) (m : LowEntropy) (c : Nat) (hc : 0 < c) (hc2 : c ≤ 10001)
    (ctx : Nat → Int × Int × Int)
    (hctx : ∀ j, (ctx j).2.1 < m.datasetSize ∧ (ctx j).1 ≤ (ctx j).2.1 ∧ 0 < (ctx j).2.2) :
    ∃ rs : List ℝ,
      ((List.range (c - 1)).mapM fun j =>
        (scoreAddValue lvl m ((j + 1 : Nat) : Int) (ctx j).1 (ctx j).2.1 (ctx j).2.2 : Res XR)) =
        .ok (rs.map XR.fin) ∧ rs.sum = c * Real.log c := by
  obtain ⟨c, rfl⟩ : ∃ c', c = c' + 1 := ⟨c - 1, by omega⟩
  simp only [Nat.add_sub_cancel]
  clear hc
  induction c with
  | zero => exact ⟨[], rfl, by simp⟩
  | succ c ih =>
    obtain ⟨rs, h1, h2⟩ := ih (by omega)
    obtain ⟨h3, h4, h5⟩ := hctx c
    obtain ⟨r, h6, h7, -⟩ := C21_increment lvl m ((c + 1 : Nat) : Int) (ctx c).1 (ctx c).2.1 (ctx c).2.2
      (by omega) h3 h5 h4
    refine ⟨rs ++ [r], ?_, ?_⟩
    · rw [List.range_succ, List.mapM_append, h1, Res.ok_bind]
      simp only [List.mapM_cons, List.mapM_nil, h6, Res.ok_bind, Res.pure_eq, List.map_append, List.map_cons,
        List.map_nil]
    · have := h7 (by omega)
      rw [List.sum_append, h2]
      simp only [List.sum_cons, List.sum_nil, this]
      push_cast
      ring

/-- **C21, complete dataset.**  On counts that add up to the dataset size,
`score_counts` is `Σ c log c` minus the log partition function. -/
theorem C21_score_counts_complete (lvl : Nat) (counts : List Nat) (hs : counts.sum ≤ 2147483647)
    (z : ℝ) (hz : logPartition counts.sum = .ok (XR.fin z)) :
    LowEntropy.scoreCounts lvl ⟨counts.sum⟩ (counts.map Int.ofNat) =
      .ok (XR.fin ((counts.map fun c : Nat => (c : ℝ) * Real.log c).sum - z)) := by
  unfold LowEntropy.scoreCounts
  have h := countsLoop_eq counts 0 0 (by omega)
  rw [Nat.zero_add, zero_add] at h
  rw [show (ofInt 0 : XR) = .fin 0 by simp, show (0 : Int) = ((0 : Nat) : Int) from rfl, h]
  simp only [Res.ok_bind]
  rw [distAssert0_of (by simp), Res.ok_bind, if_neg (by simp), Res.ok_bind, hz, Res.ok_bind, XR.fin_sub]
  rfl

/-- The hypothesis of the previous theorem is met at every size: the log partition
function is defined. -/
theorem C21_partition_defined (n : Nat) : ∃ z : ℝ, logPartition (n : Int) = .ok (XR.fin z) := by
  unfold logPartition
  split_ifs with h h0
  · omega
  · have hl : n < partitionTable.length := by show n < 48; omega
    rw [Int.toNat_natCast, getAt_of hl, Res.ok_bind]
    exact ⟨_, rfl⟩
  · have hn : (0 : ℝ) < n := by exact_mod_cast (by omega : 0 < n)
    simp only [XR.ofInt_eq, Int.cast_natCast, XR.lit_eq]
    rw [XR.log_fin hn, XR.pow_fin hn, XR.fin_mul, XR.fin_mul, XR.fin_add, XR.fin_mul]
    exact ⟨_, rfl⟩

/-- The increments over a seating order add up to `Σ c log c` over the groups. -/
theorem sum_increments (a : List Nat) :
    ∑ j ∈ Finset.range a.length, ((((a.take j).count (a.getD j 0) : ℕ) + 1 : ℝ) *
        Real.log (((a.take j).count (a.getD j 0) : ℕ) + 1) -
      ((a.take j).count (a.getD j 0) : ℕ) * Real.log ((a.take j).count (a.getD j 0) : ℕ)) =
    ∑ g ∈ a.toFinset, (a.count g : ℝ) * Real.log (a.count g) := by
  induction a using List.reverseRecOn with
  | nil => simp
  | append_singleton a x ih =>
    rw [List.length_append, List.length_singleton, Finset.sum_range_succ]
    have e : ∀ j ∈ Finset.range a.length,
        ((((a ++ [x]).take j).count ((a ++ [x]).getD j 0) : ℕ) + 1 : ℝ) *
          Real.log ((((a ++ [x]).take j).count ((a ++ [x]).getD j 0) : ℕ) + 1) -
        (((a ++ [x]).take j).count ((a ++ [x]).getD j 0) : ℕ) *
          Real.log (((a ++ [x]).take j).count ((a ++ [x]).getD j 0) : ℕ) =
        (((a.take j).count (a.getD j 0) : ℕ) + 1 : ℝ) *
          Real.log (((a.take j).count (a.getD j 0) : ℕ) + 1) -
        ((a.take j).count (a.getD j 0) : ℕ) * Real.log ((a.take j).count (a.getD j 0) : ℕ) := by
      intro j hj
      rw [Finset.mem_range] at hj
      rw [List.take_append_of_le_length hj.le]
      simp [List.getD_eq_getElem?_getD, List.getElem?_append_left hj]
    rw [Finset.sum_congr rfl e, ih]
    have ex : (a ++ [x]).getD a.length 0 = x := by
      simp [List.getD_eq_getElem?_getD]
    rw [ex, List.take_left' rfl]
    have hfin : (a ++ [x]).toFinset = insert x a.toFinset := by
      ext y; simp [or_comm]
    have hcnt : ∀ g, g ≠ x → (a ++ [x]).count g = a.count g := by
      intro g hg; rw [List.count_append]; simp [List.count_singleton, Ne.symm hg]
    have hx : (a ++ [x]).count x = a.count x + 1 := by rw [List.count_append]; simp
    rw [hfin, ← Finset.add_sum_erase _ _ (Finset.mem_insert_self x _), hx,
      Finset.erase_insert_eq_erase]
    have h2 : ∑ g ∈ a.toFinset.erase x, ((a ++ [x]).count g : ℝ) * Real.log ((a ++ [x]).count g) =
        ∑ g ∈ a.toFinset.erase x, (a.count g : ℝ) * Real.log (a.count g) :=
      Finset.sum_congr rfl fun g hg => by rw [hcnt g (Finset.ne_of_mem_erase hg)]
    rw [h2]
    by_cases hm : x ∈ a.toFinset
    · rw [← Finset.add_sum_erase _ _ hm]
      push_cast
      ring
    · rw [Finset.erase_eq_of_notMem hm]
      have : a.count x = 0 := by
        rw [List.count_eq_zero]; simpa using hm
      rw [this]
      simp

/-- **C21, a whole seating order.**  Seat the points of a complete dataset one after another, `a`
listing their groups.  The sum of the addition scores is `score_counts` of the final sizes plus the
log partition function and the ad hoc bonuses for opening a group (nothing is added for the last
point); groups of more than 10000 points add at most `1/(2n)` per further point. -/
theorem C21_seating (lvl : Nat) (a : List Nat) (ha : a.length ≤ 2147483647) (ids : List Nat)
    (hid : ids.Nodup) (hids : ∀ g ∈ a, g ∈ ids) (k : Nat → Int) (hk : ∀ j, k j ≤ j) :
    ∃ (z t : ℝ) (r : Nat → ℝ), logPartition a.length = .ok (XR.fin z) ∧
      LowEntropy.scoreCounts lvl ⟨a.length⟩ (ids.map fun g => (a.count g : Int)) = .ok (XR.fin t) ∧
      (∀ j < a.length, scoreAddValue lvl ⟨a.length⟩ ((a.take j).count (a.getD j 0)) (k j) j 1 =
        .ok (XR.fin (r j))) ∧
      let opening := (Finset.range a.length).filter fun j => (a.take j).count (a.getD j 0) = 0
      let large := (Finset.range a.length).filter fun j => 10000 < (a.take j).count (a.getD j 0)
      let N : ℝ := a.length
      let excess := ∑ j ∈ Finset.range a.length, r j - (t + z) - ∑ j ∈ opening,
        if j + 1 < a.length then Real.log (N / (j + 1)) * (45 / 100 - 1 / 10 / (j + 1) - 1 / 10 / N)
        else 0
      0 ≤ excess ∧ excess ≤ ∑ j ∈ large, 1 / (2 * ((a.take j).count (a.getD j 0) : ℝ)) := by
  obtain ⟨z, hz⟩ := C21_partition_defined a.length
  have hsum : (ids.map fun g => a.count g).sum = a.length := by
    have h1 : (ids.map fun g => a.count g).sum = ∑ g ∈ ids.toFinset, a.count g :=
      (List.sum_toFinset (fun g => a.count g) hid).symm
    rw [h1, ← Multiset.coe_card a, ← Multiset.sum_count_eq_card (s := ids.toFinset)
      (m := (a : Multiset Nat)) (by simpa using hids)]
    simp
  have ht := C21_score_counts_complete lvl (ids.map fun g => a.count g) (by omega) z
    (by rw [hsum]; exact hz)
  rw [hsum, List.map_map, List.map_map] at ht
  have hr : ∀ j, ∃ r : ℝ, j < a.length →
      scoreAddValue lvl ⟨a.length⟩ ((a.take j).count (a.getD j 0)) (k j) j 1 = .ok (XR.fin r) ∧
      0 ≤ r - ((((a.take j).count (a.getD j 0) : ℕ) + 1 : ℝ) *
        Real.log (((a.take j).count (a.getD j 0) : ℕ) + 1) -
        ((a.take j).count (a.getD j 0) : ℕ) * Real.log ((a.take j).count (a.getD j 0) : ℕ)) -
        (if (a.take j).count (a.getD j 0) = 0 then if j + 1 < a.length then
          Real.log ((a.length : ℝ) / (j + 1)) * (45 / 100 - 1 / 10 / (j + 1) - 1 / 10 / (a.length : ℝ))
          else 0 else 0) ∧
      r - ((((a.take j).count (a.getD j 0) : ℕ) + 1 : ℝ) *
        Real.log (((a.take j).count (a.getD j 0) : ℕ) + 1) -
        ((a.take j).count (a.getD j 0) : ℕ) * Real.log ((a.take j).count (a.getD j 0) : ℕ)) -
        (if (a.take j).count (a.getD j 0) = 0 then if j + 1 < a.length then
          Real.log ((a.length : ℝ) / (j + 1)) * (45 / 100 - 1 / 10 / (j + 1) - 1 / 10 / (a.length : ℝ))
          else 0 else 0) ≤
        if 10000 < (a.take j).count (a.getD j 0) then
          1 / (2 * ((a.take j).count (a.getD j 0) : ℝ)) else 0 := by
    intro j
    by_cases hj : j < a.length
    swap
    · exact ⟨0, fun h => absurd h hj⟩
    generalize (a.take j).count (a.getD j 0) = n
    rcases Nat.eq_zero_or_pos n with rfl | hn
    · refine ⟨_, fun _ => ⟨scoreAdd_zero lvl ⟨a.length⟩ (k j) j 1 (by omega) (by simpa using hj)
        (by omega) (hk j) (by simpa using ha), ?_, ?_⟩⟩
      · simp only [corr, Int.cast_one, Real.log_one, Nat.cast_zero]
        push_cast
        have e : ((j : Int) + 1 < a.length) ↔ j + 1 < a.length := by omega
        simp [e]
      · simp only [corr, Int.cast_one, Real.log_one, Nat.cast_zero]
        push_cast
        have e : ((j : Int) + 1 < a.length) ↔ j + 1 < a.length := by omega
        simp [e]
    · obtain ⟨r, h1, h2, h3⟩ := C21_increment lvl ⟨a.length⟩ n (k j) j 1 (by exact_mod_cast hn)
        (by simpa using hj) (by omega) (hk j)
      refine ⟨r, fun _ => ⟨h1, ?_⟩⟩
      rw [if_neg (by omega : ¬ n = 0), sub_zero]
      push_cast at h2 h3
      by_cases hl : 10000 < n
      · rw [if_pos hl]
        exact h3 (by exact_mod_cast hl)
      · rw [if_neg hl, h2 (by exact_mod_cast (not_lt.1 hl))]
        simp
  choose r hr using hr
  refine ⟨z, _, r, hz, ht, fun j hj => (hr j hj).1, ?_⟩
  have hsc : (ids.map ((fun c : Nat => (c : ℝ) * Real.log c) ∘ fun g => a.count g)).sum =
      ∑ g ∈ a.toFinset, (a.count g : ℝ) * Real.log (a.count g) := by
    rw [← List.sum_toFinset _ hid]
    symm
    refine Finset.sum_subset (fun g hg => by simpa using hids g (by simpa using hg)) fun g _ hg => ?_
    have : a.count g = 0 := by
      rw [List.count_eq_zero]; simpa using hg
    simp [this]
  intro opening large N excess
  have hex : excess = ∑ j ∈ Finset.range a.length, (r j -
      ((((a.take j).count (a.getD j 0) : ℕ) + 1 : ℝ) *
        Real.log (((a.take j).count (a.getD j 0) : ℕ) + 1) -
        ((a.take j).count (a.getD j 0) : ℕ) * Real.log ((a.take j).count (a.getD j 0) : ℕ)) -
        (if (a.take j).count (a.getD j 0) = 0 then if j + 1 < a.length then
          Real.log ((a.length : ℝ) / (j + 1)) * (45 / 100 - 1 / 10 / (j + 1) - 1 / 10 / (a.length : ℝ))
          else 0 else 0)) := by
    rw [Finset.sum_sub_distrib, Finset.sum_sub_distrib, sum_increments, ← hsc, ← Finset.sum_filter]
    show _ - (_ - z + z) - _ = _
    rw [sub_add_cancel]
  rw [hex]
  refine ⟨Finset.sum_nonneg fun j hj => (hr j (Finset.mem_range.1 hj)).2.1, ?_⟩
  rw [Finset.sum_filter]
  exact Finset.sum_le_sum fun j hj => (hr j (Finset.mem_range.1 hj)).2.2

/-- Five points in two groups: the points seated second, fourth and fifth find their group
nonempty. -/
example : ∀ j < [7, 7, 3, 7, 3].length, ([7, 7, 3, 7, 3].take j).count ([7, 7, 3, 7, 3].getD j 0) =
    [0, 1, 0, 2, 1].getD j 0 := by decide

/-! ## C23 -/

/-- **C23, Pitman-Yor.**  `score_data` of a Pitman-Yor mixture does not depend on the
empty groups, bit for bit. -/
theorem C23_pitman_yor {F : Type} [FloatOps F] (m : PitmanYor F) (c1 c2 : List Nat)
    (h : c1.filter (fun c => c ≠ 0) = c2.filter (fun c => c ≠ 0)) :
    m.scoreCounts c1 = m.scoreCounts c2 := by
  rw [C15_empty_groups m c1, C15_empty_groups m c2, h]

theorem sum_append_zeros (counts : List Nat) (k : Nat) :
    (counts ++ List.replicate k 0).sum = counts.sum := by simp

/-- **C23, low entropy, complete samples.**  On a complete sample empty groups do not
matter. -/
theorem C23_low_entropy_complete_partial (lvl : Nat) (counts : List Nat)
    (hs : counts.sum ≤ 2147483647) (k : Nat) :
    (LowEntropy.scoreCounts lvl ⟨counts.sum⟩ ((counts ++ List.replicate k 0).map Int.ofNat) : Res XR) =
      LowEntropy.scoreCounts lvl ⟨counts.sum⟩ (counts.map Int.ofNat) := by
  obtain ⟨z, hz⟩ := C21_partition_defined counts.sum
  have hsum := sum_append_zeros counts k
  have h := C21_score_counts_complete lvl (counts ++ List.replicate k 0) (by rw [hsum]; exact hs) z
    (by rw [hsum]; exact hz)
  rw [hsum] at h
  rw [h, C21_score_counts_complete lvl counts hs z hz]
  simp

theorem scoreCounts_incomplete (lvl : Nat) (N : Int) (counts : List Nat)
    (hc : counts ≠ []) (h0 : 1 < counts.sum) (hN : (counts.sum : Int) < N) (hN2 : N ≤ 2147483647)
    (z : ℝ) (hz : logPartition counts.sum = .ok (XR.fin z)) :
    ∃ e : ℝ, (∀ k, LowEntropy.scoreCounts lvl ⟨N⟩ ((counts ++ List.replicate k 0).map Int.ofNat) =
      .ok (XR.fin (e + (corr N counts.sum) * ((counts.length + k : Nat) - 1 : ℝ)))) := by
  have hn0 : (0 : ℝ) < Real.log counts.sum := Real.log_pos (by exact_mod_cast h0)
  have hNpos : (0 : ℝ) < Real.log N := Real.log_pos (by
    have : (1 : Int) < N := by omega
    exact_mod_cast this)
  obtain ⟨dp, hdp⟩ : ∃ dp : ℝ, dataprobCorrection ⟨N⟩ (counts.sum : Int) = XR.fin dp := by
    unfold dataprobCorrection
    have a1 : (0 : ℝ) < (counts.sum : ℕ) := by exact_mod_cast (by omega : 0 < counts.sum)
    have a2 : (0 : ℝ) < (N : ℝ) := by
      have : (0 : Int) < N := by omega
      exact_mod_cast this
    simp only [XR.ofInt_eq, Int.cast_natCast, XR.lit_eq]
    rw [XR.log_fin a1, XR.log_fin a2]
    simp only [XR.fin_mul, XR.fin_sub, XR.fin_add]
    rw [XR.pow_fin (by linarith), XR.fin_mul]
    exact ⟨_, rfl⟩
  refine ⟨(counts.map fun c : Nat => (c : ℝ) * Real.log c).sum + dp - z, fun k => ?_⟩
  unfold LowEntropy.scoreCounts
  have hsum := sum_append_zeros counts k
  have h := countsLoop_eq (counts ++ List.replicate k 0) 0 0 (by rw [hsum]; omega)
  rw [Nat.zero_add, zero_add, hsum] at h
  rw [show (ofInt 0 : XR) = .fin 0 by simp, show (0 : Int) = ((0 : Nat) : Int) from rfl, h]
  simp only [Res.ok_bind]
  have hpp := postpred_eq lvl ⟨N⟩ (counts.sum : Int) (by omega) hN
  rw [distAssert0_of (by omega), Res.ok_bind, if_pos (by show (counts.sum : Int) ≠ N; omega), hpp, Res.ok_bind, hdp]
  have hne : ((counts ++ List.replicate k 0).map Int.ofNat).isEmpty = false := by
    simp [hc]
  simp only [hne, Res.ok_bind, Res.pure_eq, hz, XR.ofInt_eq, XR.fin_mul, XR.fin_add, XR.fin_sub]
  congr 2
  have e1 : ((if false = true then (18446744073709551615 : Int)
      else (((counts ++ List.replicate k 0).map Int.ofNat).length : Int) - 1 : Int) : ℝ) =
      (counts.length + k : ℝ) - 1 := by simp
  have e2 : ((counts ++ List.replicate k 0).map fun c : Nat => (c : ℝ) * Real.log c).sum =
      (counts.map fun c : Nat => (c : ℝ) * Real.log c).sum := by simp
  have e3 : (((counts.sum : Nat) : Int) : ℝ) = ((counts.sum : Nat) : ℝ) := Int.cast_natCast _
  rw [e1, e2, e3]
  generalize corr N ((counts.sum : Nat) : ℝ) = C
  push_cast
  ring

/-- **C23 (finding).**  On every incomplete sample of at least two items the
low-entropy `score_data` strictly increases with every empty group the mixture keeps. -/
theorem C23_low_entropy_depends_on_empty_groups (lvl : Nat) (N : Int) (counts : List Nat)
    (h0 : 1 < counts.sum) (hN : (counts.sum : Int) < N) (hN2 : N ≤ 2147483647) (k : Nat) :
    ∃ a b : ℝ,
      LowEntropy.scoreCounts lvl ⟨N⟩ (counts.map Int.ofNat) = .ok (XR.fin a) ∧
      LowEntropy.scoreCounts lvl ⟨N⟩ ((counts ++ List.replicate (k + 1) 0).map Int.ofNat) = .ok (XR.fin b) ∧
      a < b := by
  have hc : counts ≠ [] := by rintro rfl; simp at h0
  obtain ⟨z, hz⟩ := C21_partition_defined counts.sum
  obtain ⟨e, he⟩ := scoreCounts_incomplete lvl N counts hc h0 hN hN2 z hz
  have h1 := he 0
  rw [List.replicate_zero, List.append_nil] at h1
  refine ⟨_, _, h1, he (k + 1), ?_⟩
  have hp : 0 < corr N counts.sum := by
    apply corr_pos
    · exact_mod_cast h0.le
    · have : (((counts.sum : Nat) : Int) : ℝ) < N := Int.cast_lt.mpr hN
      rwa [Int.cast_natCast] at this
  generalize corr N ((counts.sum : Nat) : ℝ) = C at *
  push_cast
  have hk : (0 : ℝ) ≤ k := Nat.cast_nonneg k
  nlinarith

example : 1 < ([2, 1] : List Nat).sum ∧ (([2, 1] : List Nat).sum : Int) < 10 := by decide

end Dist
