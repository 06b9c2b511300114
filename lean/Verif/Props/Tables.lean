import Verif.Lemmas.LogBound
import Verif.Model.Special
import Verif.Props.LowEntropy

/-!
# C24: the low-entropy partition function; accuracy of the tables of logarithms
-/

namespace Dist

open FloatOps FloatNotation LowEntropy

/-- The whole table, checked against the recurrence for the partition sum. -/
theorem partitionTable_checked :
    ((partitionTable.reverse).zip (partList (fun k => k ^ k) 47)).all
      (fun p => logCheck (1 / (2 * 10 ^ 8)) p.2 ((p.1 : ℚ) / 10 ^ 8)) = true := by
  decide +kernel

theorem partitionTable_entry (n : Nat) (hn : n < partitionTable.length) :
    |Real.log (partRec (fun k => k ^ k) n) - (partitionTable[n] : ℝ) / 10 ^ 8| ≤
      1 / (2 * 10 ^ 8) := by
  have hlen : partitionTable.length = 48 := rfl
  have h := partitionTable_checked
  rw [List.all_eq_true] at h
  have hmem : (partitionTable[n], partRec (fun k => k ^ k) n) ∈
      (partitionTable.reverse).zip (partList (fun k => k ^ k) 47) := by
    rw [partList_eq, List.mem_iff_getElem]
    refine ⟨47 - n, by simp [hlen]; omega, ?_⟩
    rw [List.getElem_zip]
    congr 1
    · rw [List.getElem_reverse]
      congr 1
      omega
    · simp only [List.getElem_map, List.getElem_reverse, List.getElem_range, List.length_range]
      congr 1
      omega
  have := logCheck_sound (h _ hmem)
  push_cast at this
  exact this

/-- **C24.** For every sample size the table covers, the log partition function is, to within
half a unit of the table's eighth decimal, the logarithm of the sum over all partitions of
that many items of the product of block size to the power block size. -/
theorem C24_table (n : Nat) (hn : n < 48) :
    ∃ v : ℝ, logPartition (n : Int) = .ok (XR.fin v) ∧
      |v - Real.log (∑ P : Finpartition (Finset.univ : Finset (Fin n)),
        ∏ b ∈ P.parts, (b.card : ℝ) ^ b.card)| ≤ 1 / (2 * 10 ^ 8) := by
  have hl : n < partitionTable.length := hn
  refine ⟨(partitionTable[n] : ℝ) / 10 ^ 8, ?_, ?_⟩
  · unfold logPartition
    rw [if_pos (by omega), if_neg (by omega), Int.toNat_natCast, getAt_of hl, Res.ok_bind]
    simp only [XR.lit_eq]
    norm_num
  · have h := partitionTable_entry n hl
    have hz : (∑ P : Finpartition (Finset.univ : Finset (Fin n)),
        ∏ b ∈ P.parts, (b.card : ℝ) ^ b.card) = (partRec (fun k => k ^ k) n : ℝ) := by
      rw [← partSum_eq (fun k => k ^ k) n (Finset.univ : Finset (Fin n)) (by simp), partSum]
      push_cast
      rfl
    rw [hz, abs_sub_comm]
    exact h

/-- Three items have five partitions, with weights 27, 4, 4, 4, 1. -/
example : (∑ P : Finpartition (Finset.univ : Finset (Fin 3)),
    ∏ b ∈ P.parts, b.card ^ b.card) = 40 ∧ (3 : Nat) < 48 := by
  refine ⟨?_, by norm_num⟩
  have := partSum_eq (fun k => k ^ k) 3 (Finset.univ : Finset (Fin 3)) (by simp)
  unfold partSum at this
  rw [this]
  decide +kernel

/-- **C24, normalisation.** On complete samples of up to 47 items the exponentials of
`score_counts`, summed over all partitions, make 1 to within `10^-8`; the score of a partition
does not depend on the order in which its block sizes are listed. -/
theorem C24_normalised (lvl n : Nat) (hn : n < 48) :
    ∃ score : Finpartition (Finset.univ : Finset (Fin n)) → ℝ,
      (∀ (P : Finpartition (Finset.univ : Finset (Fin n))) (blocks : List (Finset (Fin n))),
        blocks.Perm P.parts.toList →
        LowEntropy.scoreCounts lvl ⟨n⟩ (blocks.map fun b => (b.card : Int)) =
          .ok (XR.fin (score P))) ∧
      |∑ P, Real.exp (score P) - 1| ≤ 1 / 10 ^ 8 := by
  obtain ⟨v, hv, he⟩ := C24_table n hn
  set Z : ℝ := ∑ P : Finpartition (Finset.univ : Finset (Fin n)),
        ∏ b ∈ P.parts, (b.card : ℝ) ^ b.card with hZ
  have hcard : ∀ (P : Finpartition (Finset.univ : Finset (Fin n))), ∀ b ∈ P.parts,
      (0 : ℝ) < b.card := by
    intro P b hb
    have : b.Nonempty := P.nonempty_of_mem_parts hb
    exact_mod_cast Finset.card_pos.mpr this
  have hpos : ∀ P : Finpartition (Finset.univ : Finset (Fin n)),
      0 < ∏ b ∈ P.parts, (b.card : ℝ) ^ b.card := by
    intro P
    exact Finset.prod_pos fun b hb => pow_pos (hcard P b hb) _
  have hZpos : 0 < Z := by
    refine Finset.sum_pos (fun P _ => hpos P) ?_
    exact ⟨⊤, Finset.mem_univ _⟩
  refine ⟨fun P => ∑ b ∈ P.parts, (b.card : ℝ) * Real.log b.card - v, ?_, ?_⟩
  · intro P blocks hperm
    have hsum : (blocks.map fun b => b.card).sum = n := by
      rw [(hperm.map _).sum_eq]
      have := P.sum_card_parts
      simpa using this
    have h := C21_score_counts_complete lvl (blocks.map fun b => b.card) (by omega) v
      (by rw [hsum]; exact hv)
    rw [hsum, List.map_map, List.map_map] at h
    have e1 : (Int.ofNat ∘ fun b : Finset (Fin n) => b.card) = fun b => (b.card : Int) := rfl
    rw [e1] at h
    rw [h]
    congr 3
    rw [(hperm.map _).sum_eq]
    simp only [Function.comp_def]
    exact Finset.sum_map_toList P.parts (fun b => (b.card : ℝ) * Real.log b.card)
  · have h1 : ∀ P : Finpartition (Finset.univ : Finset (Fin n)),
        Real.exp (∑ b ∈ P.parts, (b.card : ℝ) * Real.log b.card - v) =
        (∏ b ∈ P.parts, (b.card : ℝ) ^ b.card) * Real.exp (-v) := by
      intro P
      rw [sub_eq_add_neg, Real.exp_add, Real.exp_sum]
      congr 1
      refine Finset.prod_congr rfl ?_
      intro b hb
      rw [mul_comm, ← Real.rpow_def_of_pos (hcard P b hb), Real.rpow_natCast]
    simp only [h1]
    rw [← Finset.sum_mul, ← hZ]
    have h2 : Z * Real.exp (-v) = Real.exp (Real.log Z - v) := by
      rw [Real.exp_sub, Real.exp_log hZpos, Real.exp_neg, div_eq_mul_inv]
    rw [h2]
    set t := Real.log Z - v with ht
    have ht' : |t| ≤ 1 / (2 * 10 ^ 8) := by rw [ht, abs_sub_comm]; exact he
    have h3 := Real.abs_exp_sub_one_le (x := t) (ht'.trans (by norm_num))
    refine h3.trans ?_
    calc 2 * |t| ≤ 2 * (1 / (2 * 10 ^ 8)) := by linarith
      _ = 1 / 10 ^ 8 := by norm_num

/-! ## The table of log factorials -/

theorem logFactorialTable_checked :
    ((List.range 64).all fun n => match Special.logFactorialTable[n]? with
      | some t => decide (t.2 < 0) &&
          logCheck (1 / 10 ^ 13) n.factorial ((t.1 : ℚ) / 10 ^ (-t.2).toNat)
      | none => false) = true := by
  decide +kernel

/-- **C51, accuracy.** Below 64 `fast_log_factorial(n)` returns the logarithm of `n!` to within
`10^-13`, before it is rounded to a float. -/
theorem C51_log_factorial_accuracy (toF : BitVec 32 → XR) (lgammaf : XR → XR) (n : Nat)
    (hn : n < 64) : ∃ v : ℝ, Special.fastLogFactorial toF lgammaf n = .ok (XR.fin v) ∧
      |v - Real.log n.factorial| ≤ 1 / 10 ^ 13 := by
  have h := logFactorialTable_checked
  rw [List.all_eq_true] at h
  have h := h n (List.mem_range.mpr hn)
  have hl : n < Special.logFactorialTable.length := by
    rw [show Special.logFactorialTable.length = 64 from rfl]; exact hn
  rw [List.getElem?_eq_getElem hl] at h
  simp only [Bool.and_eq_true, decide_eq_true_eq] at h
  obtain ⟨h1, h2⟩ := h
  refine ⟨(Special.logFactorialTable[n].1 : ℝ) / 10 ^ (-Special.logFactorialTable[n].2).toNat,
    ?_, ?_⟩
  · unfold Special.fastLogFactorial
    rw [if_pos hn, getAt_of hl, Res.ok_bind, Special.decimal, if_neg (by omega), XR.lit_eq]
    push_cast
    rfl
  · have := logCheck_sound h2
    push_cast at this
    rw [abs_sub_comm]
    exact this

/-- The value for 10! is within the bound of log 3628800. -/
example : (10 : Nat) < 64 ∧ Nat.factorial 10 = 3628800 := by decide

end Dist
