import Verif.Props.Derivation

/-!
# C86: normalisation of the low-entropy scores of incomplete samples
-/

namespace Dist

open Finset Derivation Spec LowEntropy FloatOps

theorem dataprob_eq (n N : ℕ) (hn : 0 < n) (hN : n < N) :
    ∃ dp : ℝ, LowEntropy.dataprobCorrection ⟨(N : Int)⟩ (n : Int) = XR.fin dp ∧
      approximateDataprobCorrection n N = .ok dp := by
  have a1 : (0 : ℝ) < n := by exact_mod_cast hn
  have a1' : (1 : ℝ) ≤ n := by exact_mod_cast hn
  have a2 : (n : ℝ) < N := by exact_mod_cast hN
  have hn0 : 0 ≤ Real.log n := Real.log_nonneg a1'
  have hNpos : (0 : ℝ) < Real.log N := Real.log_pos (by linarith)
  refine ⟨61 / 1000 * Real.log n * (Real.log n - Real.log N) * (Real.log n + Real.log N) ^ (75 / 100 : ℝ), ?_, ?_⟩
  · unfold LowEntropy.dataprobCorrection
    simp only [XR.ofInt_eq, Int.cast_natCast, XR.lit_eq]
    rw [XR.log_fin a1, XR.log_fin (by linarith)]
    simp only [XR.fin_mul, XR.fin_sub, XR.fin_add]
    rw [XR.pow_fin (by linarith), XR.fin_mul]
    norm_num
  · unfold approximateDataprobCorrection mathLog
    rw [if_pos hn, Res.ok_bind, if_pos (by omega), Res.ok_bind, Res.pure_eq]
    norm_num

theorem scoreCounts_incomplete' (lvl N : ℕ) (counts : List ℕ) (h0 : 0 < counts.sum) (hN : counts.sum < N)
    (hN2 : N ≤ 2147483647) (z dp : ℝ) (hz : logPartition counts.sum = .ok (XR.fin z))
    (hdp : LowEntropy.dataprobCorrection ⟨(N : Int)⟩ (counts.sum : Int) = XR.fin dp) :
    LowEntropy.scoreCounts lvl ⟨N⟩ (counts.map Int.ofNat) =
      .ok (XR.fin ((counts.map fun c : ℕ => (c : ℝ) * Real.log c).sum +
        corr N counts.sum * ((counts.length : ℝ) - 1) + dp - z)) := by
  have hc : counts ≠ [] := by rintro rfl; simp at h0
  unfold LowEntropy.scoreCounts
  have h := countsLoop_eq counts 0 0 (by omega)
  rw [Nat.zero_add, zero_add] at h
  rw [show (ofInt 0 : XR) = .fin 0 by simp, show (0 : Int) = ((0 : Nat) : Int) from rfl, h]
  simp only [Res.ok_bind]
  have hpp := postpred_eq lvl ⟨(N : Int)⟩ (counts.sum : Int) (by omega) (by show (counts.sum : Int) < N; omega)
  rw [distAssert0_of (by show (counts.sum : Int) ≤ N; omega), Res.ok_bind,
    if_pos (by show (counts.sum : Int) ≠ N; omega), hpp, Res.ok_bind, hdp]
  have hne : (counts.map Int.ofNat).isEmpty = false := by simp [hc]
  simp only [hne, Res.ok_bind, Res.pure_eq, hz, XR.ofInt_eq, XR.fin_mul, XR.fin_add, XR.fin_sub]
  congr 2
  have e1 : ((if false = true then (18446744073709551615 : Int)
      else ((counts.map Int.ofNat).length : Int) - 1 : Int) : ℝ) = (counts.length : ℝ) - 1 := by simp
  have e3 : (((counts.sum : Nat) : Int) : ℝ) = ((counts.sum : Nat) : ℝ) := Int.cast_natCast _
  have e4 : (((N : Nat) : Int) : ℝ) = (N : ℝ) := Int.cast_natCast _
  rw [e1, e3, e4]

theorem exp_nlogn {n : ℕ} (P : Finpartition (range n)) :
    Real.exp (∑ b ∈ P.parts, (b.card : ℝ) * Real.log b.card) = blockWeight P.parts := by
  unfold blockWeight
  rw [Real.exp_sum]
  refine Finset.prod_congr rfl fun b hb => ?_
  have : (0 : ℝ) < b.card := by exact_mod_cast Finset.card_pos.mpr (P.nonempty_of_mem_parts hb)
  rw [mul_comm, ← Real.rpow_def_of_pos this, Real.rpow_natCast]

/-- **C86, incomplete samples.** The exponentials of the library's scores of the clusterings of `n < N`
items do not make 1: the logarithm of their sum is the difference between the library's approximate
correction and the one the script calls true, to within half a unit of the table's eighth decimal. -/
theorem C86_incomplete_mass (lvl n N : ℕ) (h0 : 0 < n) (hn : n < 48) (hN : n < N) (hN2 : N ≤ 2147483647)
    (d : Dict ℕ) (h : GetCounts n d) :
    ∃ (score : Finpartition (range n) → ℝ) (approx true : ℝ),
      (∀ (P : Finpartition (range n)) (blocks : List (Finset ℕ)), blocks.Perm P.parts.toList →
        LowEntropy.scoreCounts lvl ⟨N⟩ (blocks.map fun b => (b.card : Int)) = .ok (XR.fin (score P))) ∧
      approximateDataprobCorrection n N = .ok approx ∧
      trueDataprobCorrection d n N = .ok true ∧
      |Real.log (∑ P, Real.exp (score P)) - (approx - true)| ≤ 1 / (2 * 10 ^ 8) := by
  have hc := getCounts_counts h
  obtain ⟨v, z, hv, ht, hvz⟩ := C86_table n hn d h
  have hz : z = Real.log (zz n) := by
    unfold tableEntry at ht
    rw [if_neg (by omega), getLogZ_eq hc] at ht
    exact (Res.ok.inj ht).symm
  obtain ⟨dp, hdp, hap⟩ := dataprob_eq n N h0 hN
  have hcorr : approximatePostpredCorrection n N = .ok (corr N n) := by
    unfold approximatePostpredCorrection corr
    rw [if_neg (by omega)]
    norm_num
  set f := Real.exp (corr N n) with hf
  have hf0 : 0 < f := Real.exp_pos _
  -- the sum over all clusterings
  set S := ∑ P : Finpartition (range n), blockWeight P.parts * f ^ ((P.parts.card : Int) - 1) with hS
  have hS0 : 0 < S := Finset.sum_pos (fun P _ => mul_pos (blockWeight_pos P) (zpow_pos hf0 _)) ⟨⊥, mem_univ _⟩
  have hZ : ((d.map fun p => (p.1, (p.2 : ℝ) * uu n 0 p.1)).map fun p =>
      p.2 * f ^ ((p.1.length : Int) - 1)).sum = S / zz n := by
    have h1 := hc.sum fun s => uu n 0 s * f ^ ((s.length : Int) - 1)
    rw [List.map_map]
    have h2 : (d.map ((fun p : Shape × ℝ => p.2 * f ^ ((p.1.length : Int) - 1)) ∘
        fun p => (p.1, (p.2 : ℝ) * uu n 0 p.1))) =
        d.map fun p => p.2 • (uu n 0 p.1 * f ^ ((p.1.length : Int) - 1)) := by
      refine List.map_congr_left fun p _ => ?_
      simp only [Function.comp, nsmul_eq_mul]
      ring
    rw [h2, h1, hS, sum_div]
    refine Finset.sum_congr rfl fun P _ => ?_
    have hl : (shape P.parts).length = P.parts.card := by
      have := congrArg Multiset.card (shape_coe P.parts)
      simpa using this
    rw [hl]
    unfold uu
    rw [wt_shape]
    ring
  have hzp := zz_pos n
  have htrue : trueDataprobCorrection d n N = .ok (-Real.log (S / zz n)) := by
    unfold trueDataprobCorrection adHocSizeFactor
    rw [getProbs_eq hc, Res.ok_bind, hcorr]
    simp only [Res.ok_bind, Res.pure_eq, ← hf]
    rw [hZ, if_pos (div_pos hS0 hzp)]
  refine ⟨fun P => ∑ b ∈ P.parts, (b.card : ℝ) * Real.log b.card +
    corr N n * ((P.parts.card : ℝ) - 1) + dp - v, dp, -Real.log (S / zz n), ?_, hap, htrue, ?_⟩
  · intro P blocks hperm
    have hsum : (blocks.map fun b => b.card).sum = n := by
      rw [(hperm.map _).sum_eq]
      have := P.sum_card_parts
      simpa using this
    have hlen : blocks.length = P.parts.card := by rw [hperm.length_eq]; simp
    have h := scoreCounts_incomplete' lvl N (blocks.map fun b => b.card) (by omega) (by omega) hN2 v dp
      (by rw [hsum]; exact hv) (by rw [hsum]; exact hdp)
    rw [hsum, List.map_map, List.map_map, List.length_map, hlen] at h
    have e1 : (Int.ofNat ∘ fun b : Finset ℕ => b.card) = fun b => (b.card : Int) := rfl
    rw [e1] at h
    rw [h]
    congr 3
    rw [(hperm.map _).sum_eq]
    simp only [Function.comp_def]
    rw [Finset.sum_map_toList P.parts (fun b => (b.card : ℝ) * Real.log b.card)]
  · have h1 : ∀ P : Finpartition (range n), Real.exp (∑ b ∈ P.parts, (b.card : ℝ) * Real.log b.card +
        corr N n * ((P.parts.card : ℝ) - 1) + dp - v) =
        blockWeight P.parts * f ^ ((P.parts.card : Int) - 1) * Real.exp (dp - v) := by
      intro P
      rw [show ∑ b ∈ P.parts, (b.card : ℝ) * Real.log b.card + corr N n * ((P.parts.card : ℝ) - 1) + dp - v =
        ∑ b ∈ P.parts, (b.card : ℝ) * Real.log b.card + corr N n * ((P.parts.card : ℝ) - 1) + (dp - v) by ring,
        Real.exp_add, Real.exp_add, exp_nlogn]
      congr 2
      rw [hf, ← Real.rpow_intCast, ← Real.exp_mul]
      push_cast
      rfl
    simp only [h1]
    rw [← Finset.sum_mul, ← hS, Real.log_mul hS0.ne' (Real.exp_pos _).ne', Real.log_exp,
      Real.log_div hS0.ne' hzp.ne', ← hz]
    rw [show Real.log S + (dp - v) - (dp - -(Real.log S - z)) = -(v - z) by ring, abs_neg]
    exact hvz

/-- Two of three items: the hypotheses hold. -/
example : (0 : ℕ) < 2 ∧ 2 < 48 ∧ 2 < 3 ∧ 3 ≤ 2147483647 ∧ ∃ d, GetCounts 2 d :=
  ⟨by norm_num, by norm_num, by norm_num, by norm_num, exists_getCounts 2⟩

theorem log2_checked : logCheck (1 / 10 ^ 8) 2 (69314718 / 10 ^ 8) = true := by decide +kernel

theorem log3_checked : logCheck (1 / 10 ^ 8) 3 (109861229 / 10 ^ 8) = true := by decide +kernel

/-- **C86, incomplete samples (finding).** With three items of which two are clustered, the exponentials of
the scores of the two clusterings sum to more than 1.001. -/
theorem C86_incomplete_not_normalised (lvl : ℕ) :
    ∃ together apart : ℝ,
      LowEntropy.scoreCounts lvl ⟨3⟩ [2] = .ok (XR.fin together) ∧
      LowEntropy.scoreCounts lvl ⟨3⟩ [1, 1] = .ok (XR.fin apart) ∧
      1.001 < Real.exp together + Real.exp apart := by
  obtain ⟨d, h⟩ := exists_getCounts 2
  obtain ⟨v, z, hv, ht, hvz⟩ := C86_table 2 (by norm_num) d h
  have hz : z = Real.log 5 := by
    unfold tableEntry at ht
    rw [if_neg (by omega), getLogZ_eq (getCounts_counts h)] at ht
    rw [← Res.ok.inj ht, zz_eq]
    have : partRec (fun k => k ^ k) 2 = 5 := by decide +kernel
    rw [this]
    norm_num
  obtain ⟨dp, hdp, hap⟩ := dataprob_eq 2 3 (by norm_num) (by norm_num)
  have t1 := scoreCounts_incomplete' lvl 3 [2] (by norm_num) (by norm_num) (by norm_num) v dp hv hdp
  have t2 := scoreCounts_incomplete' lvl 3 [1, 1] (by norm_num) (by norm_num) (by norm_num) v dp hv hdp
  refine ⟨_, _, t1, t2, ?_⟩
  have l2 := logCheck_sound log2_checked
  have l3 := logCheck_sound log3_checked
  push_cast at l2 l3
  have l2 := abs_le.1 l2
  have l3 := abs_le.1 l3
  have hdpv : dp = 0.061 * Real.log 2 * (Real.log 2 - Real.log 3) * (Real.log 2 + Real.log 3) ^ (0.75 : ℝ) := by
    unfold approximateDataprobCorrection mathLog at hap
    rw [if_pos (by norm_num), Res.ok_bind, if_pos (by norm_num), Res.ok_bind] at hap
    have := (Res.ok.inj hap).symm
    push_cast at this
    exact this
  set a := Real.log 2
  set b := Real.log 3
  set w := (a + b) ^ (0.75 : ℝ) with hw
  have hab : 0 < a + b := by linarith [l2.1, l3.1]
  have hw0 : 0 < w := by positivity
  have hw4 : w ^ (4 : ℕ) = (a + b) ^ (3 : ℕ) := by
    rw [hw, ← Real.rpow_natCast, ← Real.rpow_mul hab.le, ← Real.rpow_natCast]
    norm_num
  have hw1 : w ≤ 1.6 := by
    by_contra hc
    push Not at hc
    have h1 := pow_lt_pow_left₀ hc (by norm_num) (n := 4) (by norm_num)
    have h2 : (a + b) ^ 3 ≤ 1.8 ^ 3 := pow_le_pow_left₀ hab.le (by linarith [l2.2, l3.2]) 3
    rw [hw4] at h1
    norm_num at h1 h2
    linarith
  have hdp1 : -0.0275 ≤ dp := by
    have h1 : a * (b - a) ≤ 0.69315 * 0.40547 := by
      refine mul_le_mul ?_ ?_ ?_ (by norm_num) <;> linarith [l2.1, l2.2, l3.1, l3.2]
    have h2 : a * (b - a) * w ≤ 0.69315 * 0.40547 * 1.6 := mul_le_mul h1 hw1 hw0.le (by norm_num)
    rw [hdpv]
    nlinarith
  have hcorr : corr ((3 : ℕ) : ℝ) (([2] : List ℕ).sum : ℕ) = (b - a) * (11 / 30) := by
    unfold corr
    norm_num
    rw [Real.log_div (by norm_num) (by norm_num)]
  have hcorr' : corr ((3 : ℕ) : ℝ) (([1, 1] : List ℕ).sum : ℕ) = (b - a) * (11 / 30) := hcorr
  rw [hcorr, hcorr']
  have e1 : (([2] : List ℕ).map fun c : ℕ => (c : ℝ) * Real.log c).sum = Real.log 4 := by
    simp only [List.map_cons, List.map_nil, List.sum_cons, List.sum_nil, add_zero]
    rw [show (4 : ℝ) = 2 ^ 2 by norm_num, Real.log_pow]
    norm_num
  have e2 : (([1, 1] : List ℕ).map fun c : ℕ => (c : ℝ) * Real.log c).sum = 0 := by simp
  rw [e1, e2]
  norm_num
  set f := Real.exp ((b - a) * (11 / 30)) with hf
  have hf1 : 1 + (b - a) * (11 / 30) ≤ f := by
    have := Real.add_one_le_exp ((b - a) * (11 / 30))
    linarith
  have hf2 : 4 + f ≥ 5.148 := by linarith [l2.1, l2.2, l3.1, l3.2]
  have hsum : Real.exp (Real.log 4 + dp - v) + Real.exp ((b - a) * (11 / 30) + dp - v) =
      Real.exp (Real.log (4 + f) + dp - v) := by
    simp only [add_sub_assoc, Real.exp_add]
    rw [Real.exp_log (by norm_num), Real.exp_log (by linarith), ← hf]
    ring
  rw [hsum]
  have hl : 0.0287 ≤ Real.log (4 + f) - Real.log 5 := by
    rw [← Real.log_div (by linarith) (by norm_num)]
    have h1 := Real.one_sub_inv_le_log_of_pos (x := (4 + f) / 5) (by linarith)
    have h2 : ((4 + f) / 5)⁻¹ ≤ (5.148 / 5)⁻¹ := by
      apply inv_anti₀ (by norm_num)
      linarith
    have h3 : (5.148 / 5 : ℝ)⁻¹ ≤ 0.9713 := by norm_num
    linarith
  have hv2 := abs_le.1 hvz
  rw [hz] at hv2
  have := Real.add_one_le_exp (Real.log (4 + f) + dp - v)
  linarith [hv2.2]

end Dist
