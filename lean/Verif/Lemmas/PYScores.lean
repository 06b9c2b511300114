import Mathlib.Algebra.BigOperators.Group.Finset.Basic
import Mathlib.Algebra.BigOperators.Intervals
import Mathlib.Data.Finset.Dedup
import Mathlib.Tactic.NormNum
import Mathlib.Tactic.Positivity
import Mathlib.Tactic.Linarith
import Mathlib.Tactic.Ring
import Mathlib.Tactic.FieldSimp
import Verif.Base.XR
import Verif.Model.Clustering
import Verif.Lemmas.Contiguous

/-! Lemmas on the Pitman-Yor scores in exact arithmetic. -/

set_option linter.unusedSimpArgs false
set_option linter.unusedVariables false

namespace Dist

open Spec FloatOps FloatNotation

namespace PitmanYor

/-- Parameters as exact numbers. -/
abbrev ex (alpha d : ℝ) : PitmanYor XR := ⟨.fin alpha, .fin d⟩

variable {alpha d : ℝ}

/-- `Σ_{j<m} log (j + 1 - d)` -/
noncomputable def sizeTerm (d : ℝ) (m : Nat) : ℝ := ∑ j ∈ Finset.range m, Real.log (j + 1 - d)

/-- `Σ_{0<i<n} log (alpha + i)` -/
noncomputable def totalTerm (alpha : ℝ) (n : Nat) : ℝ :=
  ∑ i ∈ Finset.range n, if i = 0 then 0 else Real.log (alpha + i)

/-- `Σ_{0<i<k} log (alpha + d i)` -/
noncomputable def tableTerm (alpha d : ℝ) (k : Nat) : ℝ :=
  ∑ i ∈ Finset.range k, if i = 0 then 0 else Real.log (alpha + d * i)

theorem sizeTerm_succ (m : Nat) : sizeTerm d (m + 1) = sizeTerm d m + Real.log (m + 1 - d) :=
  Finset.sum_range_succ _ _

theorem totalTerm_succ (n : Nat) : totalTerm alpha (n + 1) =
    totalTerm alpha n + if n = 0 then 0 else Real.log (alpha + n) := Finset.sum_range_succ _ _

theorem tableTerm_succ (k : Nat) : tableTerm alpha d (k + 1) =
    tableTerm alpha d k + if k = 0 then 0 else Real.log (alpha + d * k) := Finset.sum_range_succ _ _

theorem log_gamma_succ {x : ℝ} (hx : 0 < x) :
    Real.log (Real.Gamma (x + 1)) = Real.log x + Real.log (Real.Gamma x) := by
  rw [Real.Gamma_add_one hx.ne', Real.log_mul hx.ne' (Real.Gamma_pos_of_pos hx).ne']

/-- `lgamma(1-d+m) - lgamma(1-d)` -/
theorem lgamma_size (hd : d < 1) (m : Nat) :
    Real.log (Real.Gamma (1 - d + m)) - Real.log (Real.Gamma (1 - d)) = sizeTerm d m := by
  induction m with
  | zero => simp [sizeTerm]
  | succ m ih =>
    have hm : (0 : ℝ) ≤ m := Nat.cast_nonneg m
    rw [sizeTerm_succ, ← ih]
    have : (1 - d + ((m + 1 : ℕ) : ℝ)) = (1 - d + m) + 1 := by push_cast; ring
    rw [this, log_gamma_succ (by linarith)]
    have h2 : (m : ℝ) + 1 - d = 1 - d + m := by ring
    rw [h2]; ring

theorem lgamma_total {n : Nat} (hn : 0 < alpha + n) (hn0 : n ≠ 0) (c : Nat) :
    Real.log (Real.Gamma (alpha + n + c)) - Real.log (Real.Gamma (alpha + n)) =
      totalTerm alpha (n + c) - totalTerm alpha n := by
  induction c with
  | zero => simp
  | succ c ih =>
    have hc : (0 : ℝ) ≤ c := Nat.cast_nonneg c
    have h1 : n + c ≠ 0 := by omega
    rw [← add_assoc, totalTerm_succ, if_neg h1]
    have : (alpha + n + ((c + 1 : ℕ) : ℝ)) = (alpha + n + c) + 1 := by push_cast; ring
    rw [this, log_gamma_succ (by linarith)]
    push_cast
    rw [← add_assoc alpha]
    linarith

theorem lgamma_total_zero (ha : 0 < alpha) (c : Nat) :
    Real.log (Real.Gamma (alpha + ((c + 1 : Nat) : ℝ))) - Real.log (Real.Gamma alpha) =
      Real.log alpha + totalTerm alpha (c + 1) := by
  have h := lgamma_total (alpha := alpha) (n := 1) (by push_cast; linarith) (by omega) c
  have h1 : (alpha + ((c + 1 : Nat) : ℝ)) = alpha + ((1 : Nat) : ℝ) + c := by push_cast; ring
  have h2 : totalTerm alpha 1 = 0 := by simp [totalTerm]
  have h3 : Real.log (Real.Gamma (alpha + ((1 : Nat) : ℝ))) = Real.log alpha + Real.log (Real.Gamma alpha) := by
    push_cast; exact log_gamma_succ ha
  rw [h1, add_comm c 1]
  linarith

/-- Closed form of the log probability of a partition with the given block sizes. -/
noncomputable def logEppf (alpha d : ℝ) (counts : List Nat) : ℝ :=
  tableTerm alpha d (counts.filter fun c => c ≠ 0).length
    + ((counts.filter fun c => c ≠ 0).map fun c => sizeTerm d (c - 1)).sum
    - totalTerm alpha counts.sum

theorem sum_filter_ne_zero (l : List Nat) : (l.filter fun c => c ≠ 0).sum = l.sum := by
  induction l with
  | nil => rfl
  | cons a l ih =>
    by_cases h : a = 0
    · subst h; simpa using ih
    · rw [List.filter_cons_of_pos (by simpa using h), List.sum_cons, List.sum_cons, ih]

theorem logEppf_perm {c1 c2 : List Nat}
    (h : (c1.filter fun c => c ≠ 0).Perm (c2.filter fun c => c ≠ 0)) :
    logEppf alpha d c1 = logEppf alpha d c2 := by
  unfold logEppf
  rw [h.length_eq, (h.map _).sum_eq, ← sum_filter_ne_zero c1, ← sum_filter_ne_zero c2, h.sum_eq]

/-- Conditions under which `score_counts` meets no exceptional operation: `alpha`
positive, or negative with a first group of at most two. -/
def Fine (alpha : ℝ) (counts : List Nat) : Prop :=
  0 < alpha ∨ (alpha ≠ 0 ∧ ∀ c, (counts.filter fun c => c ≠ 0).head? = some c → c ≤ 2)

theorem scoreLoop_eq (hp : Admissible alpha d) (counts : List Nat) (s : ℝ) (n k : Nat)
    (hnk : n = 0 ↔ k = 0) (hkn : k ≤ n) (hf : k = 0 → Fine alpha counts) :
    scoreLoop (ex alpha d) counts (.fin s) n k = .fin (s
      + (tableTerm alpha d (k + (counts.filter fun c => c ≠ 0).length) - tableTerm alpha d k)
      + ((counts.filter fun c => c ≠ 0).map fun c => sizeTerm d (c - 1)).sum
      - (totalTerm alpha (n + counts.sum) - totalTerm alpha n)) := by
  induction counts generalizing s n k with
  | nil => simp [scoreLoop]
  | cons c cs ih =>
    obtain ⟨hd0, hd1, had⟩ := hp
    by_cases hc : c = 0
    · subst hc
      have hff : ((0 :: cs).filter fun c => c ≠ 0) = cs.filter fun c => c ≠ 0 := by simp
      unfold scoreLoop
      rw [if_pos rfl, ih s n k hnk hkn (by intro h; have := hf h; unfold Fine at this ⊢; rwa [hff] at this),
        hff]
      simp
    · have hff : ((c :: cs).filter fun c => c ≠ 0) = c :: cs.filter fun c => c ≠ 0 := by simp [hc]
      unfold scoreLoop
      rw [if_neg hc]
      -- value of the step
      obtain ⟨c', rfl⟩ : ∃ c', c = c' + 1 := ⟨c - 1, by omega⟩
      have key : (if c' + 1 = 1 then
            (XR.fin s) + logRatio ((ex alpha d).alpha + (ex alpha d).d * ofInt k) ((ex alpha d).alpha + ofInt n)
          else if c' + 1 = 2 then
            (XR.fin s) + logRatio (((ex alpha d).alpha + (ex alpha d).d * ofInt k) * (ofInt 1 - (ex alpha d).d))
              (((ex alpha d).alpha + ofInt n) * ((ex alpha d).alpha + ofInt n + ofInt 1))
          else
            (XR.fin s) + log ((ex alpha d).alpha + (ex alpha d).d * ofInt k)
              + lgammaRatio (ofInt 1 - (ex alpha d).d) (c' + 1 - 1)
              - lgammaRatio ((ex alpha d).alpha + ofInt n) (c' + 1))
          = XR.fin (s + (tableTerm alpha d (k + 1) - tableTerm alpha d k) + sizeTerm d c'
            - (totalTerm alpha (n + (c' + 1)) - totalTerm alpha n)) := by
        have h1d : 0 < 1 - d := by linarith
        by_cases hk0 : k = 0
        · -- first group
          have hn0 : n = 0 := hnk.mpr hk0
          subst hk0; subst hn0
          have hT1 : totalTerm alpha 1 = 0 := by simp [totalTerm]
          have hT2 : totalTerm alpha 2 = Real.log (alpha + 1) := by
            rw [totalTerm_succ, hT1]; simp
          have hK1 : tableTerm alpha d 1 = 0 := by simp [tableTerm]
          have hK0 : tableTerm alpha d 0 = 0 := by simp [tableTerm]
          have hT0 : totalTerm alpha 0 = 0 := by simp [totalTerm]
          have hS0 : sizeTerm d 0 = 0 := by simp [sizeTerm]
          have hS1 : sizeTerm d 1 = Real.log (1 - d) := by simp [sizeTerm]
          have hane : alpha ≠ 0 := by
            rcases hf rfl with h | h
            · exact h.ne'
            · exact h.1
          have ha1 : 0 < alpha + 1 := by linarith
          split_ifs with h1 h2
          · have : c' = 0 := by omega
            subst this
            simp only [logRatio, XR.ofInt_eq, Nat.cast_zero, Int.cast_zero, mul_zero, add_zero, XR.fin_mul, XR.fin_add, CharP.cast_eq_zero]
            rw [XR.fin_div _ _ hane, div_self hane, XR.log_fin one_pos, XR.fin_add]
            simp [hT1, hK1, hK0, hT0, hS0]
          · have : c' = 1 := by omega
            subst this
            simp only [logRatio, XR.ofInt_eq, Nat.cast_zero, Int.cast_zero, mul_zero, add_zero, XR.fin_mul, XR.fin_add, XR.fin_sub, Int.cast_one, CharP.cast_eq_zero]
            have e : alpha * (1 - d) / (alpha * (alpha + 1)) = (1 - d) / (alpha + 1) := by
              field_simp
            rw [XR.fin_div _ _ (mul_ne_zero hane ha1.ne'), e, XR.log_fin (div_pos h1d ha1), XR.fin_add,
              Real.log_div h1d.ne' ha1.ne']
            simp [hT2, hK1, hK0, hT0, hS1]
            ring
          · have hapos : 0 < alpha := by
              rcases hf rfl with h | h
              · exact h
              · have := h.2 (c' + 1) (by simp)
                omega
            have hc0 : (0 : ℝ) ≤ (c' : ℝ) := Nat.cast_nonneg c'
            simp only [lgammaRatio, XR.ofInt_eq, Nat.cast_zero, Int.cast_zero, mul_zero, add_zero, XR.fin_mul, XR.fin_add, XR.fin_sub, Int.cast_one, Int.cast_natCast, CharP.cast_eq_zero, Nat.add_sub_cancel]
            rw [XR.log_fin hapos, XR.lgamma_fin h1d, XR.lgamma_fin (by linarith), XR.lgamma_fin hapos,
              XR.lgamma_fin (by push_cast; linarith)]
            simp only [XR.fin_add, XR.fin_sub]
            rw [lgamma_size hd1, lgamma_total_zero hapos]
            simp [hK1, hK0, hT0]
            ring
        · have hn1 : n ≠ 0 := fun h => hk0 (hnk.mp h)
          have hk1 : (1 : ℝ) ≤ k := by exact_mod_cast Nat.one_le_iff_ne_zero.mpr hk0
          have hn1' : (1 : ℝ) ≤ n := by exact_mod_cast Nat.one_le_iff_ne_zero.mpr hn1
          have hnum : 0 < alpha + d * k := by nlinarith
          have hden : 0 < alpha + n := by linarith
          rw [tableTerm_succ, if_neg hk0]
          split_ifs with h1 h2
          · have : c' = 0 := by omega
            subst this
            simp only [logRatio, XR.ofInt_eq, XR.fin_mul, XR.fin_add, Int.cast_natCast]
            rw [XR.fin_div _ _ hden.ne', XR.log_fin (div_pos hnum hden), XR.fin_add,
              Real.log_div hnum.ne' hden.ne']
            simp only [zero_add, totalTerm_succ, if_neg hn1]
            simp [sizeTerm]
            ring
          · have : c' = 1 := by omega
            subst this
            have hden' : 0 < alpha + n + 1 := by linarith
            simp only [logRatio, XR.ofInt_eq, XR.fin_mul, XR.fin_add, XR.fin_sub, Int.cast_one, Int.cast_natCast]
            rw [XR.fin_div _ _ (mul_pos hden hden').ne', XR.log_fin (div_pos (mul_pos hnum h1d) (mul_pos hden hden')),
              XR.fin_add, Real.log_div (mul_pos hnum h1d).ne' (mul_pos hden hden').ne',
              Real.log_mul hnum.ne' h1d.ne', Real.log_mul hden.ne' hden'.ne']
            have hn2 : n + 1 ≠ 0 := by omega
            rw [← add_assoc n 1 1, totalTerm_succ, totalTerm_succ, if_neg hn1, if_neg hn2]
            have hS1 : sizeTerm d 1 = Real.log (1 - d) := by simp [sizeTerm]
            rw [hS1]
            push_cast
            rw [← add_assoc alpha]
            congr 1
            ring
          · have hc0 : (0 : ℝ) ≤ (c' : ℝ) := Nat.cast_nonneg c'
            simp only [lgammaRatio, XR.ofInt_eq, XR.fin_mul, XR.fin_add, XR.fin_sub, Int.cast_one, Int.cast_natCast, Nat.add_sub_cancel]
            rw [XR.log_fin hnum, XR.lgamma_fin h1d, XR.lgamma_fin (by linarith), XR.lgamma_fin hden,
              XR.lgamma_fin (by push_cast; linarith)]
            simp only [XR.fin_add, XR.fin_sub]
            rw [lgamma_size hd1, lgamma_total hden hn1]
            congr 1
            ring
      simp only
      rw [key, ih _ (n + (c' + 1)) (k + 1) (by omega) (by omega) (by omega), hff]
      congr 1
      simp only [List.length_cons, List.map_cons, List.sum_cons, Nat.add_sub_cancel]
      have e1 : k + 1 + (cs.filter fun c => c ≠ 0).length = k + ((cs.filter fun c => c ≠ 0).length + 1) := by omega
      have e2 : n + (c' + 1) + cs.sum = n + (c' + 1 + cs.sum) := by omega
      rw [e1, e2]
      ring

theorem scoreCounts_eq (hp : Admissible alpha d) (counts : List Nat) (hf : Fine alpha counts) :
    scoreCounts (ex alpha d) counts = .fin (logEppf alpha d counts) := by
  have := scoreLoop_eq hp counts 0 0 0 Iff.rfl le_rfl (fun _ => hf)
  unfold scoreCounts
  rw [XR.ofInt_eq, Int.cast_zero, this]
  congr 1
  simp [logEppf, tableTerm, totalTerm]

/-! ### Seating -/

/-- Closed form as a function of the label sequence. -/
noncomputable def logSeq (alpha d : ℝ) (a : List Nat) : ℝ :=
  tableTerm alpha d a.toFinset.card + ∑ x ∈ a.toFinset, sizeTerm d (a.count x - 1)
    - totalTerm alpha a.length

theorem sum_count_dedup (a : List Nat) : (a.dedup.map fun x => a.count x).sum = a.length := by
  have h := List.sum_toFinset (fun x => a.count x) (List.nodup_dedup a)
  rw [← h]
  have h2 : a.dedup.toFinset = a.toFinset := by ext; simp
  rw [h2]
  exact List.sum_toFinset_count_eq_length a

theorem logEppf_eq_logSeq {counts a : List Nat} (h : ClusterSizes counts a) :
    logEppf alpha d counts = logSeq alpha d a := by
  unfold ClusterSizes at h
  unfold logEppf logSeq
  have h2 : a.dedup.toFinset = a.toFinset := by ext; simp
  have hs := List.sum_toFinset (fun x => sizeTerm d (a.count x - 1)) (List.nodup_dedup a)
  rw [h2] at hs
  rw [h.length_eq, (h.map _).sum_eq, ← sum_filter_ne_zero counts, h.sum_eq, sum_count_dedup, hs,
    List.map_map, List.length_map, List.card_toFinset]
  rfl

/-- The `score_add_value` of the next customer `x` after the customers `a`. -/
theorem scoreAdd_eq (hp : Admissible alpha d) (h0 : alpha ≠ 0) (a : List Nat) (x : Nat) :
    scoreAddValue (ex alpha d) (a.count x) (a.toFinset.card) a.length 1 =
      .fin (logSeq alpha d (a ++ [x]) - logSeq alpha d a) := by
  obtain ⟨hd0, hd1, had⟩ := hp
  unfold scoreAddValue
  have hlen : (a ++ [x]).length = a.length + 1 := by simp
  by_cases hx : a.count x = 0
  · have hxa : x ∉ a := List.count_eq_zero.mp hx
    have hfin : (a ++ [x]).toFinset = insert x a.toFinset := by ext; simp [or_comm]
    have hxf : x ∉ a.toFinset := by simpa using hxa
    have hsum : ∑ y ∈ (a ++ [x]).toFinset, sizeTerm d ((a ++ [x]).count y - 1)
        = ∑ y ∈ a.toFinset, sizeTerm d (a.count y - 1) := by
      rw [hfin, Finset.sum_insert hxf]
      have h1 : (a ++ [x]).count x - 1 = 0 := by simp [hx]
      rw [h1]
      have h2 : ∀ y ∈ a.toFinset, sizeTerm d ((a ++ [x]).count y - 1) = sizeTerm d (a.count y - 1) := by
        intro y hy
        have : x ≠ y := by rintro rfl; exact hxf hy
        simp [List.count_append, List.count_singleton, this]
      rw [Finset.sum_congr rfl h2]; simp [sizeTerm]
    unfold logSeq
    rw [hsum, hlen, hfin, Finset.card_insert_of_notMem hxf, tableTerm_succ, totalTerm_succ]
    rw [if_pos (by simp [hx])]
    simp only [XR.ofInt_eq, XR.fin_mul, XR.fin_add, Int.cast_natCast, Int.cast_one, mul_one]
    by_cases ha : a = []
    · subst ha
      simp only [List.toFinset_nil, Finset.card_empty, CharP.cast_eq_zero, mul_zero, add_zero, List.length_nil, zero_add]
      rw [XR.fin_div _ _ h0, div_self h0, XR.log_fin one_pos]
      simp
    · have hn : a.length ≠ 0 := by simpa using ha
      have hk : a.toFinset.card ≠ 0 := by
        rw [Finset.card_ne_zero]
        obtain ⟨y, hy⟩ := List.exists_mem_of_ne_nil a ha
        exact ⟨y, by simpa using hy⟩
      have hk1 : (1 : ℝ) ≤ a.toFinset.card := by exact_mod_cast Nat.one_le_iff_ne_zero.mpr hk
      have hn1' : (1 : ℝ) ≤ a.length := by exact_mod_cast Nat.one_le_iff_ne_zero.mpr hn
      have hnum : 0 < alpha + d * a.toFinset.card := by nlinarith
      have hden : 0 < (a.length : ℝ) + alpha := by linarith
      rw [XR.fin_div _ _ hden.ne', XR.log_fin (div_pos hnum hden), Real.log_div hnum.ne' hden.ne',
        if_neg hk, if_neg hn, add_comm (a.length : ℝ)]
      congr 1; ring
  · have hxa : x ∈ a := by
      by_contra h; exact hx (List.count_eq_zero.mpr h)
    have hxf : x ∈ a.toFinset := by simpa using hxa
    have hfin : (a ++ [x]).toFinset = a.toFinset := by
      ext y; simp only [List.mem_toFinset, List.mem_append, List.mem_singleton]
      constructor
      · rintro (h | rfl)
        · exact h
        · exact hxa
      · exact Or.inl
    have hn : a.length ≠ 0 := by
      have := List.length_pos_of_mem hxa; omega
    have hn1' : (1 : ℝ) ≤ a.length := by exact_mod_cast Nat.one_le_iff_ne_zero.mpr hn
    have hden : 0 < (a.length : ℝ) + alpha := by linarith
    obtain ⟨c, hc⟩ : ∃ c, a.count x = c + 1 := ⟨a.count x - 1, by omega⟩
    have hnum : 0 < ((a.count x : ℕ) : ℝ) - d := by
      rw [hc]; push_cast; have : (0 : ℝ) ≤ c := Nat.cast_nonneg c; linarith
    have hsum : ∑ y ∈ a.toFinset, sizeTerm d ((a ++ [x]).count y - 1)
        = ∑ y ∈ a.toFinset, sizeTerm d (a.count y - 1) + Real.log ((a.count x : ℕ) - d) := by
      rw [← Finset.add_sum_erase _ _ hxf, ← Finset.add_sum_erase _ (fun y => sizeTerm d (a.count y - 1)) hxf]
      have h2 : ∀ y ∈ a.toFinset.erase x, sizeTerm d ((a ++ [x]).count y - 1) = sizeTerm d (a.count y - 1) := by
        intro y hy
        have : x ≠ y := by rintro rfl; simp at hy
        simp [List.count_append, List.count_singleton, this]
      rw [Finset.sum_congr rfl h2]
      have h1 : (a ++ [x]).count x - 1 = c + 1 := by simp [hc]
      have h3 : a.count x - 1 = c := by omega
      simp only [h1, h3, sizeTerm_succ]
      rw [hc]; push_cast; ring
    unfold logSeq
    rw [hfin, hsum, hlen, totalTerm_succ, if_neg hn, if_neg (by exact_mod_cast hx)]
    simp only [XR.ofInt_eq, XR.fin_sub, XR.fin_add, Int.cast_natCast]
    rw [XR.fin_div _ _ hden.ne', XR.log_fin (div_pos hnum hden), Real.log_div hnum.ne' hden.ne',
      add_comm (a.length : ℝ)]
    congr 1; ring

end PitmanYor

end Dist
