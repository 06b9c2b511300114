import Mathlib.Analysis.SpecialFunctions.Exp
import Mathlib.Data.Finset.Union
import Verif.Props.Driver
import Verif.Props.PYCache
import Verif.Lemmas.PYScores
import Verif.Lemmas.Assignments

/-! # Properties C14–C17: Pitman-Yor scores in exact arithmetic -/

namespace Dist

open Spec FloatOps FloatNotation PitmanYor

/-! ## C14 -/

theorem sum_map_exp_aux (d : ℝ) (l : List Nat) :
    (l.map fun n : Nat => if n = 0 then (0 : ℝ) else (n : ℝ) - d).sum =
      (l.sum : ℝ) - d * ((l.length - l.count 0 : ℕ) : ℝ) := by
  induction l with
  | nil => simp
  | cons a l ih =>
    have hc := List.count_le_length (a := 0) (l := l)
    by_cases h : a = 0
    · subst h
      simp only [List.map_cons, if_true, List.sum_cons, ih, List.length_cons, List.count_cons_self]
      have : l.length + 1 - (l.count 0 + 1) = l.length - l.count 0 := by omega
      rw [this]; simp
    · rw [List.map_cons, List.sum_cons, if_neg h, ih, List.length_cons,
        List.count_cons_of_ne h, List.sum_cons]
      have : l.length + 1 - l.count 0 = (l.length - l.count 0) + 1 := by omega
      rw [this]; push_cast; ring

theorem sum_map_empty_aux (e : ℝ) (l : List Nat) :
    (l.map fun n : Nat => if n = 0 then e else (0 : ℝ)).sum = (l.count 0 : ℝ) * e := by
  induction l with
  | nil => simp
  | cons a l ih =>
    by_cases h : a = 0
    · subst h; simp [ih]; ring
    · simp [h, ih]

/-- **C14.** Admissible parameters, any reachable driver with at least one empty
group, and at least one customer or a nonzero `alpha`: `score_value` with the
Pitman-Yor model writes finite scores, and their exponentials sum to exactly 1. -/
theorem C14_predictive_sums_to_one (lvl : Nat) (alpha d : ℝ) (hp : Admissible alpha d)
    (D : Driver) (hD : D.Reachable lvl) (l : List Nat) (hl : D.counts = l.map Int.ofNat)
    (h0 : 0 ∈ l) (hn : alpha ≠ 0 ∨ l.sum ≠ 0) :
    ∃ scores : List ℝ, D.scoreValue lvl l.length
        (fun a b c e => .ok (scoreAddValue (⟨.fin alpha, .fin d⟩ : PitmanYor XR) a b c e)) =
        .ok (scores.map XR.fin) ∧
      scores.length = l.length ∧ (scores.map Real.exp).sum = 1 := by
  have h1 := C12_score_value lvl D hD l hl
    (scoreAddValue (⟨.fin alpha, .fin d⟩ : PitmanYor XR))
  have hlen : D.counts.length = l.length := by rw [hl]; simp
  rw [hlen] at h1
  obtain ⟨hd0, hd1, had⟩ := hp
  have hE : (0 : ℝ) < (l.count 0 : ℕ) := by exact_mod_cast List.count_pos_iff.mpr h0
  have hcl := List.count_le_length (a := 0) (l := l)
  have hK : ((l.length : Int) - (l.count 0 : Nat)) = ((l.length - l.count 0 : ℕ) : Int) := by omega
  generalize hKdef : l.length - l.count 0 = K at *
  have hKsum : l.sum = 0 ↔ K = 0 := by
    rw [List.sum_eq_zero_iff]
    have : K = 0 ↔ l.count 0 = l.length := by omega
    rw [this, List.count_eq_length]
    exact ⟨fun h b hb => (h b hb).symm, fun h b hb => (h b hb).symm⟩
  -- the odds ratio of an empty group
  have hodds : 0 < (alpha + d * K) / ((l.sum : ℝ) + alpha) ∧ (l.sum : ℝ) + alpha ≠ 0 := by
    by_cases hs : l.sum = 0
    · have hk : K = 0 := hKsum.mp hs
      have ha : alpha ≠ 0 := by
        rcases hn with h | h
        · exact h
        · exact absurd hs h
      rw [hs, hk]; simp [ha]
    · have hs1 : (1 : ℝ) ≤ l.sum := by exact_mod_cast Nat.one_le_iff_ne_zero.mpr hs
      have hk1 : (1 : ℝ) ≤ K := by
        exact_mod_cast Nat.one_le_iff_ne_zero.mpr (fun h => hs (hKsum.mpr h))
      have h2 : 0 < (l.sum : ℝ) + alpha := by linarith
      exact ⟨div_pos (by nlinarith) h2, h2.ne'⟩
  have hpos : ∀ n ∈ l, n ≠ 0 → 0 < (l.sum : ℝ) + alpha ∧ 0 < (n : ℝ) - d := by
    intro n hnl hn0
    have hn1 : (1 : ℝ) ≤ n := by exact_mod_cast Nat.one_le_iff_ne_zero.mpr hn0
    have hle : (n : ℝ) ≤ l.sum := by exact_mod_cast List.le_sum_of_mem hnl
    constructor <;> linarith
  let S : ℝ := (l.sum : ℝ) + alpha
  let sc : Nat → ℝ := fun n => if n = 0 then
      Real.log ((alpha + d * K) / (S * (l.count 0 : ℕ))) else Real.log (((n : ℝ) - d) / S)
  have hod2 : 0 < (alpha + d * K) / (S * (l.count 0 : ℕ)) := by
    rw [← div_div]; exact div_pos hodds.1 hE
  refine ⟨l.map sc, ?_, by simp, ?_⟩
  · rw [h1, List.map_map]
    congr 1
    apply List.map_congr_left
    intro n hnl
    simp only [scoreAddValue, Function.comp_apply, XR.ofInt_eq, hK, Int.cast_natCast, XR.fin_mul,
      XR.fin_add, XR.fin_sub, sc]
    by_cases hn0 : n = 0
    · subst hn0
      simp only [Nat.cast_zero, if_true]
      rw [XR.fin_div _ _ (mul_ne_zero hodds.2 hE.ne'), XR.log_fin hod2]
    · obtain ⟨h2, h3⟩ := hpos n hnl hn0
      rw [if_neg (by exact_mod_cast hn0), if_neg hn0, XR.fin_div _ _ h2.ne', XR.log_fin (div_pos h3 h2)]
  · rw [List.map_map]
    have hexp : l.map (Real.exp ∘ sc) = l.map fun n : Nat =>
        (if n = 0 then (alpha + d * K) / (S * (l.count 0 : ℕ)) else 0) +
          (if n = 0 then (0 : ℝ) else (n : ℝ) - d) / S := by
      apply List.map_congr_left
      intro n hnl
      by_cases hn0 : n = 0
      · subst hn0
        simp only [Function.comp_apply, sc, if_true, Real.exp_log hod2]; simp
      · obtain ⟨h2, h3⟩ := hpos n hnl hn0
        simp only [Function.comp_apply, sc, if_neg hn0, zero_add]
        exact Real.exp_log (div_pos h3 h2)
    rw [hexp, List.sum_map_add, sum_map_empty_aux]
    have hdiv : (l.map fun n : Nat => (if n = 0 then (0 : ℝ) else (n : ℝ) - d) / S).sum =
        (l.map fun n : Nat => if n = 0 then (0 : ℝ) else (n : ℝ) - d).sum / S := by
      simp only [div_eq_mul_inv]; exact List.sum_map_mul_right l _ _
    rw [hdiv, sum_map_exp_aux, hKdef]
    have hS : S ≠ 0 := hodds.2
    field_simp
    show alpha + d * K + ((l.sum : ℝ) - d * K) = (l.sum : ℝ) + alpha
    ring

/-- A driver with three nonempty and two empty groups and a negative `alpha`. -/
example : Admissible (-1/4) (1/2) ∧ 0 ∈ [3, 0, 1, 7, 0] ∧
    (Driver.raw (([3, 0, 1, 7, 0] : List Nat).map Int.ofNat)).init 3 =
      .ok (Driver.ofSizes [3, 0, 1, 7, 0]) := by
  refine ⟨⟨by norm_num, by norm_num, by norm_num⟩, by decide, ?_⟩
  rw [Driver.init_eq _ _ (by decide), if_pos (.inr (by decide))]

/-! ## C15 -/

/-- The sum, in seating order, of the scores with which the customers `labels` take
their seats: customer `i` joins the table `labels[i]`, which has so far the earlier
customers with that label. -/
def seatingScore {F : Type} [FloatOps F] (m : PitmanYor F) (labels : List Nat) : F :=
  ((List.range labels.length).map fun i =>
    scoreAddValue m (((labels.take i).count (labels.getD i 0) : Nat) : Int)
      (((labels.take i).dedup.length : Nat) : Int) (i : Int) 1).foldl (fun acc x => acc + x) (ofInt 0)

theorem seatingScore_append {F : Type} [FloatOps F] (m : PitmanYor F) (a : List Nat) (x : Nat) :
    seatingScore m (a ++ [x]) = seatingScore m a +
      scoreAddValue m ((a.count x : Nat) : Int) ((a.dedup.length : Nat) : Int) (a.length : Int) 1 := by
  unfold seatingScore
  rw [List.length_append, List.length_singleton, List.range_succ, List.map_append, List.foldl_append]
  simp only [List.map_cons, List.map_nil, List.foldl_cons, List.foldl_nil]
  congr 1
  · congr 1
    apply List.map_congr_left
    intro i hi
    rw [List.mem_range] at hi
    rw [List.take_append_of_le_length (by omega), List.getD_eq_getElem?_getD, List.getElem?_append_left hi,
      ← List.getD_eq_getElem?_getD]
  · simp

theorem seatingScore_eq {alpha d : ℝ} (hp : Admissible alpha d) (h0 : alpha ≠ 0) (a : List Nat) :
    seatingScore (ex alpha d) a = .fin (logSeq alpha d a) := by
  induction a using List.reverseRecOn with
  | nil => simp [seatingScore, logSeq, tableTerm, totalTerm]
  | append_singleton a x ih =>
    rw [seatingScore_append, ih, ← List.card_toFinset, scoreAdd_eq hp h0, XR.fin_add]
    congr 1; ring

/-- **C15, sequential.** `score_counts` of the cluster sizes of a seating is the sum
of the seating scores, in every order of arrival.  In this exact arithmetic `log` and
`lgamma` are only defined on positive numbers, so for negative `alpha` the first
nonempty count must be at most 2 (see `C15_negative_alpha`). -/
theorem C15_score_counts_is_seating_score (alpha d : ℝ) (hp : Admissible alpha d)
    (labels counts : List Nat) (hc : ClusterSizes counts labels)
    (hf : 0 < alpha ∨ (alpha ≠ 0 ∧ ∀ c, (counts.filter fun c => c ≠ 0).head? = some c → c ≤ 2)) :
    scoreCounts (⟨.fin alpha, .fin d⟩ : PitmanYor XR) counts =
      seatingScore ⟨.fin alpha, .fin d⟩ labels ∧
    ∃ r : ℝ, scoreCounts (⟨.fin alpha, .fin d⟩ : PitmanYor XR) counts = .fin r := by
  have h0 : alpha ≠ 0 := by
    rcases hf with h | h
    · exact h.ne'
    · exact h.1
  have h1 := scoreCounts_eq hp counts hf
  refine ⟨?_, _, h1⟩
  rw [h1, seatingScore_eq hp h0, logEppf_eq_logSeq hc]

/-- **C15, exchangeable.** Permuting groups and inserting or dropping empty groups
does not change `score_counts`. -/
theorem C15_exchangeable (alpha d : ℝ) (hp : Admissible alpha d) (ha : 0 < alpha)
    (c1 c2 : List Nat) (h : (c1.filter fun c => c ≠ 0).Perm (c2.filter fun c => c ≠ 0)) :
    scoreCounts (⟨.fin alpha, .fin d⟩ : PitmanYor XR) c1 =
      scoreCounts (⟨.fin alpha, .fin d⟩ : PitmanYor XR) c2 := by
  rw [scoreCounts_eq hp c1 (.inl ha), scoreCounts_eq hp c2 (.inl ha), logEppf_perm h]

/-- **C15, empty groups bit for bit.** Empty groups are skipped: for every float type
and parameters, removing them does not change `score_counts`. -/
theorem C15_empty_groups {F : Type} [FloatOps F] (m : PitmanYor F) (counts : List Nat) :
    scoreCounts m counts = scoreCounts m (counts.filter fun c => c ≠ 0) := by
  have key : ∀ (counts : List Nat) (s : F) (n k : Nat),
      scoreLoop m counts s n k = scoreLoop m (counts.filter fun c => c ≠ 0) s n k := by
    intro counts
    induction counts with
    | nil => intros; rfl
    | cons c cs ih =>
      intro s n k
      by_cases h : c = 0
      · subst h
        rw [List.filter_cons_of_neg (by simp), ← ih]
        rw [scoreLoop]; simp
      · rw [List.filter_cons_of_pos (by simpa using h)]
        rw [scoreLoop, scoreLoop]
        simp only [if_neg h]
        rw [ih]
  exact key counts _ 0 0

/-- No customers score 0. -/
theorem C15_nobody {F : Type} [FloatOps F] (m : PitmanYor F) (k : Nat) :
    scoreCounts m (List.replicate k 0) = ofInt 0 := by
  rw [C15_empty_groups]
  have : (List.replicate k 0).filter (fun c => c ≠ 0) = [] := by simp
  rw [this]; rfl

/-- **C15, limit of the idealisation.** For negative `alpha` and a first count of 3 or
more the code takes `log` and `lgamma` of negative numbers, although the seating score
is defined.  (The library's `fast_log` ignores the sign bit and `lgammaf` returns
`log|Γ|`, and the result relies on both.) -/
theorem C15_negative_alpha :
    Admissible (-1/4) (1/2) ∧ ClusterSizes [3] [0, 0, 0] ∧
    scoreCounts (⟨.fin (-1/4), .fin (1/2)⟩ : PitmanYor XR) [3] = .nan ∧
    ∃ r : ℝ, seatingScore (⟨.fin (-1/4), .fin (1/2)⟩ : PitmanYor XR) [0, 0, 0] = .fin r := by
  have hp : Admissible (-1/4) (1/2) := ⟨by norm_num, by norm_num, by norm_num⟩
  refine ⟨hp, ?_, ?_, _, seatingScore_eq hp (by norm_num) _⟩
  · unfold ClusterSizes; decide
  · unfold scoreCounts scoreLoop
    simp only [XR.ofInt_eq, XR.fin_mul, XR.fin_add, Nat.cast_zero, Int.cast_zero, mul_zero, add_zero]
    norm_num [scoreLoop]
    rw [XR.log_fin_nonpos (by norm_num)]
    simp

example : ClusterSizes [0, 1, 2, 0] [7, 4, 7] := by unfold ClusterSizes; decide

/-! ## C16 -/

/-- The probability of the next seat. -/
theorem logSeq_step {alpha d : ℝ} (hp : Admissible alpha d) (h0 : alpha ≠ 0) (a : List Nat) (k : Nat)
    (hk : ∀ y, y ∈ a ↔ y < k) :
    (a.length : ℝ) + alpha ≠ 0 ∧
    (∀ x, x < k → Real.exp (logSeq alpha d (a ++ [x]) - logSeq alpha d a) =
      ((a.count x : ℕ) - d) / ((a.length : ℝ) + alpha)) ∧
    Real.exp (logSeq alpha d (a ++ [k]) - logSeq alpha d a) =
      (alpha + d * k) / ((a.length : ℝ) + alpha) := by
  obtain ⟨hd0, hd1, had⟩ := id hp
  have hcard : a.toFinset.card = k := by rw [toFinset_of_bound hk]; simp
  have hS : (a.length : ℝ) + alpha ≠ 0 := by
    by_cases ha : a = []
    · subst ha; simpa using h0
    · have : (1 : ℝ) ≤ a.length := by
        exact_mod_cast Nat.one_le_iff_ne_zero.mpr (by simpa using ha)
      have : 0 < (a.length : ℝ) + alpha := by linarith
      exact this.ne'
  refine ⟨hS, ?_, ?_⟩
  · intro x hxk
    have hm := (hk x).mpr hxk
    have hc : a.count x ≠ 0 := by have := List.count_pos_iff.mpr hm; omega
    have hc1 : (1 : ℝ) ≤ (a.count x : ℕ) := by exact_mod_cast Nat.one_le_iff_ne_zero.mpr hc
    have hn1 : (1 : ℝ) ≤ a.length := by
      exact_mod_cast Nat.one_le_iff_ne_zero.mpr (by have := List.length_pos_of_mem hm; omega)
    have hpos : 0 < ((a.count x : ℕ) - d) / ((a.length : ℝ) + alpha) :=
      div_pos (by linarith) (by linarith)
    have h := scoreAdd_eq hp h0 a x
    unfold scoreAddValue at h
    rw [if_neg (by exact_mod_cast hc)] at h
    simp only [XR.ofInt_eq, XR.fin_sub, XR.fin_add, Int.cast_natCast] at h
    rw [XR.fin_div _ _ hS, XR.log_fin hpos, XR.fin_inj] at h
    rw [← h, Real.exp_log hpos]
  · have hc : a.count k = 0 := List.count_eq_zero.mpr (fun h => by have := (hk k).mp h; omega)
    have hpos : 0 < (alpha + d * k) / ((a.length : ℝ) + alpha) := by
      by_cases ha : a = []
      · subst ha
        have : k = 0 := by
          by_contra hne
          have := (hk 0).mpr (by omega)
          simp at this
        subst this; simp [h0]
      · have hn1 : (1 : ℝ) ≤ a.length := by
          exact_mod_cast Nat.one_le_iff_ne_zero.mpr (by simpa using ha)
        obtain ⟨y, hy⟩ := List.exists_mem_of_ne_nil a ha
        have hk1 : (1 : ℝ) ≤ k := by
          have := (hk y).mp hy
          exact_mod_cast (by omega : 1 ≤ k)
        exact div_pos (by nlinarith) (by linarith)
    have h := scoreAdd_eq hp h0 a k
    unfold scoreAddValue at h
    rw [if_pos (by simp [hc])] at h
    simp only [XR.ofInt_eq, XR.fin_mul, XR.fin_add, Int.cast_natCast, Int.cast_one, mul_one, hcard] at h
    rw [XR.fin_div _ _ hS, XR.log_fin hpos, XR.fin_inj] at h
    rw [← h, Real.exp_log hpos]

/-- Predictive probabilities of the next customer sum to one. -/
theorem logSeq_next {alpha d : ℝ} (hp : Admissible alpha d) (h0 : alpha ≠ 0) (a : List Nat) (k : Nat)
    (hk : ∀ y, y ∈ a ↔ y < k) :
    ∑ x ∈ Finset.range (k + 1), Real.exp (logSeq alpha d (a ++ [x])) = Real.exp (logSeq alpha d a) := by
  obtain ⟨hS, hx, hnew⟩ := logSeq_step hp h0 a k hk
  have hstep : ∀ x, Real.exp (logSeq alpha d (a ++ [x])) = Real.exp (logSeq alpha d a) *
      Real.exp (logSeq alpha d (a ++ [x]) - logSeq alpha d a) := by
    intro x; rw [← Real.exp_add]; congr 1; ring
  simp_rw [hstep]
  rw [← Finset.mul_sum, Finset.sum_range_succ, hnew, Finset.sum_congr rfl fun x hx' => hx x (Finset.mem_range.mp hx'),
    ← Finset.sum_div, ← add_div, Finset.sum_sub_distrib]
  have hcount : ∑ x ∈ Finset.range k, ((a.count x : ℕ) : ℝ) = a.length := by
    rw [← toFinset_of_bound hk]
    exact_mod_cast List.sum_toFinset_count_eq_length a
  rw [hcount]
  simp only [Finset.sum_const, Finset.card_range, nsmul_eq_mul]
  have : ((a.length : ℝ) - k * d + (alpha + d * k)) / ((a.length : ℝ) + alpha) = 1 := by
    rw [div_eq_one_iff_eq hS]; ring
  rw [this, mul_one]

/-- There are finitely many contiguous assignment vectors of each length, and the
closed-form probabilities sum to one. -/
theorem contiguous_sum {alpha d : ℝ} (hp : Admissible alpha d) (h0 : alpha ≠ 0) (n : Nat) :
    ∃ S : Finset (List Nat), (∀ a, a ∈ S ↔ a.length = n ∧ Contiguous a) ∧
      ∑ a ∈ S, Real.exp (logSeq alpha d a) = 1 := by
  classical
  induction n with
  | zero =>
    refine ⟨{[]}, fun a => ?_, ?_⟩
    · rw [Finset.mem_singleton, List.length_eq_zero_iff]
      exact ⟨fun h => ⟨h, h ▸ contiguous_nil⟩, fun h => h.1⟩
    · simp [logSeq, tableTerm, totalTerm]
  | succ n ih =>
    obtain ⟨S, hS, hsum⟩ := ih
    let ext : List Nat → Finset (List Nat) := fun a =>
      (Finset.range (a.toFinset.card + 1)).image fun x => a ++ [x]
    have hdisj : (S : Set (List Nat)).PairwiseDisjoint ext := by
      intro a ha b hb hab
      rw [Function.onFun, Finset.disjoint_left]
      intro c hc1 hc2
      simp only [ext, Finset.mem_image] at hc1 hc2
      obtain ⟨x, -, rfl⟩ := hc1
      obtain ⟨y, -, hy⟩ := hc2
      exact hab (List.append_inj' hy rfl).1.symm
    refine ⟨S.biUnion ext, fun a => ?_, ?_⟩
    · rw [Finset.mem_biUnion]
      constructor
      · rintro ⟨b, hb, hab⟩
        simp only [ext, Finset.mem_image, Finset.mem_range] at hab
        obtain ⟨x, hx, rfl⟩ := hab
        obtain ⟨hb1, hb2⟩ := (hS b).mp hb
        obtain ⟨k, hk⟩ := hb2.exists_bound
        rw [toFinset_of_bound hk, Finset.card_range] at hx
        exact ⟨by simp [hb1], (contiguous_append_of_bound hk).mpr ⟨hb2, by omega⟩⟩
      · rintro ⟨h1, h2⟩
        obtain ⟨b, x, rfl⟩ : ∃ b x, a = b ++ [x] := by
          have : a ≠ [] := by rintro rfl; simp at h1
          exact ⟨a.dropLast, a.getLast this, (List.dropLast_concat_getLast this).symm⟩
        have hb : Contiguous b := (contiguous_append_singleton.mp h2).1
        obtain ⟨k, hk⟩ := hb.exists_bound
        have hx := ((contiguous_append_of_bound hk).mp h2).2
        refine ⟨b, (hS b).mpr ⟨by simpa using h1, hb⟩, ?_⟩
        simp only [ext, Finset.mem_image, Finset.mem_range]
        exact ⟨x, by rw [toFinset_of_bound hk, Finset.card_range]; omega, rfl⟩
    · rw [Finset.sum_biUnion hdisj, ← hsum]
      apply Finset.sum_congr rfl
      intro a ha
      obtain ⟨k, hk⟩ := ((hS a).mp ha).2.exists_bound
      rw [Finset.sum_image (by
        intro x _ y _ hxy
        have := (List.append_inj' hxy rfl).2
        simpa using this)]
      rw [toFinset_of_bound hk, Finset.card_range]
      exact logSeq_next hp h0 a k hk

theorem countTable_clusterSizes {a : List Nat} (ha : Contiguous a) :
    ClusterSizes ((countTable a).map Int.toNat) a := by
  obtain ⟨k, hk⟩ := ha.exists_bound
  unfold ClusterSizes countTable
  rw [idBound_of_bound hk, List.map_map]
  have h1 : (List.range k).map (Int.toNat ∘ fun g => ((a.count g : Nat) : Int)) =
      (List.range k).map fun g => a.count g := by
    apply List.map_congr_left; intro g _; simp
  rw [h1, List.filter_eq_self.mpr]
  · exact (dedup_perm_range hk).symm.map _
  · intro c hc
    simp only [List.mem_map, List.mem_range] at hc
    obtain ⟨g, hg, rfl⟩ := hc
    have := List.count_pos_iff.mpr ((hk g).mpr hg)
    simp only [decide_eq_true_eq]; omega

/-- **C16.** For every `n` and all admissible parameters with `alpha > 0`: if `S` is
the set of all contiguous assignment vectors of length `n`, then scoring each one with
`score_counts(count_assignments(a))` succeeds with a finite score, and the
exponentials of the scores sum to exactly 1. -/
theorem C16_partition_distribution (lvl : Nat) (alpha d : ℝ) (hp : Admissible alpha d)
    (ha : 0 < alpha) (n : Nat) (hn : n ≤ 2147483647) (S : Finset (List Nat))
    (hS : ∀ a, a ∈ S ↔ a.length = n ∧ Contiguous a) :
    ∃ score : List Nat → ℝ,
      (∀ a ∈ S, ∃ cs, countAssignments lvl (a.map Int.ofNat) = .ok cs ∧ (∀ c ∈ cs, 0 ≤ c) ∧
        scoreCounts (⟨.fin alpha, .fin d⟩ : PitmanYor XR) (cs.map Int.toNat) = .fin (score a)) ∧
      ∑ a ∈ S, Real.exp (score a) = 1 := by
  refine ⟨logSeq alpha d, ?_, ?_⟩
  · intro a haS
    obtain ⟨h1, h2⟩ := (hS a).mp haS
    obtain ⟨k, hk⟩ := h2.exists_bound
    refine ⟨countTable a, ?_, ?_, ?_⟩
    · rw [countAssignments_eq lvl a (by omega), if_neg]
      rintro ⟨-, g, hg, hm⟩
      rw [idBound_of_bound hk] at hg
      exact hm ((hk g).mpr hg)
    · intro c hc
      simp only [countTable, List.mem_map] at hc
      obtain ⟨g, -, rfl⟩ := hc
      omega
    · rw [scoreCounts_eq hp _ (.inl ha), logEppf_eq_logSeq (countTable_clusterSizes h2)]
  · obtain ⟨S', hS', hsum⟩ := contiguous_sum hp ha.ne' n
    have : S = S' := by ext a; rw [hS, hS']
    rw [this]; exact hsum

/-- Such a set exists for every `n`; for `n = 3` it has the five expected members. -/
theorem C16_nonvacuous (n : Nat) :
    ∃ S : Finset (List Nat), ∀ a, a ∈ S ↔ a.length = n ∧ Contiguous a := by
  obtain ⟨S, h, -⟩ := contiguous_sum (alpha := 1) (d := 0) ⟨by norm_num, by norm_num, by norm_num⟩
    (by norm_num) n
  exact ⟨S, h⟩

/-! ## C17 -/

/-- **C17.** For every float type and parameters: the score of removing a value from a
group, evaluated on the state after adding it, is the negation of the score of adding
it to the state before, bit for bit.  The number of nonempty groups is one higher
afterwards exactly when the group was empty; the number of empty groups is the same
(which C06 guarantees for the driver). -/
theorem C17_remove_is_minus_add {F : Type} [FloatOps F] (m : PitmanYor F)
    (groupSize nonempty sampleSize : Nat) (empty : Int)
    (h1 : groupSize < 2147483647) (h2 : nonempty < 2147483647) (h3 : sampleSize < 2147483647) :
    scoreRemoveValue m (groupSize + 1) (if groupSize = 0 then nonempty + 1 else nonempty : Nat)
      (sampleSize + 1) empty = .ok (-scoreAddValue m groupSize nonempty sampleSize empty) := by
  unfold scoreRemoveValue
  have hi : ∀ n : Nat, n < 2147483647 → i32 ((n : Int) + 1 - 1) = .ok (n : Int) := by
    intro n hn
    rw [show (n : Int) + 1 - 1 = n by omega]
    exact i32_of (by unfold InInt32 int32Min int32Max; omega)
  rw [hi _ h1, Res.ok_bind, hi _ h3]
  by_cases h0 : groupSize = 0
  · subst h0
    simp only [Nat.cast_zero, if_true]
    rw [show (((nonempty + 1 : Nat)) : Int) - 1 = (nonempty : Int) + 1 - 1 by push_cast; rfl, hi _ h2]
    rfl
  · rw [if_neg (by exact_mod_cast h0), if_neg h0]
    rfl

/-- In exact arithmetic the scores are defined for admissible parameters (with a positive
`alpha` or somebody already seated), so that C17 says that they cancel. -/
theorem C17_defined (alpha d : ℝ) (hp : Admissible alpha d) (groupSize nonempty sampleSize : Nat)
    (h : 0 < alpha ∨ 0 < nonempty) (hs : nonempty ≤ sampleSize) :
    ∃ r : ℝ, scoreAddValue (⟨.fin alpha, .fin d⟩ : PitmanYor XR) groupSize nonempty sampleSize 1 = .fin r := by
  obtain ⟨hd0, hd1, had⟩ := hp
  have hs' : (nonempty : ℝ) ≤ sampleSize := by exact_mod_cast hs
  have hn0 : (0 : ℝ) ≤ nonempty := Nat.cast_nonneg _
  have hden : 0 < (sampleSize : ℝ) + alpha := by
    rcases h with h | h
    · linarith
    · have : (1 : ℝ) ≤ nonempty := by exact_mod_cast h
      linarith
  have hnum : 0 < alpha + d * nonempty := by
    rcases h with h | h
    · have := mul_nonneg hd0 hn0; linarith
    · have : (1 : ℝ) ≤ nonempty := by exact_mod_cast h
      nlinarith
  unfold scoreAddValue
  by_cases h0 : groupSize = 0
  · subst h0
    simp only [Nat.cast_zero, if_true, XR.ofInt_eq, XR.fin_mul, XR.fin_add, Int.cast_natCast, Int.cast_one, mul_one]
    rw [XR.fin_div _ _ hden.ne', XR.log_fin (div_pos hnum hden)]
    exact ⟨_, rfl⟩
  · have hg : (1 : ℝ) ≤ groupSize := by exact_mod_cast Nat.one_le_iff_ne_zero.mpr h0
    rw [if_neg (by exact_mod_cast h0)]
    simp only [XR.ofInt_eq, XR.fin_sub, XR.fin_add, Int.cast_natCast]
    rw [XR.fin_div _ _ hden.ne', XR.log_fin (div_pos (by linarith) hden)]
    exact ⟨_, rfl⟩

end Dist
