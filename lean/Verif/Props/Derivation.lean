import Verif.Lemmas.DerivationProbs
import Verif.Model.Derivation
import Verif.Props.Tables
import Verif.Spec.Derivation

/-!
# C86: the derivation of the low-entropy table
-/

namespace Dist

open Finset Derivation Spec LowEntropy

/-- **C86, counts.** Whatever the order in which the dicts are iterated, the script's table for `n` items
holds exactly the shapes that clusterings of `n` items have, each with the number of clusterings of that
shape; there is such a table for every `n`. -/
theorem C86_counts (n : ℕ) :
    (∃ d, GetCounts n d) ∧
    ∀ d, GetCounts n d → ∀ (s : List ℕ) (c : ℕ), d.lookup s = some c ↔
      (∃ P : Finpartition (range n), shape P.parts = s) ∧ c = shapeCount n s := by
  refine ⟨exists_getCounts n, fun d h s c => ?_⟩
  have hc := getCounts_counts h
  constructor
  · intro hl
    obtain ⟨h1, h2⟩ := (hc.mem _).1 (mem_of_lookup hl)
    exact ⟨shapeCount_pos.1 (h1 ▸ h2), h1⟩
  · rintro ⟨hP, rfl⟩
    exact lookup_of_mem hc.1.1 (p := (s, shapeCount n s)) ((hc.mem _).2 ⟨rfl, shapeCount_pos.2 hP⟩)

theorem bump_insertion (s : Shape) (i : ℕ) : bump s i = (s.modify i (· + 1)).insertionSort (· ≤ ·) := by
  unfold bump
  refine List.Perm.eq_of_pairwise (le := (· ≤ ·)) (fun a b _ _ h h' => le_antisymm h h') ?_
    (List.pairwise_insertionSort _ _) ((List.mergeSort_perm _ _).trans (List.perm_insertionSort _ _).symm)
  have := List.pairwise_mergeSort (le := fun a b : ℕ => decide (a ≤ b))
    (fun a b c h1 h2 => by simp at *; omega) (fun a b => by simp; omega) (s.modify i (· + 1))
  exact this.imp (by simp)

theorem larger_insertion : larger = fun acc p => (List.range p.1.length).foldl
    (fun acc i => incr acc ((p.1.modify i (· + 1)).insertionSort (· ≤ ·)) p.2) (incr acc (1 :: p.1) p.2) := by
  funext acc p
  unfold larger
  simp only [bump_insertion]

/-- The table for four items. -/
example : ∃ d, GetCounts 4 d ∧ d.Perm [([1, 1, 1, 1], 1), ([1, 1, 2], 6), ([2, 2], 3), ([1, 3], 4), ([4], 1)] :=
  ⟨_, .succ (.succ (.succ (.succ .zero (.refl _)) (.refl _)) (.refl _)) (.refl _), by
    simp only [getLargerCounts, larger_insertion]
    decide +kernel⟩

/-- **C86, partition function.** The log partition function the script computes is that of the low-entropy
distribution: the logarithm of the sum over all clusterings of the product of size to the power size. -/
theorem C86_log_partition (n : ℕ) (d : Dict ℕ) (h : GetCounts n d) :
    getLogZ d = .ok (Real.log (∑ P : Finpartition (range n), ∏ b ∈ P.parts, (b.card : ℝ) ^ b.card)) :=
  getLogZ_eq (getCounts_counts h)

theorem zz_eq (n : ℕ) : zz n = (partRec (fun k => k ^ k) n : ℝ) := by
  rw [← partSum_eq (fun k => k ^ k) n (range n) (by simp), partSum]
  push_cast
  rfl

/-- **C86, the table in the library.** For the sizes 0 to 47 the entry the C++ library holds is the one the
script generates, rounded to eight decimals. -/
theorem C86_table (n : ℕ) (hn : n < 48) (d : Dict ℕ) (h : GetCounts n d) :
    ∃ v z : ℝ, logPartition (n : Int) = .ok (XR.fin v) ∧ tableEntry n d = .ok z ∧
      |v - z| ≤ 1 / (2 * 10 ^ 8) := by
  obtain ⟨v, hv, hd⟩ := C24_table n hn
  have e : (∑ P : Finpartition (Finset.univ : Finset (Fin n)), ∏ b ∈ P.parts, (b.card : ℝ) ^ b.card) =
      zz n := by
    rw [zz_eq, ← partSum_eq (fun k => k ^ k) n (Finset.univ : Finset (Fin n)) (by simp), partSum]
    push_cast
    rfl
  rw [e] at hd
  refine ⟨v, Real.log (zz n), hv, ?_, hd⟩
  unfold tableEntry
  split_ifs with h0
  · subst h0
    rw [zz_eq]
    simp [partRec]
  · exact getLogZ_eq (getCounts_counts h)

theorem getLogz_single (n : ℕ) (hn : 0 < n) : getLogz [n] = .ok (n * Real.log n) := by
  rw [getLogz_eq (by simpa using hn)]
  simp [wt]

theorem zz_checked : logCheck (1 / 10 ^ 12) ((partList (fun k => k ^ k) 47).headD 0)
    (183806782375214758 / 10 ^ 15) = true := by
  decide +kernel

theorem head_partList (w : ℕ → ℕ) (n : ℕ) : (partList w n).headD 0 = partRec w n := by
  rw [partList_eq, List.range_succ, List.reverse_append]
  rfl

theorem log_zz : |Real.log (zz 47) - 183806782375214758 / 10 ^ 15| ≤ 1 / 10 ^ 12 := by
  have h := logCheck_sound zz_checked
  rw [head_partList, ← zz_eq] at h
  generalize zz 47 = z at h ⊢
  push_cast at h
  exact h

theorem log47_checked : logCheck (1 / 10 ^ 12) 47 (3850147601710058 / 10 ^ 15) = true := by
  decide +kernel

/-- **C86, sizes beyond the table.** Beyond the table the library approximates the log partition function
by `n log n (1 + c n^(-3/4))`; its constant `c` is the script's coefficient rounded to eight decimals. -/
theorem C86_coefficient (d : Dict ℕ) (h : GetCounts 47 d) :
    (∀ n : ℕ, 48 ≤ n → logPartition (n : Int) =
      .ok (XR.fin (n * Real.log n * (1 + 0.28269584 * (n : ℝ) ^ (-0.75 : ℝ))))) ∧
    ∃ z c : ℝ, tableEntry 47 d = .ok z ∧ coefficient 47 z = .ok c ∧ |c - 0.28269584| ≤ 1 / (2 * 10 ^ 8) := by
  constructor
  · intro n hn
    have hn' : (0 : ℝ) < n := by exact_mod_cast (by omega : 0 < n)
    unfold logPartition
    rw [if_neg (by omega)]
    simp only [XR.ofInt_eq, Int.cast_natCast, XR.lit_eq]
    rw [XR.log_fin hn', XR.pow_fin hn', XR.fin_mul, XR.fin_mul, XR.fin_add, XR.fin_mul]
    congr 2
    norm_num
  · have hz : tableEntry 47 d = .ok (Real.log (zz 47)) := by
      unfold tableEntry
      rw [if_neg (by norm_num)]
      exact getLogZ_eq (getCounts_counts h)
    have h1 := abs_le.1 log_zz
    have h2 := logCheck_sound log47_checked
    push_cast at h2
    have h2 := abs_le.1 h2
    set L := Real.log 47 with hL
    set Z := Real.log (zz 47) with hZ
    have hx : ((47 : ℝ) ^ (0.75 : ℝ)) ^ (4 : ℕ) = 103823 := by
      rw [← Real.rpow_natCast, ← Real.rpow_mul (by norm_num)]
      norm_num
    have hx0 : 0 < (47 : ℝ) ^ (0.75 : ℝ) := by positivity
    set x := (47 : ℝ) ^ (0.75 : ℝ) with hxd
    have hlo : (17.950369528 : ℝ) ≤ x := by
      by_contra hc
      push Not at hc
      have := pow_lt_pow_left₀ hc hx0.le (n := 4) (by norm_num)
      norm_num at this
      linarith
    have hhi : x ≤ (17.950369529 : ℝ) := by
      by_contra hc
      push Not at hc
      have := pow_lt_pow_left₀ hc (by norm_num) (n := 4) (by norm_num)
      norm_num at this
      linarith
    have hg : getLogz [47] = .ok (47 * L) := by
      rw [getLogz_single 47 (by norm_num), hL]
      norm_num
    have hL0 : 0 < L := by linarith [h2.1]
    refine ⟨Z, (Z / (47 * L) - 1) * x, hz, ?_, ?_⟩
    · unfold coefficient
      rw [hg, Res.ok_bind, if_neg (by positivity)]
      rfl
    · have q1 : (1.01574874739 : ℝ) ≤ Z / (47 * L) := by
        rw [le_div_iff₀ (by positivity)]; linarith [h1.1, h2.2]
      have q2 : Z / (47 * L) ≤ (1.01574874740 : ℝ) := by
        rw [div_le_iff₀ (by positivity)]; linarith [h1.2, h2.1]
      rw [abs_le]
      constructor <;> nlinarith

theorem lookup_map {n : ℕ} {d : Dict ℕ} (h : Counts n d) (f : Shape → ℝ) (s : Shape) (p : ℝ) :
    (d.map fun q => (q.1, (q.2 : ℝ) * f q.1)).lookup s = some p ↔
      (∃ P : Finpartition (range n), shape P.parts = s) ∧ p = shapeCount n s * f s := by
  have hn : ((d.map fun q => (q.1, (q.2 : ℝ) * f q.1)).map Prod.fst).Nodup := by
    rw [List.map_map]; exact h.1.1
  constructor
  · intro hl
    obtain ⟨q, hq, he⟩ := List.mem_map.1 (mem_of_lookup hl)
    obtain ⟨h1, h2⟩ := (h.mem q).1 hq
    obtain ⟨rfl, rfl⟩ := Prod.mk.inj he
    exact ⟨shapeCount_pos.1 (h1 ▸ h2), by rw [h1]⟩
  · rintro ⟨hP, rfl⟩
    exact lookup_of_mem hn (p := (s, (shapeCount n s : ℝ) * f s))
      (List.mem_map.2 ⟨(s, shapeCount n s), (h.mem _).2 ⟨rfl, shapeCount_pos.2 hP⟩, rfl⟩)

/-- **C86, samples of part of the data.** The probabilities the script computes for `m` of `N` items are
those of the clusterings that low-entropy clusterings of all `N` items induce on the `m` items. -/
theorem C86_subprobs (counts : ℕ → Dict ℕ) (h : ∀ n, GetCounts n (counts n)) (m N : ℕ) (hm : m ≤ N) :
    ∃ d, getSubprobs counts N (N - m) = .ok d ∧ ∀ (s : List ℕ) (p : ℝ), d.lookup s = some p ↔
      (∃ P : Finpartition (range m), shape P.parts = s) ∧ p = shapeProb N m s := by
  have hc := fun n => getCounts_counts (h n)
  refine ⟨_, getSubprobs_eq hc N (N - m) (by omega), fun s p => ?_⟩
  rw [lookup_map (hc (N - (N - m))) (uu N (N - m)) s p]
  have e := shapeProb_eq N (N - m) (by omega) s
  rw [show N - (N - m) = m by omega] at e ⊢
  rw [e]

theorem shape_sum {n : ℕ} (P : Finpartition (range n)) : (shape P.parts).sum = n := by
  have h : ((shape P.parts : List ℕ) : Multiset ℕ).sum = n := by
    rw [shape_coe]
    exact P.sum_card_parts.trans (card_range n)
  simpa using h

theorem shape_pairs {n : ℕ} (P : Finpartition (range n)) :
    ((shape P.parts).map fun k => k * (k - 1)).sum =
      ((range n).offDiag.filter fun p => ∃ b ∈ P.parts, p.1 ∈ b ∧ p.2 ∈ b).card := by
  have h : ((shape P.parts).map fun k => k * (k - 1)).sum = ∑ b ∈ P.parts, b.offDiag.card := by
    rw [← Multiset.sum_coe, ← Multiset.map_coe, shape_coe, Multiset.map_map]
    refine Finset.sum_congr rfl fun b _ => ?_
    rw [offDiag_card]
    simp [Nat.mul_sub]
  rw [h, ← card_biUnion]
  · congr 1
    ext p
    simp only [mem_biUnion, mem_offDiag, mem_filter]
    constructor
    · rintro ⟨b, hb, h1, h2, h3⟩
      exact ⟨⟨P.le hb h1, P.le hb h2, h3⟩, b, hb, h1, h2⟩
    · rintro ⟨⟨-, -, h3⟩, b, hb, h1, h2⟩
      exact ⟨b, hb, h1, h2, h3⟩
  · intro b hb c hc hbc
    have hd := P.disjoint hb hc hbc
    show Disjoint b.offDiag c.offDiag
    rw [Finset.disjoint_left]
    intro p hp hq
    exact Finset.disjoint_left.1 hd (mem_offDiag.1 hp).1 (mem_offDiag.1 hq).1

/-- **C86, pairs.** For at least two items the script's pairwise number is the probability that two
different items, drawn uniformly, lie in the same cluster of a low-entropy clustering. -/
theorem C86_pairwise (n : ℕ) (hn : 2 ≤ n) (d : Dict ℕ) (h : GetCounts n d) :
    ∃ ps, getProbs d = .ok ps ∧ getPairwise ps = .ok ((∑ p ∈ (range n).offDiag,
      ∑ P : Finpartition (range n), if ∃ b ∈ P.parts, p.1 ∈ b ∧ p.2 ∈ b then lowEntropyProb n P else 0) /
        (range n).offDiag.card) := by
  have hc := getCounts_counts h
  refine ⟨_, getProbs_eq hc, ?_⟩
  have hcard : (range n).offDiag.card = n * (n - 1) := by rw [offDiag_card]; simp [Nat.mul_sub]
  have hpos : 0 < n * (n - 1) := Nat.mul_pos (by omega) (by omega)
  have hsum : ((d.map fun p => (p.1, (p.2 : ℝ) * uu n 0 p.1)).map fun p =>
      p.2 * ((p.1.map fun k => k * (k - 1)).sum : ℕ) / ((n * (n - 1) : ℕ) : ℝ)).sum =
      (∑ p ∈ (range n).offDiag, ∑ P : Finpartition (range n),
        if ∃ b ∈ P.parts, p.1 ∈ b ∧ p.2 ∈ b then lowEntropyProb n P else 0) / ((n * (n - 1) : ℕ) : ℝ) := by
    rw [sum_comm]
    have h1 := hc.sum fun s => uu n 0 s * ((s.map fun k => k * (k - 1)).sum : ℕ) / ((n * (n - 1) : ℕ) : ℝ)
    rw [List.map_map]
    have h2 : (d.map ((fun p : Shape × ℝ => p.2 * ((p.1.map fun k => k * (k - 1)).sum : ℕ) /
        ((n * (n - 1) : ℕ) : ℝ)) ∘ fun p => (p.1, (p.2 : ℝ) * uu n 0 p.1))) =
        d.map fun p => p.2 • (uu n 0 p.1 * ((p.1.map fun k => k * (k - 1)).sum : ℕ) /
          ((n * (n - 1) : ℕ) : ℝ)) := by
      refine List.map_congr_left fun p _ => ?_
      simp only [Function.comp, nsmul_eq_mul]
      ring
    rw [h2, h1, sum_div]
    refine Finset.sum_congr rfl fun P _ => ?_
    rw [shape_pairs, ← Finset.sum_filter, sum_const, nsmul_eq_mul]
    unfold uu lowEntropyProb
    rw [wt_shape, zz]
    ring
  have hfirst : ∀ q ∈ d.map fun p => (p.1, (p.2 : ℝ) * uu n 0 p.1), q.1.sum = n := by
    intro q hq
    obtain ⟨p, hp, rfl⟩ := List.mem_map.1 hq
    obtain ⟨h1, h2⟩ := (hc.mem p).1 hp
    obtain ⟨P, hP⟩ := shapeCount_pos.1 (h1 ▸ h2)
    show p.1.sum = n
    rw [← hP, shape_sum]
  have hne : (d.map fun p => (p.1, (p.2 : ℝ) * uu n 0 p.1)) ≠ [] := by simpa using hc.ne_nil
  rw [hcard]
  generalize (d.map fun p => (p.1, (p.2 : ℝ) * uu n 0 p.1)) = ps at *
  cases ps with
  | nil => exact absurd rfl hne
  | cons q ps =>
    unfold getPairwise
    simp only []
    rw [hfirst q List.mem_cons_self, if_neg hpos.ne', hsum]

/-- The probability of one clustering of part of the items. -/
theorem partProb_eq (N k : ℕ) (hk : k ≤ N) (Q : Finpartition (range (N - k))) :
    (∑ P : Finpartition (range N), if restrict (range (N - k)) P.parts = Q.parts then lowEntropyProb N P else 0) =
      uu N k (shape Q.parts) := by
  have h := marginal N k hk fun C => if C = Q.parts then 1 else 0
  simp only [ite_mul, one_mul, zero_mul] at h
  rw [h, Finset.sum_eq_single Q]
  · rw [if_pos rfl]
  · intro R _ hR
    rw [if_neg fun e => hR (Finpartition.ext e)]
  · simp

theorem partProb_of {A : Finset ℕ} (hA : A = range 3) (C : Finset (Finset ℕ)) (s : Shape)
    (hC : C.SupIndep id ∧ C.sup id = A ∧ ∅ ∉ C)
    (hs : s.Pairwise (· ≤ ·)) (hm : (s : Multiset ℕ) = C.val.map card) :
    (∑ P : Finpartition (range 4), if restrict (range 3) P.parts = C then lowEntropyProb 4 P else 0) =
      uu 4 1 s := by
  subst hA
  have h := partProb_eq 4 1 (by norm_num) ⟨C, hC.1, hC.2.1, hC.2.2⟩
  rw [sorted_eq hs hm]
  exact h

theorem uu_three :
    uu 4 1 [1, 1, 1] = 13 / zz 4 ∧ uu 4 1 [1, 2] = 47 / zz 4 ∧ uu 4 1 [3] = 283 / zz 4 := by
  refine ⟨?_, ?_, ?_⟩ <;>
  · simp only [uu, bump_insertion, wt, List.length_cons, List.length_nil, List.range_succ, List.range_zero]
    simp
    ring

/-- **C86, the score of a new cluster.** With four items of which two are clustered, no score of a new
cluster, given the scores that the library assigns to joining a cluster of one and a cluster of two items,
makes the odds of the third item right for both clusterings of the first two; so the library's own is wrong
for one of them. -/
theorem C86_new_cluster_inexact (lvl : ℕ) :
    let prob (C : Finset (Finset ℕ)) : ℝ :=
      ∑ P : Finpartition (range 4), if restrict (range 3) P.parts = C then lowEntropyProb 4 P else 0
    ∃ new one two : ℝ,
      scoreAddValue lvl ⟨4⟩ 0 1 2 1 = .ok (XR.fin new) ∧
      scoreAddValue lvl ⟨4⟩ 1 2 2 1 = .ok (XR.fin one) ∧
      scoreAddValue lvl ⟨4⟩ 2 1 2 1 = .ok (XR.fin two) ∧
      ∀ score : ℝ,
        ¬ (Real.exp (score - one) = prob {{0}, {1}, {2}} / prob {{0}, {1, 2}} ∧
          Real.exp (score - two) = prob {{0, 1}, {2}} / prob {{0, 1, 2}}) := by
  intro prob
  refine ⟨_, _, _, scoreAdd_zero lvl ⟨4⟩ 1 2 1 (by norm_num) (by norm_num) (by norm_num) (by norm_num)
    (by norm_num), scoreAdd_pos lvl ⟨4⟩ 1 2 2 1 (by norm_num) (by norm_num) (by norm_num) (by norm_num),
    scoreAdd_pos lvl ⟨4⟩ 2 1 2 1 (by norm_num) (by norm_num) (by norm_num) (by norm_num), ?_⟩
  intro score
  have h3 : ({0, 1, 2} : Finset ℕ) = range 3 := by decide
  obtain ⟨u1, u2, u3⟩ := uu_three
  have e1 : prob {{0}, {1}, {2}} = 13 / zz 4 :=
    (partProb_of h3 {{0}, {1}, {2}} [1, 1, 1] (by decide) (by decide) (by decide)).trans u1
  have e2 : prob {{0}, {1, 2}} = 47 / zz 4 :=
    (partProb_of h3 {{0}, {1, 2}} [1, 2] (by decide) (by decide) (by decide)).trans u2
  have e3 : prob {{0, 1}, {2}} = 47 / zz 4 :=
    (partProb_of h3 {{0, 1}, {2}} [1, 2] (by decide) (by decide) (by decide)).trans u2
  have e4 : prob {{0, 1, 2}} = 283 / zz 4 :=
    (partProb_of h3 {{0, 1, 2}} [3] (by decide) (by decide) (by decide)).trans u3
  have hz := zz_pos 4
  rw [e1, e2, e3, e4, if_neg (by norm_num), if_neg (by norm_num)]
  rintro ⟨h1, h2⟩
  have a1 : Real.exp (Real.log ((1 + ((1 : Int) : ℝ)) / ((1 : Int) : ℝ)) * ((1 : Int) : ℝ) +
      Real.log (1 + ((1 : Int) : ℝ))) = 4 := by
    rw [Real.exp_add]
    norm_num [Real.exp_log]
  have a2 : Real.exp (Real.log ((1 + ((2 : Int) : ℝ)) / ((2 : Int) : ℝ)) * ((2 : Int) : ℝ) +
      Real.log (1 + ((2 : Int) : ℝ))) = 27 / 4 := by
    rw [Real.exp_add, mul_comm (Real.log _), show ((2 : Int) : ℝ) = ((2 : ℕ) : ℝ) by norm_num, Real.exp_nat_mul,
      Real.exp_log (by norm_num), Real.exp_log (by norm_num)]
    norm_num
  rw [Real.exp_sub, a1, div_div_div_cancel_right₀ hz.ne'] at h1
  rw [Real.exp_sub, a2, div_div_div_cancel_right₀ hz.ne'] at h2
  have := Real.exp_pos score
  linarith

end Dist
