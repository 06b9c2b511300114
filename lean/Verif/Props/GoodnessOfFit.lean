import Verif.Lemmas.BinSamples
import Verif.Lemmas.GammaMoments

/-!
# C73: the goodness-of-fit tests of `distributions/util.py`

Vocabulary (`Verif.Spec.GoodnessOfFit`): `drawsMean p n f` is the expectation of `f` over `n`
independent draws from the distribution `p` on `Fin k`; `occurrences x j` is how many of the draws
`x` are `j`; `pearsonTerm n p c` is `(c - n p)² / (n p)`, `scaledDeviation n p c` is
`(c - n p)² / (n p (1 - p))`.  `sp.sf x dof` is scipy's survival function of the chi-squared
distribution with `dof` degrees of freedom, which is `gammaMeasure (dof / 2) (1 / 2)`; a returned
`float('inf')` is `none`.
-/

namespace Dist.Props

open Util MeasureTheory ProbabilityTheory
open scoped FloatNotation

/-- What the test reports, in exact arithmetic, for probabilities inside `(0, 1)`. -/
theorem C73_multinomial_value (sp : Scipy XR) (pc : List (ℝ × ℤ)) (total : ℤ) (truncated : Bool)
    (hp : ∀ e ∈ pc, 0 < e.1 ∧ e.1 < 1 ∧ 1 < total * e.1 * (1 - e.1))
    (ht : truncated = true ∨ total = (pc.map Prod.snd).sum) :
    multinomialGof sp (pc.map fun e => XR.fin e.1) (pc.map Prod.snd) total truncated =
      .ok (some (sp.sf (XR.fin (pc.map fun e => Spec.scaledDeviation total e.1 e.2).sum)
        (if truncated then pc.length else pc.length - 1))) :=
  multinomialGof_eq sp pc total truncated hp ht

/-- The chi-squared distribution with `m` degrees of freedom has mean `m`. -/
theorem chisq_mean {m : ℝ} (hm : 0 < m) :
    ∫⁻ x, ENNReal.ofReal x ∂gammaMeasure (m / 2) (1 / 2) = ENNReal.ofReal m := by
  have h := gamma_moment (a := m / 2) (r := 1 / 2) (k := 1) (t := 0) (by positivity)
    (by positivity) (by positivity) (by norm_num)
  simp only [Real.rpow_one, zero_mul, neg_zero, Real.exp_zero, mul_one, add_zero] at h
  rw [h]
  congr 1
  have hg := Real.Gamma_pos_of_pos (show 0 < m / 2 by positivity)
  have h2 : (0 : ℝ) < (1 / 2) ^ (m / 2) := by positivity
  rw [Real.Gamma_add_one (by positivity), Real.rpow_neg (by positivity),
    Real.rpow_add (by positivity), Real.rpow_one]
  field_simp

/-- **C73, what is missing of it.**  Handed the counts of `n` draws from the very distribution
tested against, the test refers to the chi-squared distribution with `k - 1` degrees of freedom a
statistic whose expectation is `k`.  Pearson's statistic, which the documentation names, has
expectation `k - 1`. -/
theorem C73_untruncated_fails (sp : Scipy XR) {k n : ℕ} (hk : 2 ≤ k) (p : Fin k → ℝ)
    (hp : ∑ j, p j = 1) (h0 : ∀ j, 0 < p j) (hv : ∀ j, 1 < n * p j * (1 - p j)) :
    (∀ x : Fin n → Fin k,
      multinomialGof sp (List.ofFn fun j => XR.fin (p j))
          (List.ofFn fun j => (Spec.occurrences x j : ℤ)) n false =
        .ok (some (sp.sf (XR.fin (∑ j, Spec.scaledDeviation n (p j) (Spec.occurrences x j)))
          (k - 1)))) ∧
    Spec.drawsMean p n (fun x => ∑ j, Spec.scaledDeviation n (p j) (Spec.occurrences x j)) = k ∧
    Spec.drawsMean p n (fun x => ∑ j, Spec.pearsonTerm n (p j) (Spec.occurrences x j)) = k - 1 ∧
    ∫⁻ x, ENNReal.ofReal x ∂gammaMeasure (((k : ℝ) - 1) / 2) (1 / 2) =
      ENNReal.ofReal (k - 1) := by
  have hk' : (2 : ℝ) ≤ k := by exact_mod_cast hk
  have hn : 0 < n := by
    rcases Nat.eq_zero_or_pos n with rfl | h
    · have := hv ⟨0, by omega⟩
      norm_num at this
    · exact h
  have hn' : (0 : ℝ) < n := by exact_mod_cast hn
  have h1 : ∀ j, p j < 1 := by
    intro j
    have h2 := hv j
    have h3 : 0 < n * p j := mul_pos hn' (h0 j)
    by_contra hc
    have : 1 - p j ≤ 0 := by linarith
    have := mul_nonpos_of_nonneg_of_nonpos h3.le this
    linarith
  refine ⟨fun x => ?_, ?_, ?_, chisq_mean (by linarith)⟩
  · have h := multinomialGof_eq sp (List.ofFn fun j => (p j, (Spec.occurrences x j : ℤ))) n false
      (by
        intro e he
        obtain ⟨j, rfl⟩ := List.mem_ofFn.1 he
        exact ⟨h0 j, h1 j, by push_cast; exact hv j⟩) (by
        right
        rw [List.map_ofFn, List.sum_ofFn]
        have := Spec.sum_occurrences x
        simp only [Function.comp_def]
        exact_mod_cast this.symm)
    simp only [List.map_ofFn, Function.comp_def, List.sum_ofFn, List.length_ofFn] at h
    simpa using h
  · rw [Spec.drawsMean_sum]
    simp [fun j => Spec.drawsMean_scaled hp j (h0 j) (h1 j) hn]
  · rw [Spec.drawsMean_sum]
    simp only [fun j => Spec.drawsMean_pearson hp j (h0 j) hn]
    simp [Finset.sum_sub_distrib, hp]

/-- With two categories the test doubles Pearson's statistic, whatever the counts. -/
theorem C73_two_categories_fails (sp : Scipy XR) (p : ℝ) (c n : ℤ) (h0 : 0 < p) (h1 : p < 1)
    (hv : 1 < n * p * (1 - p)) :
    multinomialGof sp [XR.fin p, XR.fin (1 - p)] [c, n - c] n false =
      .ok (some (sp.sf (XR.fin
        (2 * (Spec.pearsonTerm n p c + Spec.pearsonTerm n (1 - p) (n - c)))) 1)) := by
  have h := multinomialGof_eq sp [(p, c), (1 - p, n - c)] n false (by
    intro e he
    simp only [List.mem_cons, List.not_mem_nil, or_false] at he
    rcases he with rfl | rfl
    · exact ⟨h0, h1, hv⟩
    · refine ⟨by linarith, by linarith, ?_⟩
      have e : (n : ℝ) * (1 - p) * (1 - (1 - p)) = n * p * (1 - p) := by ring
      simp only [e]; exact hv) (by right; simp)
  simp only [List.map_cons, List.map_nil, List.sum_cons, List.sum_nil, List.length_cons,
    List.length_nil, add_zero, Bool.false_eq_true, if_false] at h
  rw [h]
  have hq : 0 < 1 - p := by linarith
  have hn : (0 : ℝ) < n := by
    by_contra hc
    have h2 : (n : ℝ) * (p * (1 - p)) ≤ 0 :=
      mul_nonpos_of_nonpos_of_nonneg (not_lt.1 hc) (by positivity)
    linarith [mul_assoc (n : ℝ) p (1 - p)]
  congr 4
  rw [Spec.scaledDeviation, Spec.scaledDeviation, Spec.pearsonTerm, Spec.pearsonTerm]
  push_cast
  have e : (1 : ℝ) - (1 - p) = p := by ring
  rw [e]
  field_simp
  ring

/-- **C73 for truncated data.**  Testing any list `js` of the categories, the statistic has the mean
of the chi-squared distribution it is referred to. -/
theorem C73_truncated_partial (sp : Scipy XR) {k n : ℕ} (p : Fin k → ℝ) (hp : ∑ j, p j = 1)
    (js : List (Fin k)) (hj : js ≠ []) (h0 : ∀ j ∈ js, 0 < p j)
    (hv : ∀ j ∈ js, 1 < n * p j * (1 - p j)) :
    (∀ x : Fin n → Fin k,
      multinomialGof sp (js.map fun j => XR.fin (p j))
          (js.map fun j => (Spec.occurrences x j : ℤ)) n true =
        .ok (some (sp.sf (XR.fin
          (js.map fun j => Spec.scaledDeviation n (p j) (Spec.occurrences x j)).sum)
          js.length))) ∧
    Spec.drawsMean p n
      (fun x => (js.map fun j => Spec.scaledDeviation n (p j) (Spec.occurrences x j)).sum) =
        js.length ∧
    ∫⁻ x, ENNReal.ofReal x ∂gammaMeasure ((js.length : ℝ) / 2) (1 / 2) =
      ENNReal.ofReal js.length := by
  have hn : 0 < n := by
    rcases Nat.eq_zero_or_pos n with rfl | h
    · obtain ⟨j, hjm⟩ := List.exists_mem_of_ne_nil _ hj
      have := hv j hjm
      norm_num at this
    · exact h
  have hn' : (0 : ℝ) < n := by exact_mod_cast hn
  have h1 : ∀ j ∈ js, p j < 1 := by
    intro j hjm
    have h2 := hv j hjm
    have h3 : 0 < n * p j := mul_pos hn' (h0 j hjm)
    by_contra hc
    have : 1 - p j ≤ 0 := by linarith
    have := mul_nonpos_of_nonneg_of_nonpos h3.le this
    linarith
  refine ⟨fun x => ?_, ?_, chisq_mean (by
    have := List.length_pos_of_ne_nil hj; exact_mod_cast this)⟩
  · have h := multinomialGof_eq sp (js.map fun j => (p j, (Spec.occurrences x j : ℤ))) n true
      (by
        intro e he
        obtain ⟨j, hjm, rfl⟩ := List.mem_map.1 he
        exact ⟨h0 j hjm, h1 j hjm, by push_cast; exact hv j hjm⟩) (.inl rfl)
    simp only [List.map_map, Function.comp_def, List.length_map] at h
    simpa using h
  · rw [Spec.drawsMean_listSum js n _ (fun _ => 1) fun j hjm =>
      Spec.drawsMean_scaled hp j (h0 j hjm) (h1 j hjm) hn]
    simp

/-- Data with a category that has probability zero get an infinite p-value, though the hypothesis
tested is then false: whatever threshold the p-value has to exceed, it does. -/
theorem C73_impossible_fails (sp : Scipy XR) (pre post : List (ℝ × ℤ)) (c total : ℤ)
    (hp : ∀ e ∈ pre, 0 < e.1 ∧ e.1 < 1 ∧ 1 < total * e.1 * (1 - e.1)) (hc : 0 < c)
    (ht : total = ((pre ++ (0, c) :: post).map Prod.snd).sum) :
    multinomialGof sp ((pre ++ (0, c) :: post).map fun e => XR.fin e.1)
      ((pre ++ (0, c) :: post).map Prod.snd) total false = .ok none := by
  have hz : ((pre ++ (0, c) :: post).map fun e => XR.fin e.1).zip
      ((pre ++ (0, c) :: post).map Prod.snd) =
      (pre ++ (0, c) :: post).map fun e => (XR.fin e.1, e.2) := List.zip_map' ..
  have happ : ∀ (pre : List (ℝ × ℤ)) (chi : ℝ) (dof : ℤ),
      (∀ e ∈ pre, 0 < e.1 ∧ e.1 < 1 ∧ 1 < total * e.1 * (1 - e.1)) →
      gofLoop total ((pre ++ (0, c) :: post).map fun e => (XR.fin e.1, e.2)) (XR.fin chi) dof =
        .ok (.inl none) := by
    intro pre
    induction pre with
    | nil =>
      intro chi dof _
      have e0 : FloatOps.eqf (XR.fin 0) (FloatOps.ofInt 1) = false := by
        have := eqf_fin_false (a := 0) (b := 1) (by norm_num)
        simpa using this
      have e1 : FloatOps.lt (XR.fin 0) (FloatOps.ofInt 1) = true := by simp
      have e2 : FloatOps.lt (FloatOps.ofInt 0) (XR.fin 0) = false := by
        rw [XR.ofInt_eq, XR.lt_fin_false]; simp
      rw [List.nil_append, List.map_cons, gofLoop]
      simp only [e0, e1, e2, Bool.not_true, Bool.false_eq_true, if_false, hc, if_true]
    | cons e pre ih =>
      intro chi dof h
      obtain ⟨h0, h1, hv⟩ := h e (by simp)
      have e0 : FloatOps.eqf (XR.fin e.1) (FloatOps.ofInt 1) = false := by
        have := eqf_fin_false (b := 1) h1.ne
        simpa using this
      have e1 : FloatOps.lt (XR.fin e.1) (FloatOps.ofInt 1) = true := by simpa using h1
      have e2 : FloatOps.lt (FloatOps.ofInt 0) (XR.fin e.1) = true := by simpa using h0
      have e3 : FloatOps.lt (FloatOps.ofInt 1) (XR.fin (total * e.1 * (1 - e.1))) = true := by
        simpa using hv
      have ec : ∃ chi', (XR.fin chi + (FloatOps.ofInt e.2 - FloatOps.ofInt total * XR.fin e.1) *
          (FloatOps.ofInt e.2 - FloatOps.ofInt total * XR.fin e.1) /
            XR.fin (total * e.1 * (1 - e.1)) : XR) = XR.fin chi' := by
        simp only [XR.ofInt_eq, XR.fin_mul, XR.fin_sub]
        rw [XR.fin_div _ _ (by linarith), XR.fin_add]
        exact ⟨_, rfl⟩
      obtain ⟨chi', ec⟩ := ec
      have ev' : (FloatOps.ofInt total * XR.fin e.1 * (FloatOps.ofInt 1 - XR.fin e.1) : XR) =
          XR.fin (total * e.1 * (1 - e.1)) := by simp
      rw [List.cons_append, List.map_cons, gofLoop]
      simp only [e0, e1, e2, ev', e3, Bool.not_true, Bool.false_eq_true, if_false, if_true]
      rw [ec]
      exact ih _ _ fun e' he' => h e' (List.mem_cons_of_mem _ he')
  rw [multinomialGof]
  have h0 : (FloatOps.ofInt 0 : XR) = XR.fin 0 := by simp
  simp only [List.length_map, ne_eq, not_true_eq_false, if_false, hz, ← ht, decide_true,
    Bool.or_true, Bool.not_true, Bool.false_eq_true]
  rw [h0, happ pre 0 0 hp, Res.ok_bind]

/-- Samples of `[0, 1)`: every sample falls into one of `B` equal parts, and the counts of the parts
are tested against equal probabilities. -/
theorem C73_unif01 (sp : Scipy XR) (htr : ∀ r : ℝ, 0 ≤ r → sp.trunc (XR.fin r) = ⌊r⌋)
    (xs : List ℝ) (h : ∀ x ∈ xs, 0 ≤ x ∧ x < 1) {B : ℕ} (hBn : sp.cubeRoot xs.length = B)
    (hB : 7 ≤ B) (hv : 1 < (xs.length : ℝ) * (1 / B) * (1 - 1 / B)) :
    unif01Gof sp (xs.map XR.fin) = .ok (some (sp.sf (XR.fin (∑ b ∈ Finset.range B,
      Spec.scaledDeviation xs.length (1 / B) (Spec.inPart B xs b))) ((B : ℤ) - 1))) := by
  rw [unif01Gof_eq sp htr xs h hBn hB hv, listSum_range]
  simp only [inBin_eq (show 0 < B by omega), Int.cast_natCast]

/-- A sample equal to one passes the range check and has no part: the test raises. -/
theorem C73_unif01_one_fails (sp : Scipy XR)
    (htr : ∀ r : ℝ, 0 ≤ r → sp.trunc (XR.fin r) = ⌊r⌋) (xs : List ℝ)
    (h : ∀ x ∈ xs, 0 ≤ x ∧ x ≤ 1) (h1 : 1 ∈ xs) : unif01Gof sp (xs.map XR.fin) = .fail := by
  have hne : xs ≠ [] := by rintro rfl; simp at h1
  have a0 : (xs.map XR.fin).all (fun x => FloatOps.le (FloatOps.ofInt 0) x) = true := by
    simp only [List.all_eq_true, List.mem_map, forall_exists_index, and_imp]
    rintro _ x hx rfl
    simpa using (h x hx).1
  have a1 : (xs.map XR.fin).all (fun x => FloatOps.le x (FloatOps.ofInt 1)) = true := by
    simp only [List.all_eq_true, List.mem_map, forall_exists_index, and_imp]
    rintro _ x hx rfl
    simpa using (h x hx).2
  have hemp : (xs.map XR.fin).isEmpty = false := by simp [hne]
  rw [unif01Gof]
  simp only [hemp, a0, a1, Bool.not_true, Bool.false_eq_true, if_false]
  split_ifs with hB
  · rfl
  have hr : List.replicate (sp.cubeRoot (xs.map XR.fin).length) (0 : ℤ) =
      (List.range (sp.cubeRoot (xs.map XR.fin).length)).map fun _ => 0 := by
    simp [List.map_const']
  rw [hr, binLoop_fail sp htr (by omega) xs h h1]
  rfl

/-- Samples with their densities: the gaps between neighbouring samples, which `s` lists in order,
become numbers of `[0, 1)`, and these are tested.  The test never raises for want of a part, and
does not depend on the order of the samples. -/
theorem C73_density (sp : Scipy XR) (htr : ∀ r : ℝ, 0 ≤ r → sp.trunc (XR.fin r) = ⌊r⌋)
    {l s : List (ℝ × ℝ)} (hl : 100 < l.length) (hp : s.Perm l)
    (hs : s.Pairwise Spec.sampleOrder) (h0 : ∀ e ∈ l, 0 ≤ e.2) {B : ℕ}
    (hBn : sp.cubeRoot (l.length - 1) = B) (hB : 7 ≤ B)
    (hv : 1 < ((l.length : ℝ) - 1) * (1 / B) * (1 - 1 / B)) :
    densityGof sp (l.map fun e => XR.fin e.1) (l.map fun e => XR.fin e.2) =
      .ok (some (sp.sf (XR.fin (∑ b ∈ Finset.range B, Spec.scaledDeviation ((l.length : ℝ) - 1)
        (1 / B) (Spec.inPart B (Spec.gapScores l.length s) b))) ((B : ℤ) - 1))) := by
  have hlen : (Spec.gapScores l.length s).length = l.length - 1 := by
    rw [gapScores_length, hp.length_eq]
  have hc : ((l.length - 1 : ℕ) : ℝ) = (l.length : ℝ) - 1 := by
    rw [Nat.cast_sub (by omega)]; simp
  have h := C73_unif01 sp htr (Spec.gapScores l.length s)
    (gapScores_mem (by positivity) hs) (by rw [hlen]; exact hBn) hB (by rw [hlen, hc]; exact hv)
  rw [hlen, hc] at h
  rw [densityGof_eq sp hl hp hs h0, h]

/-- The test does not depend on the units: stretching and shifting the samples, with the densities
divided by the factor, changes nothing. -/
theorem C73_density_units (sp : Scipy XR) (l : List (ℝ × ℝ)) (h0 : ∀ e ∈ l, 0 ≤ e.2) {a : ℝ}
    (ha : 0 < a) (b : ℝ) :
    densityGof sp (l.map fun e => XR.fin (a * e.1 + b)) (l.map fun e => XR.fin (e.2 / a)) =
      densityGof sp (l.map fun e => XR.fin e.1) (l.map fun e => XR.fin e.2) := by
  by_cases hl : 100 < l.length
  · obtain ⟨s, hp, hs⟩ := exists_sorted_pairs l
    have hg := densityGof_eq sp hl hp hs h0
    have hg' := densityGof_eq sp (l := l.map fun e => (a * e.1 + b, e.2 / a))
      (s := s.map fun e => (a * e.1 + b, e.2 / a)) (by simpa using hl) (hp.map _) (by
        rw [List.pairwise_map]
        refine hs.imp fun {x y} h => ?_
        rcases h with h | ⟨h, h'⟩
        · left; simpa using mul_lt_mul_of_pos_left h ha
        · right; exact ⟨by simp [h], div_le_div_of_nonneg_right h' ha.le⟩) (by
        intro e he
        obtain ⟨x, hx, rfl⟩ := List.mem_map.1 he
        exact div_nonneg (h0 x hx) ha.le)
    simp only [List.map_map, Function.comp_def, List.length_map] at hg'
    rw [hg, hg']
    congr 2
    simp only [Spec.gapScores, ← List.map_tail, List.zipWith_map]
    congr 1
    funext x y
    congr 3
    have e : x.2 / a * (y.2 / a) = x.2 * y.2 / (a ^ 2) := by field_simp
    rw [e, Real.sqrt_div' _ (by positivity), Real.sqrt_sq ha.le]
    field_simp
    ring
  · simp [densityGof, hl]

/-- Discrete samples, all categories kept: the counts of the samples are tested, in whatever order
the dictionary lists its items. -/
theorem C73_discrete {α : Type} [DecidableEq α] (sp : Scipy XR) (samples : List α)
    (dict : List (α × ℝ)) (hk : (dict.map Prod.fst).Nodup) (T : ℕ) (hT : T = 0 ∨ dict.length ≤ T)
    (hs : 100 < samples.length) (hm : ∀ x ∈ samples, x ∈ dict.map Prod.fst)
    (hp : ∀ e ∈ dict, 0 < e.2 ∧ e.2 < 1 ∧ 1 < samples.length * e.2 * (1 - e.2)) :
    discreteGof sp samples (dict.map fun e => (e.1, XR.fin e.2)) T =
      .ok (some (sp.sf (XR.fin (dict.map fun e =>
        Spec.scaledDeviation samples.length e.2 (samples.count e.1)).sum)
          ((dict.length : ℤ) - 1))) := by
  obtain ⟨s, hperm, ho⟩ := exists_sorted_items (dict.map fun e => (e.2, (samples.count e.1 : ℤ)))
  rw [discreteGof_items sp samples dict T hs hm hperm ho]
  have hc : ¬ (T ≠ 0 ∧ T < dict.length) := by rintro ⟨h1, h2⟩; rcases hT with h | h <;> omega
  simp only [decide_eq_false hc, Bool.false_eq_true, if_false]
  rw [multinomialGof_eq sp s samples.length false]
  · simp only [Bool.false_eq_true, if_false]
    have e1 := (hperm.map fun e => Spec.scaledDeviation ((samples.length : ℤ) : ℝ) e.1 e.2).sum_eq
    rw [e1, hperm.length_eq]
    simp [List.map_map, Function.comp_def]
  · intro e he
    obtain ⟨d, hd, rfl⟩ := List.mem_map.1 (hperm.subset he)
    simpa using hp d hd
  · right
    rw [(hperm.map Prod.snd).sum_eq]
    have := sum_count_keys samples (dict.map Prod.fst) hk hm
    rw [List.map_map] at this ⊢
    exact this.symm

/-- Discrete samples, with more than `T` categories: `T` of them of greatest probability are
tested. -/
theorem C73_discrete_truncated {α : Type} [DecidableEq α] (sp : Scipy XR) (samples : List α)
    (dict : List (α × ℝ)) (T : ℕ) (hT : 0 < T) (hT' : T < dict.length)
    (hs : 100 < samples.length) (hm : ∀ x ∈ samples, x ∈ dict.map Prod.fst)
    (hp : ∀ e ∈ dict, 0 < e.2 ∧ e.2 < 1 ∧ 1 < samples.length * e.2 * (1 - e.2)) :
    ∃ kept dropped : List (ℝ × ℤ),
      (kept ++ dropped).Perm (dict.map fun e => (e.2, (samples.count e.1 : ℤ))) ∧
      kept.length = T ∧ (∀ e ∈ kept, ∀ e' ∈ dropped, e'.1 ≤ e.1) ∧
      discreteGof sp samples (dict.map fun e => (e.1, XR.fin e.2)) T =
        .ok (some (sp.sf (XR.fin (kept.map fun e =>
          Spec.scaledDeviation samples.length e.1 e.2).sum) T)) := by
  obtain ⟨s, hperm, ho⟩ := exists_sorted_items (dict.map fun e => (e.2, (samples.count e.1 : ℤ)))
  have hsl : s.length = dict.length := by rw [hperm.length_eq, List.length_map]
  have hkl : (s.take T).length = T := by rw [List.length_take]; omega
  refine ⟨s.take T, s.drop T, by rwa [List.take_append_drop], hkl, ?_, ?_⟩
  · intro e he e' he'
    have h : (s.take T ++ s.drop T).Pairwise fun a b => b.1 < a.1 ∨ a.1 = b.1 ∧ b.2 ≤ a.2 := by
      rwa [List.take_append_drop]
    rcases (List.pairwise_append.1 h).2.2 e he e' he' with h | h
    · exact h.le
    · exact h.1.ge
  · rw [discreteGof_items sp samples dict T hs hm hperm ho]
    have hc : T ≠ 0 ∧ T < dict.length := ⟨by omega, hT'⟩
    simp only [decide_eq_true hc, if_true]
    rw [multinomialGof_eq sp (s.take T) samples.length true]
    · simp only [if_true, hkl]
      simp
    · intro e he
      obtain ⟨d, hd, rfl⟩ := List.mem_map.1 (hperm.subset (List.mem_of_mem_take he))
      simpa using hp d hd
    · exact .inl rfl

/-- The Kullback-Leibler divergence from the empirical distribution, uniform over the `n` data, to
the model which gives them the probabilities `q`. -/
theorem C73_empirical_kl {n : ℕ} (hn : 0 < n) (q : Fin n → ℝ) (hq : ∀ i, 0 < q i) :
    scoreToEmpiricalKl (XR.fin (∑ i, Real.log (q i))) n =
      XR.fin (∑ i, 1 / (n : ℝ) * Real.log (1 / n / q i)) := by
  have hn' : (0 : ℝ) < n := by exact_mod_cast hn
  rw [scoreToEmpiricalKl]
  simp only [XR.ofInt_eq, XR.fin_neg, Int.cast_natCast]
  rw [XR.fin_div _ _ hn'.ne', XR.log_fin hn', XR.fin_sub, XR.fin_inj]
  have : ∀ i, 1 / (n : ℝ) * Real.log (1 / n / q i) =
      -(1 / n * Real.log (q i)) - 1 / n * Real.log n := by
    intro i
    rw [Real.log_div (by positivity) (hq i).ne', Real.log_div one_ne_zero hn'.ne', Real.log_one]
    ring
  simp only [this, Finset.sum_sub_distrib, Finset.sum_neg_distrib, ← Finset.mul_sum]
  simp
  field_simp

/-! ## Cases -/

/-- A `Scipy` with exact truncation. -/
noncomputable def exactScipy : Scipy XR where
  sf x _ := x
  trunc x := match x with
    | .fin r => ⌊r⌋
    | .nan => 0
  cubeRoot _ := 7

/-- Two fair categories, one hundred draws: the mean of the statistic is two, of the reference
distribution one. -/
example : Spec.drawsMean (fun _ : Fin 2 => (1 / 2 : ℝ)) 100 (fun x => ∑ j,
    Spec.scaledDeviation 100 (1 / 2) (Spec.occurrences x j)) = 2 := by
  have h := (C73_untruncated_fails exactScipy (k := 2) (n := 100) le_rfl (fun _ => 1 / 2)
    (by norm_num) (by intro; norm_num) (by intro; norm_num)).2.1
  simpa using h

/-- Sixty heads in a hundred tosses: Pearson's statistic is 4, the test takes 8. -/
example : multinomialGof exactScipy [XR.fin (1 / 2), XR.fin (1 - 1 / 2)] [60, 100 - 60] 100 false =
    .ok (some (XR.fin 8)) := by
  rw [C73_two_categories_fails exactScipy (1 / 2) 60 100 (by norm_num) (by norm_num)
    (by norm_num)]
  simp only [exactScipy, Spec.pearsonTerm]
  norm_num

/-- Ninety-nine draws of a category that cannot occur. -/
example : multinomialGof exactScipy [XR.fin (1 / 2), XR.fin 0, XR.fin (1 / 2)] [1, 99, 0] 100
    false = .ok none := by
  have h := C73_impossible_fails exactScipy [(1 / 2, 1)] [(1 / 2, 0)] 99 100
    (by simp; norm_num) (by norm_num) (by norm_num)
  simpa using h

/-- One category of three, with three hundred draws. -/
example : Spec.drawsMean (fun _ : Fin 3 => (1 / 3 : ℝ)) 300 (fun x =>
    ([(0 : Fin 3)].map fun j => Spec.scaledDeviation 300 (1 / 3) (Spec.occurrences x j)).sum) =
      1 := by
  have h := (C73_truncated_partial exactScipy (k := 3) (n := 300) (fun _ => 1 / 3)
    (by norm_num) [0] (by simp) (by intro _ _; norm_num) (by intro _ _; norm_num)).2.1
  simpa using h

/-- Four hundred evenly spaced samples, and one of them moved to one. -/
example : ∃ r, unif01Gof exactScipy
    (((List.range 400).map fun i : ℕ => (i : ℝ) / 400).map XR.fin) = .ok (some r) :=
  ⟨_, C73_unif01 exactScipy (fun _ _ => rfl) ((List.range 400).map fun i : ℕ => (i : ℝ) / 400) (by
    intro x hx
    obtain ⟨i, hi, rfl⟩ := List.mem_map.1 hx
    have : (i : ℝ) < 400 := by exact_mod_cast List.mem_range.1 hi
    exact ⟨by positivity, by rw [div_lt_one (by norm_num)]; exact this⟩) (B := 7) rfl le_rfl (by
    rw [List.length_map, List.length_range]; norm_num)⟩

example : unif01Gof exactScipy
    ((1 :: (List.range 400).map fun i : ℕ => (i : ℝ) / 400).map XR.fin) = .fail :=
  C73_unif01_one_fails exactScipy (fun _ _ => rfl) _ (by
    intro x hx
    rcases List.mem_cons.1 hx with rfl | hx
    · norm_num
    obtain ⟨i, hi, rfl⟩ := List.mem_map.1 hx
    have : (i : ℝ) < 400 := by exact_mod_cast List.mem_range.1 hi
    exact ⟨by positivity, by rw [div_le_one (by norm_num)]; exact this.le⟩) (by simp)

/-- Four hundred samples at the whole numbers, with density one. -/
example : ∃ r, densityGof exactScipy
    (((List.range 400).map fun i : ℕ => ((i : ℝ), (1 : ℝ))).map fun e => XR.fin e.1)
    (((List.range 400).map fun i : ℕ => ((i : ℝ), (1 : ℝ))).map fun e => XR.fin e.2) =
      .ok (some r) :=
  ⟨_, C73_density exactScipy (fun _ _ => rfl) (by
    rw [List.length_map, List.length_range]; norm_num) (List.Perm.refl _) (by
    rw [List.pairwise_map]
    exact List.pairwise_lt_range.imp fun h => Or.inl ((Nat.cast_lt (α := ℝ)).2 h)) (by
    intro e he
    obtain ⟨i, _, rfl⟩ := List.mem_map.1 he
    norm_num) (B := 7) rfl le_rfl (by
    rw [List.length_map, List.length_range]; norm_num)⟩

/-- Two hundred tosses. -/
def tosses : List Bool := List.replicate 110 true ++ List.replicate 90 false

theorem tosses_length : tosses.length = 200 := by
  rw [tosses, List.length_append, List.length_replicate, List.length_replicate]

/-- A fair coin. -/
noncomputable def coin : List (Bool × ℝ) := [(true, 1 / 2), (false, 1 / 2)]

theorem coin_mem (x : Bool) : x ∈ coin.map Prod.fst := by cases x <;> simp [coin]

theorem coin_var : ∀ e ∈ coin, 0 < e.2 ∧ e.2 < 1 ∧ 1 < tosses.length * e.2 * (1 - e.2) := by
  intro e he
  rw [tosses_length]
  simp only [coin, List.mem_cons, List.not_mem_nil, or_false] at he
  rcases he with rfl | rfl <;> norm_num

example : ∃ r, discreteGof exactScipy tosses (coin.map fun e => (e.1, XR.fin e.2)) 8 =
    .ok (some r) :=
  ⟨_, C73_discrete exactScipy _ _ (by simp [coin]) 8 (by simp [coin])
    (by rw [tosses_length]; norm_num) (fun x _ => coin_mem x) coin_var⟩

example : ∃ kept : List (ℝ × ℤ), kept.length = 1 ∧
    discreteGof exactScipy tosses (coin.map fun e => (e.1, XR.fin e.2)) 1 =
      .ok (some (XR.fin (kept.map fun e => Spec.scaledDeviation 200 e.1 e.2).sum)) := by
  obtain ⟨kept, _, _, h, _, h'⟩ := C73_discrete_truncated exactScipy tosses coin 1
    (by norm_num) (by simp [coin]) (by rw [tosses_length]; norm_num) (fun x _ => coin_mem x)
    coin_var
  refine ⟨kept, h, ?_⟩
  rw [h', tosses_length]
  rfl

end Dist.Props
