import Verif.Lemmas.Sampling
import Verif.Props.VectorMath

/-! # Sampling: properties C42–C45 -/

namespace Dist

open Spec FloatOps FloatNotation MeasureTheory

/-! ## C42 -/

/-- **C42, range.** For every float type, any weights and every draw, `sample_discrete`
returns a valid index after exactly one uniform draw. -/
theorem C42_index {F σ : Type} [FloatOps F] (rng : Rng F σ) (s : σ) (probs : List F)
    (h : probs ≠ []) :
    ∃ i, sampleDiscrete rng s probs = .ok (i, (rng.unif01 s).2) ∧ i < probs.length := by
  have hl : 0 < probs.length := List.length_pos_iff.mpr h
  refine ⟨_, ?_, discreteLoop_lt probs.length probs.dropLast 0 (rng.unif01 s).1 ?_⟩
  · rw [sampleDiscrete, distAssert0_of hl, Res.ok_bind]; rfl
  · simp; omega

/-- **C42.** For nonnegative weights summing to 1 and a draw `u` in `[0, 1)`,
`sample_discrete` returns `i` exactly if `u` lies in the `i`-th cumulative interval. -/
theorem C42 {σ : Type} (rng : Rng XR σ) (s s' : σ) (p : List ℝ) (u : ℝ)
    (hp : ∀ x ∈ p, 0 ≤ x) (hsum : p.sum = 1) (hu : Draws rng s (XR.fin u) s') (h0 : 0 ≤ u)
    (h1 : u < 1) (i : Nat) :
    sampleDiscrete rng s (p.map XR.fin) = .ok (i, s') ↔
      i < p.length ∧ cum p i ≤ u ∧ u < cum p (i + 1) := by
  have hne : p ≠ [] := by rintro rfl; simp at hsum
  have hl : 0 < p.length := List.length_pos_iff.mpr hne
  have e : sampleDiscrete rng s (p.map XR.fin) =
      .ok (discreteLoop (p.length - 1) (p.dropLast.map XR.fin) 0 (XR.fin u), s') := by
    rw [sampleDiscrete, distAssert0_of (by simpa using hl), Res.ok_bind, hu]
    simp [List.map_dropLast]
  rw [e]
  have key : ∃ j < p.length, discreteLoop (p.length - 1) (p.dropLast.map XR.fin) 0 (XR.fin u) = j ∧
      cum p j ≤ u ∧ u < cum p (j + 1) := by
    have hcum : ∀ j ≤ p.length - 1, cum p.dropLast j = cum p j := by
      intro j hj
      rw [cum, cum, List.dropLast_eq_take, List.take_take, min_eq_left hj]
    rcases discreteLoop_spec (p.length - 1) p.dropLast 0 u h0 with ⟨j, hj, e, a, b⟩ | ⟨e, a⟩
    · rw [List.length_dropLast] at hj
      rw [hcum j (by omega)] at a
      rw [hcum (j + 1) (by omega)] at b
      exact ⟨j, by omega, by rw [e, Nat.zero_add], a, b⟩
    · refine ⟨p.length - 1, by omega, e, ?_, ?_⟩
      · rw [← hcum _ (le_refl _)]
        have := cum_length p.dropLast
        rw [List.length_dropLast] at this
        rw [this]; exact a
      · rw [Nat.sub_add_cancel hl, cum_length, hsum]; exact h1
  obtain ⟨j, hj, ej, a, b⟩ := key
  rw [ej]
  simp only [Res.ok.injEq, Prod.mk.injEq, and_true]
  constructor
  · rintro rfl; exact ⟨hj, a, b⟩
  · rintro ⟨_, a', b'⟩
    by_contra hne
    rcases Nat.lt_or_gt_of_ne hne with h | h
    · have := cum_mono hp (show j + 1 ≤ i by omega); linarith
    · have := cum_mono hp (show i + 1 ≤ j by omega); linarith

/-- **C42, probability.** The set of draws in `[0, 1)` on which `sample_discrete` returns
`i` has Lebesgue measure `p_i`. -/
theorem C42_probability {σ : Type} (rng : ℝ → Rng XR σ) (s s' : σ) (p : List ℝ)
    (hp : ∀ x ∈ p, 0 ≤ x) (hsum : p.sum = 1) (hu : ∀ u, Draws (rng u) s (XR.fin u) s') (i : Nat)
    (hi : i < p.length) :
    volume {u : ℝ | 0 ≤ u ∧ u < 1 ∧ sampleDiscrete (rng u) s (p.map XR.fin) = .ok (i, s')} =
      ENNReal.ofReal p[i] := by
  have hset : {u : ℝ | 0 ≤ u ∧ u < 1 ∧ sampleDiscrete (rng u) s (p.map XR.fin) = .ok (i, s')} =
      Set.Ico (cum p i) (cum p (i + 1)) := by
    ext u
    simp only [Set.mem_setOf_eq, Set.mem_Ico]
    constructor
    · rintro ⟨h0, h1, h⟩
      exact ((C42 (rng u) s s' p u hp hsum (hu u) h0 h1 i).mp h).2
    · rintro ⟨a, b⟩
      have h0 : 0 ≤ u := by
        have := cum_mono hp (Nat.zero_le i); rw [cum_zero] at this; linarith
      have h1 : u < 1 := by
        have := cum_mono hp (show i + 1 ≤ p.length by omega)
        rw [cum_length, hsum] at this; linarith
      exact ⟨h0, h1, (C42 (rng u) s s' p u hp hsum (hu u) h0 h1 i).mpr ⟨hi, a, b⟩⟩
  rw [hset, Real.volume_Ico, cum_succ hi]
  congr 1; ring

/-- Non-triviality: with weights 1/2, 1/3, 1/6 and the draw 3/4 the index is 1. -/
example (rng : Rng XR Unit) (hu : Draws rng () (XR.fin (3 / 4)) ()) :
    sampleDiscrete rng () (([1 / 2, 1 / 3, 1 / 6] : List ℝ).map XR.fin) = .ok (1, ()) := by
  refine (C42 rng () () _ _ ?_ (by norm_num) hu (by norm_num) (by norm_num) 1).mpr ?_
  · intro x hx
    simp only [List.mem_cons, List.not_mem_nil, or_false] at hx
    rcases hx with rfl | rfl | rfl <;> norm_num
  · refine ⟨by simp, ?_, ?_⟩ <;> norm_num [cum]

/-! ## C43 -/

/-- **C43, selection.** For nonnegative likelihoods with any total and a draw `u` in
`[0, 1)`, `sample_from_likelihoods` returns the first index whose cumulative likelihood
reaches `total * u`. -/
theorem C43_select {σ : Type} (rng : Rng XR σ) (s s' : σ) (l : List ℝ) (u : ℝ) (hne : l ≠ [])
    (hl : ∀ x ∈ l, 0 ≤ x) (hu : Draws rng s (XR.fin u) s') (h1 : u < 1) (i : Nat) :
    sampleFromLikelihoods rng s (l.map XR.fin) (XR.fin l.sum) = .ok (i, s') ↔
      i < l.length ∧ l.sum * u ≤ cum l (i + 1) ∧ (i = 0 ∨ cum l i < l.sum * u) := by
  have hlen : 0 < l.length := List.length_pos_iff.mpr hne
  have hs : 0 ≤ l.sum := List.sum_nonneg hl
  have e : sampleFromLikelihoods rng s (l.map XR.fin) (XR.fin l.sum) =
      .ok (likelihoodLoop l.length (l.map XR.fin) 0 (XR.fin (l.sum * u)), s') := by
    rw [sampleFromLikelihoods, distAssert0_of (by simpa using hlen), Res.ok_bind, hu]
    simp
  obtain ⟨j, hj, ej, a, b⟩ := likelihoodLoop_spec l.length l 0 (l.sum * u) (by nlinarith) hne
  rw [e, ej, Nat.zero_add]
  simp only [Res.ok.injEq, Prod.mk.injEq, and_true]
  constructor
  · rintro rfl; exact ⟨hj, a, b⟩
  · rintro ⟨_, a', b'⟩
    by_contra hne
    rcases Nat.lt_or_gt_of_ne hne with h | h
    · have := cum_mono hl (show j + 1 ≤ i by omega)
      rcases b' with rfl | b'
      · omega
      · linarith
    · have := cum_mono hl (show i + 1 ≤ j by omega)
      rcases b with rfl | b
      · omega
      · linarith

/-- **C43, range.** For every float type, every nonempty vector, any total and every draw
the returned index is in range and one uniform draw is consumed. -/
theorem C43_index {F σ : Type} [FloatOps F] (rng : Rng F σ) (s : σ) (l : List F) (total : F)
    (h : l ≠ []) :
    ∃ i, sampleFromLikelihoods rng s l total = .ok (i, (rng.unif01 s).2) ∧ i < l.length := by
  have hl : 0 < l.length := List.length_pos_iff.mpr h
  have : ∀ (ls : List F) (i : Nat) (t : F), i + ls.length ≤ l.length →
      likelihoodLoop l.length ls i t < l.length := by
    intro ls
    induction ls with
    | nil => intro i t _; simp only [likelihoodLoop]; omega
    | cons x ls ih =>
      intro i t hi
      simp only [likelihoodLoop]
      simp only [List.length_cons] at hi
      split_ifs
      · omega
      · exact ih (i + 1) _ (by omega)
  refine ⟨_, ?_, this l 0 (total * (rng.unif01 s).1) (by omega)⟩
  rw [sampleFromLikelihoods, distAssert0_of hl, Res.ok_bind]; rfl

/-- **C43, probability.** If some likelihood is positive, the set of draws in `[0, 1)`
selecting `i` has measure `l_i / total`. -/
theorem C43_probability {σ : Type} (rng : ℝ → Rng XR σ) (s s' : σ) (l : List ℝ)
    (hl : ∀ x ∈ l, 0 ≤ x) (hpos : 0 < l.sum) (hu : ∀ u, Draws (rng u) s (XR.fin u) s') (i : Nat)
    (hi : i < l.length) :
    volume {u : ℝ | 0 ≤ u ∧ u < 1 ∧
      sampleFromLikelihoods (rng u) s (l.map XR.fin) (XR.fin l.sum) = .ok (i, s')} =
      ENNReal.ofReal (l[i] / l.sum) := by
  have hne : l ≠ [] := by rintro rfl; simp at hi
  have hb : cum l (i + 1) ≤ l.sum := by
    rw [← cum_length l]; exact cum_mono hl (by omega)
  have ha : 0 ≤ cum l i := by have := cum_mono hl (Nat.zero_le i); rwa [cum_zero] at this
  have : l[i] / l.sum = cum l (i + 1) / l.sum - cum l i / l.sum := by
    rw [cum_succ hi]; ring
  rw [this]
  apply volume_of_between
  · rintro u ⟨h1, h2⟩
    rw [div_lt_iff₀ hpos] at h1
    rw [lt_div_iff₀ hpos] at h2
    have hu0 : 0 ≤ u := by by_contra h; nlinarith
    have hu1 : u < 1 := by by_contra h; nlinarith
    refine ⟨hu0, hu1, ?_⟩
    rw [C43_select (rng u) s s' l u hne hl (hu u) hu1]
    exact ⟨hi, by linarith, .inr (by linarith)⟩
  · rintro u ⟨h0, h1, h⟩
    rw [C43_select (rng u) s s' l u hne hl (hu u) h1] at h
    obtain ⟨_, h2, h3⟩ := h
    rw [Set.mem_Icc, div_le_iff₀ hpos, le_div_iff₀ hpos]
    refine ⟨?_, by linarith⟩
    rcases h3 with rfl | h3
    · rw [cum_zero]; positivity
    · linarith

/-- **C43, what holds.** Valid index; and, if some likelihood is positive and the draw is
not exactly 0, the returned index has positive likelihood.

Full statement: an index of zero likelihood is never returned when some likelihood is
positive.  Missing: it is false for the draw `u = 0` (`C43_zero_draw`). -/
theorem C43_partial {σ : Type} (rng : Rng XR σ) (s s' : σ) (l : List ℝ) (u : ℝ)
    (hl : ∀ x ∈ l, 0 ≤ x) (hpos : ∃ x ∈ l, 0 < x) (hu : Draws rng s (XR.fin u) s') (h0 : 0 < u)
    (h1 : u < 1) :
    ∃ (i : Nat) (hi : i < l.length),
      sampleFromLikelihoods rng s (l.map XR.fin) (XR.fin l.sum) = .ok (i, s') ∧ 0 < l[i] := by
  obtain ⟨x, hx, hxp⟩ := hpos
  have hne : l ≠ [] := by rintro rfl; simp at hx
  have hs : 0 < l.sum := lt_of_lt_of_le hxp (List.single_le_sum hl x hx)
  obtain ⟨i, e, hi⟩ := C43_index rng s (l.map XR.fin) (XR.fin l.sum) (by simpa using hne)
  rw [show (rng.unif01 s).2 = s' by rw [hu]] at e
  have hi' : i < l.length := by simpa using hi
  obtain ⟨_, h2, h3⟩ := (C43_select rng s s' l u hne hl hu h1 i).mp e
  refine ⟨i, hi', e, ?_⟩
  rw [cum_succ hi'] at h2
  have : 0 < l.sum * u := by positivity
  rcases h3 with rfl | h3
  · rw [cum_zero] at h2; linarith
  · linarith

/-- **C43, finding.** The draw `u = 0` always selects index 0, even if its likelihood is 0
and another is positive (the comparison is `t <= 0`). -/
theorem C43_zero_draw {σ : Type} (rng : Rng XR σ) (s s' : σ) (hu : Draws rng s (XR.fin 0) s') :
    sampleFromLikelihoods rng s (([0, 1] : List ℝ).map XR.fin) (XR.fin 1) = .ok (0, s') := by
  have := (C43_select rng s s' [0, 1] 0 (by simp) (by
    intro x hx
    simp only [List.mem_cons, List.not_mem_nil, or_false] at hx
    rcases hx with rfl | rfl <;> norm_num) hu (by norm_num) 0).mpr ⟨by simp, by simp [cum], .inl rfl⟩
  simpa using this

/-- Non-triviality: likelihoods 1, 0, 3 with the draw 1/2 select index 2. -/
example (rng : Rng XR Unit) (hu : Draws rng () (XR.fin (1 / 2)) ()) :
    sampleFromLikelihoods rng () (([1, 0, 3] : List ℝ).map XR.fin) (XR.fin ([1, 0, 3] : List ℝ).sum) =
      .ok (2, ()) := by
  refine (C43_select rng () () _ _ (by simp) ?_ hu (by norm_num) 2).mpr ?_
  · intro x hx
    simp only [List.mem_cons, List.not_mem_nil, or_false] at hx
    rcases hx with rfl | rfl | rfl <;> norm_num
  · refine ⟨by simp, ?_, .inr ?_⟩ <;> norm_num [cum]

/-! ## C44 -/

section c44
variable {σ : Type}

/-- The maximum found by the code, for a nonempty vector. -/
theorem scores_max (x : List ℝ) (hne : x ≠ []) :
    ∃ m : ℝ, VectorMath.max (x.map XR.fin).length (x.map XR.fin) = .ok (XR.fin m) := by
  obtain ⟨_, _, m, _, _, _, e⟩ := C52_min_max x [] hne
  exact ⟨m, by simpa using e⟩

theorem sum_exp_shift (x : List ℝ) (m : ℝ) :
    (x.map fun y => Real.exp (y - m)).sum = (x.map Real.exp).sum / Real.exp m := by
  induction x with
  | nil => simp
  | cons y ys ih => rw [List.map_cons, List.sum_cons, ih, List.map_cons, List.sum_cons, Real.exp_sub, add_div]

theorem sum_exp_pos {x : List ℝ} (hne : x ≠ []) : 0 < (x.map Real.exp).sum := by
  obtain ⟨y, ys, rfl⟩ := List.exists_cons_of_ne_nil hne
  rw [List.map_cons, List.sum_cons]
  have : 0 ≤ (ys.map Real.exp).sum := List.sum_nonneg (by
    intro z hz; obtain ⟨w, _, rfl⟩ := List.mem_map.mp hz; exact (Real.exp_pos w).le)
  linarith [Real.exp_pos y]

theorem scoresToLikelihoods_exact (x : List ℝ) (hne : x ≠ []) :
    ∃ m : ℝ, scoresToLikelihoods (x.map XR.fin) =
      .ok ((x.map fun y => Real.exp (y - m)).map XR.fin,
        XR.fin (x.map fun y => Real.exp (y - m)).sum) := by
  obtain ⟨m, hm⟩ := scores_max x hne
  refine ⟨m, ?_⟩
  rw [scoresToLikelihoods, hm, Res.ok_bind]
  have := forLoop_both (F := XR) (fun i (p : List XR × XR) => do
    let x ← getAt p.1 i
    let e := exp (x - XR.fin m)
    let xs ← setAt p.1 i e
    return (xs, p.2 + e)) (fun z => exp (z - XR.fin m)) (fun z => exp (z - XR.fin m))
    (by
      intro k io t z hz
      simp only
      rw [getAt_eq_ok.mpr hz, Res.ok_bind, setAt_of_getElem? hz]; rfl) (x.map XR.fin) [] (ofInt 0)
  simp only [List.length_nil, List.nil_append] at this
  rw [this, map_fin_comp (fun y => Real.exp (y - m)) x _ (by simp), XR.ofInt_eq, foldl_fin]
  simp

/-- **C44, probabilities.** In exact arithmetic `scores_to_probs` of a nonempty vector
returns `exp(s_i) / sum_j exp(s_j)`. -/
theorem C44_probs (x : List ℝ) (hne : x ≠ []) :
    scoresToProbs (x.map XR.fin) =
      .ok ((x.map fun y => Real.exp y / (x.map Real.exp).sum).map XR.fin) := by
  obtain ⟨m, hm⟩ := scoresToLikelihoods_exact x hne
  have hpos := sum_exp_pos hne
  have hsum := sum_exp_shift x m
  rw [scoresToProbs, hm, Res.ok_bind]
  simp only
  have hscale := (C52_elementwise ((x.map fun y => Real.exp (y - m)).map XR.fin) _ _ [] [] []
    (lit 1 1 / XR.fin (x.map fun y => Real.exp (y - m)).sum) rfl rfl).2.2.1
  simp only [List.append_nil] at hscale
  rw [hscale, List.map_map, List.map_map, List.map_map]
  refine congrArg Res.ok (List.map_congr_left fun y _ => ?_)
  have he := Real.exp_pos m
  have hne' : (x.map fun y => Real.exp (y - m)).sum ≠ 0 := by
    rw [hsum]; positivity
  simp only [Function.comp, XR.lit_eq]
  rw [XR.fin_div _ _ hne', XR.fin_mul]
  congr 1
  rw [hsum, Real.exp_sub]
  push_cast
  field_simp

/-- **C44, normalised.** The probabilities are positive and sum to 1. -/
theorem C44_normalised (x : List ℝ) (hne : x ≠ []) :
    ∃ p : List ℝ, scoresToProbs (x.map XR.fin) = .ok (p.map XR.fin) ∧ p.length = x.length ∧
      (∀ q ∈ p, 0 < q) ∧ p.sum = 1 := by
  have hpos := sum_exp_pos hne
  refine ⟨_, C44_probs x hne, by simp, ?_, ?_⟩
  · intro q hq
    obtain ⟨y, _, rfl⟩ := List.mem_map.mp hq
    exact div_pos (Real.exp_pos y) hpos
  · have : ∀ (l : List ℝ) (t : ℝ), (l.map fun y => Real.exp y / t).sum =
        (l.map Real.exp).sum / t := by
      intro l t
      induction l with
      | nil => simp
      | cons y ys ih => simp only [List.map_cons, List.sum_cons, ih]; ring
    rw [this, div_self hpos.ne']

/-- **C44, log-sum-exp.** In exact arithmetic `log_sum_exp` of a nonempty vector is the
logarithm of the sum of exponentials. -/
theorem C44_log_sum_exp (x : List ℝ) (hne : x ≠ []) :
    logSumExp (x.map XR.fin) = .ok (XR.fin (Real.log (x.map Real.exp).sum)) := by
  obtain ⟨m, hm⟩ := scores_max x hne
  have hpos := sum_exp_pos hne
  have hsum := sum_exp_shift x m
  have hl : (x.map XR.fin).length ≠ 0 := by simpa using hne
  rw [logSumExp, if_neg hl, hm, Res.ok_bind]
  have := forLoop_fold (fun i (total : XR) => do
      let x ← getAt (x.map XR.fin) i
      return total + exp (x - XR.fin m)) (fun (t : XR) (z : XR) => t + exp (z - XR.fin m))
    (x.map XR.fin) 0 (ofInt 0) (by
      intro k z hz t
      rw [Nat.zero_add, getAt_eq_ok.mpr hz]; rfl)
  rw [this, Res.ok_bind]
  have hfold : (x.map XR.fin).foldl (fun (t : XR) (z : XR) => t + exp (z - XR.fin m)) (ofInt 0) =
      XR.fin (x.map fun y => Real.exp (y - m)).sum := by
    rw [← List.foldl_map (f := fun z : XR => exp (z - XR.fin m)) (g := fun t z => t + z),
      map_fin_comp (fun y => Real.exp (y - m)) x _ (by simp), XR.ofInt_eq, foldl_fin]
    simp
  rw [hfold, hsum, XR.log_fin (by positivity), XR.fin_add, Real.log_div hpos.ne'
    (Real.exp_pos m).ne', Real.log_exp]
  simp

/-- **C44, shifts.** Adding a constant to all scores leaves the probabilities unchanged and
adds the constant to `log_sum_exp`. -/
theorem C44_shift (x : List ℝ) (hne : x ≠ []) (c : ℝ) :
    scoresToProbs ((x.map (· + c)).map XR.fin) = scoresToProbs (x.map XR.fin) ∧
    ∃ r : ℝ, logSumExp (x.map XR.fin) = .ok (XR.fin r) ∧
      logSumExp ((x.map (· + c)).map XR.fin) = .ok (XR.fin (r + c)) := by
  have hne' : x.map (· + c) ≠ [] := by simpa using hne
  have hpos := sum_exp_pos hne
  have hs : ((x.map (· + c)).map Real.exp).sum = (x.map Real.exp).sum * Real.exp c := by
    rw [← List.sum_map_mul_right, List.map_map]
    congr 1
    exact List.map_congr_left fun y _ => Real.exp_add y c
  refine ⟨?_, Real.log (x.map Real.exp).sum, C44_log_sum_exp x hne, ?_⟩
  · rw [C44_probs x hne, C44_probs _ hne', hs, List.map_map, List.map_map, List.map_map]
    refine congrArg Res.ok (List.map_congr_left fun y _ => ?_)
    simp only [Function.comp, XR.fin_inj]
    rw [Real.exp_add, mul_div_mul_right _ _ (Real.exp_pos c).ne']
  · rw [C44_log_sum_exp _ hne', hs, Real.log_mul hpos.ne' (Real.exp_pos c).ne', Real.log_exp]

/-- **C44, sampling.** For every stream: sampling from scores returns a valid index `i`;
`sample_prob_from_scores_overwrite` returns the same index and its probability
`exp(s_i) / sum`; `score_from_scores_overwrite` for that index returns the logarithm of
that probability; and all three leave the generator in the same state. -/
theorem C44_sampling (rng : Rng XR σ) (s : σ) (x : List ℝ) (hne : x ≠ []) :
    ∃ (i : Nat) (hi : i < x.length) (p : ℝ) (ls xs : List XR) (s' : σ),
      p = Real.exp x[i] / (x.map Real.exp).sum ∧
      sampleFromScores rng s (x.map XR.fin) = .ok (i, s') ∧
      sampleFromScoresOverwrite rng s (x.map XR.fin) = .ok (i, ls, s') ∧
      sampleProbFromScoresOverwrite rng s (x.map XR.fin) = .ok (i, XR.fin p, s') ∧
      scoreFromScoresOverwrite rng s i (x.map XR.fin) = .ok (XR.fin (Real.log p), xs, s') := by
  obtain ⟨m, hm⟩ := scores_max x hne
  have hpos := sum_exp_pos hne
  have hsum := sum_exp_shift x m
  have hS : (x.map fun y => Real.exp (y - m)).sum ≠ 0 := by
    rw [hsum]; have := Real.exp_pos m; positivity
  have hlik : scoresToLikelihoods (x.map XR.fin) =
      .ok ((x.map fun y => Real.exp (y - m)).map XR.fin,
        XR.fin (x.map fun y => Real.exp (y - m)).sum) := by
    obtain ⟨m', hm'⟩ := scoresToLikelihoods_exact x hne
    have := forLoop_both (F := XR) (fun i (p : List XR × XR) => do
      let x ← getAt p.1 i
      let e := exp (x - XR.fin m)
      let xs ← setAt p.1 i e
      return (xs, p.2 + e)) (fun z => exp (z - XR.fin m)) (fun z => exp (z - XR.fin m))
      (by
        intro k io t z hz
        simp only
        rw [getAt_eq_ok.mpr hz, Res.ok_bind, setAt_of_getElem? hz]; rfl) (x.map XR.fin) [] (ofInt 0)
    simp only [List.length_nil, List.nil_append] at this
    rw [scoresToLikelihoods, hm, Res.ok_bind, this,
      map_fin_comp (fun y => Real.exp (y - m)) x _ (by simp), XR.ofInt_eq, foldl_fin]
    simp
  have hshift : forLoop (fun i (p : List XR × XR) => do
      let x ← getAt p.1 i
      let x := x - XR.fin m
      let xs ← setAt p.1 i x
      return (xs, p.2 + exp x)) 0 (x.map XR.fin).length (x.map XR.fin, ofInt 0) =
      .ok ((x.map fun y => y - m).map XR.fin, XR.fin (x.map fun y => Real.exp (y - m)).sum) := by
    have := forLoop_both (F := XR) (fun i (p : List XR × XR) => do
      let x ← getAt p.1 i
      let x := x - XR.fin m
      let xs ← setAt p.1 i x
      return (xs, p.2 + exp x)) (fun z => z - XR.fin m) (fun z => exp (z - XR.fin m))
      (by
        intro k io t z hz
        simp only
        rw [getAt_eq_ok.mpr hz, Res.ok_bind, setAt_of_getElem? hz]; rfl) (x.map XR.fin) [] (ofInt 0)
    simp only [List.length_nil, List.nil_append] at this
    rw [this, map_fin_comp (fun y => y - m) x _ (by simp),
      map_fin_comp (fun y => Real.exp (y - m)) x _ (by simp), XR.ofInt_eq, foldl_fin]
    simp
  obtain ⟨i, e, hi⟩ := C43_index rng s ((x.map fun y => Real.exp (y - m)).map XR.fin)
    (XR.fin (x.map fun y => Real.exp (y - m)).sum) (by simpa using hne)
  have hi' : i < x.length := by simpa using hi
  refine ⟨i, hi', _, (x.map fun y => Real.exp (y - m)).map XR.fin, (x.map fun y => y - m).map XR.fin,
    (rng.unif01 s).2, rfl, ?_, ?_, ?_, ?_⟩
  · rw [sampleFromScores, sampleFromScoresOverwrite, hlik, Res.ok_bind]
    simp only
    rw [e]; rfl
  · rw [sampleFromScoresOverwrite, hlik, Res.ok_bind]
    simp only
    rw [e]; rfl
  · rw [sampleProbFromScoresOverwrite, hlik, Res.ok_bind]
    simp only
    rw [e, Res.ok_bind]
    simp only
    rw [getAt_of hi, Res.ok_bind]
    simp only [List.getElem_map, Res.pure_eq]
    rw [XR.fin_div _ _ hS, hsum, Real.exp_sub, div_div_div_cancel_right₀ (Real.exp_pos m).ne']
  · rw [scoreFromScoresOverwrite, hm, Res.ok_bind, hshift, Res.ok_bind]
    simp only
    rw [getAt_of (by simpa using hi'), Res.ok_bind]
    simp only [List.getElem_map, Res.pure_eq]
    have hSpos : 0 < (x.map fun y => Real.exp (y - m)).sum := by
      rw [hsum]; have := Real.exp_pos m; positivity
    rw [XR.log_fin hSpos, XR.fin_sub, hsum, Real.log_div hpos.ne' (Real.exp_pos m).ne',
      Real.log_exp, Real.log_div (Real.exp_pos _).ne' hpos.ne', Real.log_exp]
    congr 3
    ring

/-- **C44, probability of an index.** The draws in `[0, 1)` on which sampling from scores
returns `i` have measure `exp(s_i) / sum_j exp(s_j)`. -/
theorem C44_probability (rng : ℝ → Rng XR σ) (s s' : σ) (x : List ℝ) (i : Nat)
    (hi : i < x.length) (hu : ∀ u, Draws (rng u) s (XR.fin u) s') :
    volume {u : ℝ | 0 ≤ u ∧ u < 1 ∧ sampleFromScores (rng u) s (x.map XR.fin) = .ok (i, s')} =
      ENNReal.ofReal (Real.exp x[i] / (x.map Real.exp).sum) := by
  have hne : x ≠ [] := by rintro rfl; simp at hi
  obtain ⟨m, hm⟩ := scoresToLikelihoods_exact x hne
  have hpos := sum_exp_pos hne
  have hsum := sum_exp_shift x m
  have key := C43_probability rng s s' (x.map fun y => Real.exp (y - m)) (by
      intro z hz; obtain ⟨w, _, rfl⟩ := List.mem_map.mp hz; exact (Real.exp_pos _).le)
    (by rw [hsum]; have := Real.exp_pos m; positivity) hu i (by simpa using hi)
  simp only [List.getElem_map] at key
  rw [hsum, Real.exp_sub, div_div_div_cancel_right₀ (Real.exp_pos m).ne', ← hsum] at key
  rw [← key]
  congr 1
  ext u
  simp only [Set.mem_setOf_eq, sampleFromScores, sampleFromScoresOverwrite, hm, Res.ok_bind]
  refine and_congr_right fun _ => and_congr_right fun _ => ?_
  cases sampleFromLikelihoods (rng u) s _ _ <;> simp

/-- **C44, empty vector.** `log_sum_exp` of no scores is 0 (an empty sum would be
`-infinity`), and the conversions read the first element of an empty vector. -/
theorem C44_empty {F : Type} [FloatOps F] (rng : Rng F σ) (s : σ) :
    logSumExp ([] : List F) = .ok (ofInt 0) ∧ scoresToProbs ([] : List F) = .ub ∧
    sampleFromScores rng s ([] : List F) = .ub := ⟨rfl, rfl, rfl⟩

/-- Non-triviality: scores `log 1, log 3` give probabilities 1/4 and 3/4. -/
example : scoresToProbs (([Real.log 1, Real.log 3] : List ℝ).map XR.fin) =
    .ok (([1 / 4, 3 / 4] : List ℝ).map XR.fin) := by
  rw [C44_probs _ (by simp)]
  simp only [List.map_cons, List.map_nil, List.sum_cons, List.sum_nil,
    Real.exp_log (show (0:ℝ) < 1 by norm_num), Real.exp_log (show (0:ℝ) < 3 by norm_num)]
  norm_num

end c44

/-! ## C45 -/

theorem sizeToInt_of {n : Nat} (h : n < 2147483648) : sizeToInt n = n := by
  unfold sizeToInt
  simp only [Int.bmod_def]
  have h1 : (n : Int) % ((4294967296 : Nat) : Int) = n := Int.emod_eq_of_lt (by omega) (by omega)
  rw [h1, if_pos]
  have h2 : ((4294967296 : Nat) : Int) = 4294967296 := by norm_num
  have h3 : ((4294967296 : Int) + 1) / 2 = 2147483648 := by norm_num
  rw [h2, h3]
  omega

theorem intToSize_of {i : Int} (h0 : 0 ≤ i) (h : i < 18446744073709551616) :
    intToSize i = i.toNat := by
  rw [intToSize, Int.emod_eq_of_lt h0 h]

/-- **C45.** For every float type, every urn of at least two entries (at most `2^31`, so
that its size is an `int`) and every stream of in-bounds integers: the result is two
entries at different positions. -/
theorem C45 {F σ T : Type} [FloatOps F] (rng : Rng F σ) (hr : IntInBounds rng) (s : σ)
    (urn : List T) (h2 : 2 ≤ urn.length) (hmax : urn.length ≤ 2147483648) :
    ∃ (i j : Nat) (hi : i < urn.length) (hj : j < urn.length) (s' : σ), i ≠ j ∧
      samplePairFromUrn rng s urn = .ok ((urn[i], urn[j]), s') := by
  obtain ⟨a1, a2⟩ := hr s 0 ((urn.length - 1 : Nat) : Int) (by omega)
  obtain ⟨b1, b2⟩ := hr (rng.int s 0 ((urn.length - 1 : Nat) : Int)).2 0
    ((urn.length - 2 : Nat) : Int) (by omega)
  rcases hd1 : rng.int s 0 ((urn.length - 1 : Nat) : Int) with ⟨d1, s1⟩
  rw [hd1] at a1 a2 b1 b2
  rcases hd2 : rng.int s1 0 ((urn.length - 2 : Nat) : Int) with ⟨d2, s2⟩
  simp only [hd2] at a1 a2 b1 b2
  rw [samplePairFromUrn, distAssert0_of h2, Res.ok_bind, sizeToInt_of (by omega),
    sizeToInt_of (by omega)]
  simp only [hd1, hd2]
  rw [intToSize_of a1 (by omega), intToSize_of b1 (by omega)]
  obtain ⟨j, hj⟩ : ∃ j, (if d1.toNat ≤ d2.toNat then (d2.toNat + 1) % 18446744073709551616
      else d2.toNat) = j := ⟨_, rfl⟩
  have hjb : j < urn.length ∧ d1.toNat ≠ j := by
    split_ifs at hj <;> omega
  rw [hj, distAssert0_of (by omega : d1.toNat < urn.length), Res.ok_bind, distAssert0_of hjb.1,
    Res.ok_bind, distAssert0_of hjb.2, Res.ok_bind, getAt_of (by omega), Res.ok_bind,
    getAt_of hjb.1]
  exact ⟨d1.toNat, j, by omega, hjb.1, s2, hjb.2, rfl⟩

/-- **C45, uniformity.** Every ordered pair of distinct positions of an urn with distinct
entries arises from exactly one pair of draws `d₀` in `0..n-1`, `d₁` in `0..n-2`; so
uniform draws give uniform pairs. -/
theorem C45_uniform {T : Type} (urn : List T) (hnd : urn.Nodup) (h2 : 2 ≤ urn.length)
    (hmax : urn.length ≤ 2147483648) (i j : Nat) (hi : i < urn.length) (hj : j < urn.length)
    (hij : i ≠ j) :
    ∃! d : Int × Int, (0 ≤ d.1 ∧ d.1 ≤ urn.length - 1 ∧ 0 ≤ d.2 ∧ d.2 ≤ urn.length - 2) ∧
      samplePairFromUrn (scripted fun n => if n = 0 then d.1 else d.2) 0 urn =
        .ok ((urn[i], urn[j]), 2) := by
  have run : ∀ d : Int × Int, 0 ≤ d.1 ∧ d.1 ≤ urn.length - 1 ∧ 0 ≤ d.2 ∧ d.2 ≤ urn.length - 2 →
      ∃ (k : Nat) (hk : k < urn.length) (h1 : d.1.toNat < urn.length),
        k = (if d.1.toNat ≤ d.2.toNat then d.2.toNat + 1 else d.2.toNat) ∧
        samplePairFromUrn (scripted fun n => if n = 0 then d.1 else d.2) 0 urn =
          .ok ((urn[d.1.toNat], urn[k]), 2) := by
    rintro ⟨d1, d2⟩ ⟨a1, a2, b1, b2⟩
    simp only at a1 a2 b1 b2
    have hk : (if d1.toNat ≤ d2.toNat then d2.toNat + 1 else d2.toNat) < urn.length := by
      split_ifs <;> omega
    have hne : d1.toNat ≠ (if d1.toNat ≤ d2.toNat then d2.toNat + 1 else d2.toNat) := by
      split_ifs <;> omega
    have hmod : (if d1.toNat ≤ d2.toNat then (d2.toNat + 1) % 18446744073709551616
        else d2.toNat) = if d1.toNat ≤ d2.toNat then d2.toNat + 1 else d2.toNat := by
      split_ifs <;> omega
    refine ⟨_, hk, by simp only; omega, rfl, ?_⟩
    rw [samplePairFromUrn, distAssert0_of h2, Res.ok_bind]
    simp only [scripted, if_true, Nat.zero_add, Nat.one_ne_zero, if_false]
    rw [intToSize_of a1 (by omega), intToSize_of b1 (by omega), hmod,
      distAssert0_of (by omega : d1.toNat < urn.length), Res.ok_bind, distAssert0_of hk,
      Res.ok_bind, distAssert0_of hne, Res.ok_bind, getAt_of (by omega), Res.ok_bind,
      getAt_of hk]
    rfl
  have hinj : ∀ a b (ha : a < urn.length) (hb : b < urn.length), urn[a] = urn[b] → a = b :=
    fun a b ha hb h => (List.Nodup.getElem_inj_iff hnd).mp h
  refine ⟨((i : Int), ((if j < i then j else j - 1 : Nat) : Int)), ⟨?_, ?_⟩, ?_⟩
  · simp only
    refine ⟨by omega, by omega, by omega, ?_⟩
    split_ifs <;> omega
  · obtain ⟨k, hk, h1, e, r⟩ := run ((i : Int), ((if j < i then j else j - 1 : Nat) : Int)) (by
      simp only
      refine ⟨by omega, by omega, by omega, ?_⟩
      split_ifs <;> omega)
    rw [r]
    simp only [Int.toNat_natCast] at e ⊢
    have : k = j := by rw [e]; split_ifs <;> omega
    subst this
    rfl
  · rintro ⟨d1, d2⟩ ⟨hb, hr⟩
    obtain ⟨k, hk, h1, e, r⟩ := run (d1, d2) hb
    rw [r] at hr
    simp only [Res.ok.injEq, Prod.mk.injEq, and_true] at hr
    have e1 := hinj _ _ _ _ hr.1
    have e2 := hinj _ _ _ _ hr.2
    simp only at e e1 hb
    ext
    · simp only; omega
    · simp only
      split_ifs at e ⊢ <;> omega

/-- **C45, single draws.** `sample_from_urn` returns an entry of the urn. -/
theorem C45_single {F σ T : Type} [FloatOps F] (rng : Rng F σ) (hr : IntInBounds rng) (s : σ)
    (urn : List T) (h1 : 1 ≤ urn.length) (hmax : urn.length ≤ 2147483648) :
    ∃ (i : Nat) (hi : i < urn.length) (s' : σ), sampleFromUrn rng s urn = .ok (urn[i], s') ∧
      (i : Int) = (rng.int s 0 (urn.length - 1)).1 := by
  obtain ⟨a1, a2⟩ := hr s 0 ((urn.length - 1 : Nat) : Int) (by omega)
  rw [sampleFromUrn, distAssert0_of h1, Res.ok_bind, sizeToInt_of (by omega)]
  have hc : ((urn.length - 1 : Nat) : Int) = (urn.length : Int) - 1 := by omega
  rw [hc] at a1 a2 ⊢
  generalize rng.int s 0 ((urn.length : Int) - 1) = r1 at a1 a2 ⊢
  obtain ⟨d1, s1⟩ := r1
  simp only at a1 a2 ⊢
  rw [intToSize_of a1 (by omega), distAssert0_of (by omega : d1.toNat < urn.length), Res.ok_bind,
    getAt_of (by omega)]
  exact ⟨d1.toNat, by omega, s1, rfl, by omega⟩

/-- Non-triviality: draws 1 and 1 from a three-entry urn give positions 1 and 2. -/
example : samplePairFromUrn (scripted fun _ => 1) 0 ["a", "b", "c"] = .ok (("b", "c"), 2) := by
  decide

end Dist
