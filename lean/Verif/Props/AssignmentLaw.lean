import Verif.Lemmas.AssignmentLaw
import Verif.Lemmas.IdealRngExists
import Verif.Props.Assignments

/-!
# C60: sampled assignments follow the Pitman-Yor distribution

If uniform draws are uniform and independent, `sample_assignments(n)` returns each assignment
vector with the probability `exp(score_counts)` of its counts.
-/

namespace Dist

open Spec PitmanYor FloatOps FloatNotation MeasureTheory ProbabilityTheory

variable {σ : Type} [MeasurableSpace σ]

/-- **C60.** Random draws idealised (`IdealRng`), exact reals, `alpha > 0`: for every
assignment vector `a` with contiguous ids, `sample_assignments(n)` returns `a` with probability
`exp(score_counts(counts))`, where `counts` is what `count_assignments` makes of `a`; and
the generator state left behind is independent of the vector returned. -/
theorem C60_pitman_yor (I : IdealRng σ) (lvl : Nat) (alpha d : ℝ) (hp : Admissible alpha d)
    (h0 : 0 < alpha) (a : List ℕ) (ha : Contiguous a) (hn : a.length ≤ 2147483647)
    {B : Set σ} (hB : MeasurableSet B) :
    ∃ (counts : List Int) (x : ℝ),
      countAssignments lvl (a.map Int.ofNat) = .ok counts ∧
      PitmanYor.scoreCounts (⟨.fin alpha, .fin d⟩ : PitmanYor XR) (counts.map Int.toNat) = .fin x ∧
      I.P {s | ∃ s' ∈ B, PitmanYor.sampleAssignments (⟨.fin alpha, .fin d⟩ : PitmanYor XR) I.toRng
        a.length s = .ok (a, s')} = ENNReal.ofReal (Real.exp x) * I.P B := by
  obtain ⟨k, hk⟩ := ha.exists_bound
  refine ⟨countTable a, logSeq alpha d a, ?_, ?_, (PitmanYor.sampleAssignments_law I hp h0.ne' a ha hB).2⟩
  · rw [countAssignments_eq lvl a (by omega), if_neg]
    rintro ⟨-, g, hg, hm⟩
    rw [idBound_of_bound hk] at hg
    exact hm ((hk g).mpr hg)
  · rw [PitmanYor.scoreCounts_eq hp _ (.inl h0), logEppf_eq_logSeq (countTable_clusterSizes ha)]

/-- **C60, all admissible parameters.** The same with the sum of the `score_add_value`s of the
seats instead of `score_counts`, which need not be defined for `alpha < 0` (C15). -/
theorem C60_seating (I : IdealRng σ) (alpha d : ℝ) (hp : Admissible alpha d)
    (h0 : alpha ≠ 0) (a : List ℕ) (ha : Contiguous a) {B : Set σ} (hB : MeasurableSet B) :
    ∃ x : ℝ, seatingScore (⟨.fin alpha, .fin d⟩ : PitmanYor XR) a = .fin x ∧
      I.P {s | ∃ s' ∈ B, PitmanYor.sampleAssignments (⟨.fin alpha, .fin d⟩ : PitmanYor XR) I.toRng
        a.length s = .ok (a, s')} = ENNReal.ofReal (Real.exp x) * I.P B :=
  ⟨_, seatingScore_eq hp h0 a, (PitmanYor.sampleAssignments_law I hp h0 a ha hB).2⟩

/-- **C60, other vectors.** A vector of another length, or whose ids are not contiguous, is
never returned, whatever the state of the generator. -/
theorem C60_others (I : IdealRng σ) (alpha d : ℝ) (n : ℕ) (a : List ℕ)
    (ha : ¬ (a.length = n ∧ Contiguous a)) (s s' : σ) :
    PitmanYor.sampleAssignments (⟨.fin alpha, .fin d⟩ : PitmanYor XR) I.toRng n s ≠ .ok (a, s') := by
  intro h
  obtain ⟨b, s1, h1, h2, h3⟩ := C18_sample_assignments (⟨.fin alpha, .fin d⟩ : PitmanYor XR)
    I.toRng n s (by simp [XR.ofInt_eq, XR.lit_eq, XR.lt_fin])
  rw [h1] at h
  cases h
  exact ha ⟨h2, h3⟩

/-- With `alpha = 1`, `d = 1/2` and three customers, the vector `0, 0, 1` is drawn with
probability `(1/2)/2 · (3/2)/3 = 1/8`; an ideal generator exists. -/
example : ∃ I : IdealRng Supply,
    I.P {s | ∃ s' ∈ Set.univ, PitmanYor.sampleAssignments (⟨.fin 1, .fin (1/2)⟩ : PitmanYor XR) I.toRng
      3 s = .ok ([0, 0, 1], s')} = ENNReal.ofReal (1 / 8) := by
  obtain ⟨I⟩ := idealRng_exists
  have hp : Admissible 1 (1/2) := ⟨by norm_num, by norm_num, by norm_num⟩
  have hc : Contiguous [0, 0, 1] := by
    intro i x h y hy
    match i, h with
    | 0, h | 1, h => simp at h; omega
    | 2, h =>
      obtain rfl : 1 = x := by simpa using h
      obtain rfl : y = 0 := by omega
      decide
    | i + 3, h => simp at h
  have h := (PitmanYor.sampleAssignments_law I hp (by norm_num) [0, 0, 1] hc MeasurableSet.univ).2
  have h1 : Real.exp (logSeq 1 (1/2) [0, 0] - logSeq 1 (1/2) [0]) = 1 / 4 := by
    have := (logSeq_step hp (by norm_num) [0] 1 (by intro y; simp)).2.1 0 (by norm_num)
    simp only [List.cons_append, List.nil_append] at this
    rw [this]; norm_num
  have h2 : Real.exp (logSeq 1 (1/2) [0, 0, 1] - logSeq 1 (1/2) [0, 0]) = 1 / 2 := by
    have := (logSeq_step hp (by norm_num) [0, 0] 1 (by intro y; simp)).2.2
    simp only [List.cons_append, List.nil_append] at this
    rw [this]; norm_num
  have h3 : logSeq 1 (1/2) [0] = 0 := by
    simp [logSeq, tableTerm, totalTerm, sizeTerm]
  have h4 : Real.exp (logSeq 1 (1/2) [0, 0, 1]) = 1 / 8 := by
    have : logSeq 1 (1/2) [0, 0, 1] = (logSeq 1 (1/2) [0, 0, 1] - logSeq 1 (1/2) [0, 0]) +
      (logSeq 1 (1/2) [0, 0] - logSeq 1 (1/2) [0]) := by rw [h3]; ring
    rw [this, Real.exp_add, h1, h2]; norm_num
  refine ⟨I, ?_⟩
  rw [h4, measure_univ, mul_one] at h
  exact h

end Dist
