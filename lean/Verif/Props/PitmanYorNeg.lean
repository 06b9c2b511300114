import Verif.Lemmas.PYScoresAbs
import Verif.Props.AssignmentLaw

/-! # C15, C16 and C60 for every admissible concentration

For negative `alpha` the code takes `log` and `lgamma` of negative numbers.  With the functions it
actually computes there (`XA`: `log |x|` and `log |Γ(x)|`) the scores are still right, except
for `alpha = 0`, which is admissible when `d > 0`. -/

namespace Dist

open Spec PitmanYor FloatOps FloatNotation MeasureTheory

/-- **C15, sequential, all admissible `alpha` but 0.** `score_counts` of the cluster sizes of a
seating is the sum of the seating scores, in every order of arrival.  Missing: `alpha = 0`, where
it is false (`C15_alpha_zero`). -/
theorem C15_nonzero_alpha_partial (alpha d : ℝ) (hp : Admissible alpha d) (h0 : alpha ≠ 0)
    (labels counts : List Nat) (hc : ClusterSizes counts labels) :
    scoreCounts (⟨.fin alpha, .fin d⟩ : PitmanYor XA) counts =
      seatingScore ⟨.fin alpha, .fin d⟩ labels ∧
    ∃ r : ℝ, scoreCounts (⟨.fin alpha, .fin d⟩ : PitmanYor XA) counts = .fin r := by
  have h1 := scoreCountsA_eq hp h0 counts
  refine ⟨?_, _, h1⟩
  rw [h1, seatingScoreA_eq hp h0, logEppf_eq_logSeq hc]

/-- **C15, exchangeable, all admissible `alpha` but 0.** -/
theorem C15_exchangeable_nonzero_alpha (alpha d : ℝ) (hp : Admissible alpha d) (h0 : alpha ≠ 0)
    (c1 c2 : List Nat) (h : (c1.filter fun c => c ≠ 0).Perm (c2.filter fun c => c ≠ 0)) :
    scoreCounts (⟨.fin alpha, .fin d⟩ : PitmanYor XA) c1 =
      scoreCounts (⟨.fin alpha, .fin d⟩ : PitmanYor XA) c2 := by
  rw [scoreCountsA_eq hp h0, scoreCountsA_eq hp h0, logEppf_perm h]

/-- **C15, finding.** `alpha = 0` with a positive discount is admissible (the sampler accepts it
and every later seat has a well-defined probability), but scoring the first customer divides zero
by zero, so no seating and no nonempty partition has a score. -/
theorem C15_alpha_zero (d : ℝ) :
    (∀ counts : List Nat, (∃ c ∈ counts, c ≠ 0) →
      scoreCounts (⟨.fin 0, .fin d⟩ : PitmanYor XA) counts = .nan) ∧
    (∀ labels : List Nat, labels ≠ [] →
      seatingScore (⟨.fin 0, .fin d⟩ : PitmanYor XA) labels = .nan) ∧
    (0 < d → d < 1 → Admissible 0 d) := by
  have hnan : ∀ (x : XA), (XA.nan + x : XA) = .nan := fun x => XR.nan_add x
  have hnan' : ∀ (x : XA), (XA.nan - x : XA) = .nan := fun x => XR.nan_sub x
  have hlog : (log (XA.fin 0) : XA) = .nan := by
    show XR.lift1 _ _ _ = _; simp [XR.lift1, XA.fin, XA.nan]
  have hloop : ∀ (cs : List Nat) (n k : Nat),
      scoreLoop (⟨.fin 0, .fin d⟩ : PitmanYor XA) cs .nan n k = .nan := by
    intro cs
    induction cs with
    | nil => intros; rfl
    | cons c cs ih =>
      intro n k
      unfold scoreLoop
      split_ifs <;> simp only [hnan, hnan', ih]
  refine ⟨?_, ?_, fun h1 h2 => ⟨h1.le, h2, by linarith⟩⟩
  · intro counts
    unfold scoreCounts
    induction counts with
    | nil => rintro ⟨c, h, -⟩; simp at h
    | cons c cs ih =>
      rintro ⟨c', hc', hne⟩
      by_cases h0 : c = 0
      · subst h0
        rcases List.mem_cons.mp hc' with rfl | h
        · exact absurd rfl hne
        · rw [scoreLoop, if_pos rfl]
          exact ih ⟨c', h, hne⟩
      · rw [scoreLoop, if_neg h0]
        have hr : ∀ x : XA, (XA.nan * x : XA) = .nan := fun x => XR.nan_mul x
        split_ifs with h1 h2
        · simp [logRatio, hloop]
        · simp [logRatio, hloop]
        · simp [hlog, hloop, hnan, hnan']
  · intro labels
    induction labels using List.reverseRecOn with
    | nil => intro h; exact absurd rfl h
    | append_singleton a x ih =>
      intro _
      rw [seatingScore_append]
      by_cases ha : a = []
      · subst ha
        simp [scoreAddValue]
      · rw [ih ha, hnan]

/-- Negative `alpha`, three customers at the first table: undefined in `XR`
(`C15_negative_alpha`), right in `XA`. -/
example : scoreCounts (⟨.fin (-1/4), .fin (1/2)⟩ : PitmanYor XA) [3] =
    seatingScore ⟨.fin (-1/4), .fin (1/2)⟩ [0, 0, 0] :=
  (C15_nonzero_alpha_partial (-1/4) (1/2) ⟨by norm_num, by norm_num, by norm_num⟩ (by norm_num) [0, 0, 0] [3]
    (by unfold ClusterSizes; decide)).1

/-- **C16, all admissible `alpha` but 0.** Summed over all assignment vectors of length `n`, the
probabilities `exp(score_counts)` give exactly 1.  Missing: `alpha = 0`, where nothing has a score
(`C15_alpha_zero`). -/
theorem C16_nonzero_alpha_partial (lvl : Nat) (alpha d : ℝ) (hp : Admissible alpha d)
    (h0 : alpha ≠ 0) (n : Nat) (hn : n ≤ 2147483647) (S : Finset (List Nat))
    (hS : ∀ a, a ∈ S ↔ a.length = n ∧ Contiguous a) :
    ∃ score : List Nat → ℝ,
      (∀ a ∈ S, ∃ cs, countAssignments lvl (a.map Int.ofNat) = .ok cs ∧ (∀ c ∈ cs, 0 ≤ c) ∧
        scoreCounts (⟨.fin alpha, .fin d⟩ : PitmanYor XA) (cs.map Int.toNat) = .fin (score a)) ∧
      ∑ a ∈ S, Real.exp (score a) = 1 := by
  refine ⟨logSeq alpha d, ?_, ?_⟩
  · intro a haS
    obtain ⟨h1, h2⟩ := (hS a).mp haS
    obtain ⟨k, hk⟩ := h2.exists_bound
    refine ⟨countTable a, ?_, ?_, ?_⟩
    · rw [countAssignments_eq lvl a (by omega), if_neg]
      rintro ⟨-, g, hg, hm⟩
      rw [idBound_of_bound hk] at hg
      exact hm ((hk g).mpr hg)
    · intro c hc
      simp only [countTable, List.mem_map] at hc
      obtain ⟨g, -, rfl⟩ := hc
      omega
    · rw [scoreCountsA_eq hp h0, logEppf_eq_logSeq (countTable_clusterSizes h2)]
  · obtain ⟨S', hS', hsum⟩ := contiguous_sum hp h0 n
    have : S = S' := by ext a; rw [hS, hS']
    rw [this]; exact hsum

/-- **C60, all admissible `alpha` but 0**, with `score_counts` as computed in `XA`. -/
theorem C60_nonzero_alpha {σ : Type} [MeasurableSpace σ] (I : IdealRng σ) (lvl : Nat) (alpha d : ℝ)
    (hp : Admissible alpha d) (h0 : alpha ≠ 0) (a : List ℕ) (ha : Contiguous a)
    (hn : a.length ≤ 2147483647) {B : Set σ} (hB : MeasurableSet B) :
    ∃ (counts : List Int) (x : ℝ),
      countAssignments lvl (a.map Int.ofNat) = .ok counts ∧
      scoreCounts (⟨.fin alpha, .fin d⟩ : PitmanYor XA) (counts.map Int.toNat) = .fin x ∧
      I.P {s | ∃ s' ∈ B, PitmanYor.sampleAssignments (⟨.fin alpha, .fin d⟩ : PitmanYor XR) I.toRng
        a.length s = .ok (a, s')} = ENNReal.ofReal (Real.exp x) * I.P B := by
  obtain ⟨k, hk⟩ := ha.exists_bound
  refine ⟨countTable a, logSeq alpha d a, ?_, ?_, (PitmanYor.sampleAssignments_law I hp h0 a ha hB).2⟩
  · rw [countAssignments_eq lvl a (by omega), if_neg]
    rintro ⟨-, g, hg, hm⟩
    rw [idBound_of_bound hk] at hg
    exact hm ((hk g).mpr hg)
  · rw [scoreCountsA_eq hp h0, logEppf_eq_logSeq (countTable_clusterSizes ha)]

end Dist
