import Verif.Lemmas.BetaBinomial
import Verif.Lemmas.StirlingReal

/-!
# C92: the derivation scripts for the beta-binomial model and log gamma
-/

namespace Dist

open Spec MeasureTheory ProbabilityTheory BetaBinom

theorem betaln_ok {a b : ℝ} (ha : 0 < a) (hb : 0 < b) : betaln a b =
    .ok (Real.log (Real.Gamma a) + Real.log (Real.Gamma b) - Real.log (Real.Gamma (a + b))) :=
  if_pos ⟨ha, hb⟩

theorem binomln_ok {n k : ℕ} (h : k ≤ n) : binomln n k = .ok (Real.log (n.choose k)) := if_pos h

/-- The statistics of a list of counts. -/
noncomputable def statsOf (N : ℕ) (ks : List ℕ) : SuffStats where
  heads := (ks.sum : ℕ)
  tails := ((ks.map (N - ·)).sum : ℕ)
  binomlnAccum := (ks.map fun k => Real.log (N.choose k)).sum
  dpcount := ks.length

theorem addDp_eq (hps : Hypers) {k : ℕ} (hk : k ≤ hps.N) (ks : List ℕ) :
    addDp k hps (statsOf hps.N ks) = .ok (statsOf hps.N (ks ++ [k])) := by
  unfold addDp
  rw [binomln_ok hk, Res.ok_bind, Res.pure_eq]
  congr 1
  unfold statsOf
  simp only [List.sum_append, List.map_append, List.map_cons, List.map_nil, List.sum_cons, List.sum_nil,
    List.length_append, List.length_cons, List.length_nil, add_zero, zero_add]
  push_cast [hk]
  simp

/-- The beta part of the scores. -/
noncomputable def lb (a b : ℝ) : ℝ :=
  Real.log (Real.Gamma a) + Real.log (Real.Gamma b) - Real.log (Real.Gamma (a + b))

theorem postPred_eq (hps : Hypers) (ha : 0 < hps.alpha) (hb : 0 < hps.beta) {k : ℕ} (hk : k ≤ hps.N) (ks : List ℕ) :
    computePostPred k hps (statsOf hps.N ks) = .ok (Real.log (hps.N.choose k) +
      lb (hps.alpha + (ks ++ [k]).sum) (hps.beta + ((ks ++ [k]).map (hps.N - ·)).sum) -
      lb (hps.alpha + ks.sum) (hps.beta + (ks.map (hps.N - ·)).sum)) := by
  have hk' : (k : ℝ) ≤ hps.N := by exact_mod_cast hk
  have h1 : (0 : ℝ) ≤ ((ks.sum : ℕ) : ℝ) := Nat.cast_nonneg _
  have h2 : (0 : ℝ) ≤ (((ks.map (hps.N - ·)).sum : ℕ) : ℝ) := Nat.cast_nonneg _
  have h3 : (0 : ℝ) ≤ k := Nat.cast_nonneg _
  unfold computePostPred
  simp only [statsOf, Int.cast_natCast]
  rw [binomln_ok hk, Res.ok_bind, betaln_ok (by linarith) (by linarith), Res.ok_bind, betaln_ok (by linarith)
    (by linarith), Res.ok_bind, Res.pure_eq]
  congr 1
  unfold lb
  simp only [List.sum_append, List.map_append, List.map_cons, List.map_nil, List.sum_cons, List.sum_nil, add_zero]
  rw [Nat.cast_add, Nat.cast_add, Nat.cast_sub hk]
  rw [show hps.alpha + (((ks.sum : ℕ) : ℝ) + k) = hps.alpha + ((ks.sum : ℕ) : ℝ) + k by ring,
    show hps.beta + ((((ks.map (hps.N - ·)).sum : ℕ) : ℝ) + ((hps.N : ℝ) - k)) =
      hps.beta + (((ks.map (hps.N - ·)).sum : ℕ) : ℝ) + hps.N - k by ring]

theorem total_eq (hps : Hypers) (ha : 0 < hps.alpha) (hb : 0 < hps.beta) (ks : List ℕ) :
    computeTotalLikelihood hps (statsOf hps.N ks) =
      .ok (lb (hps.alpha + ks.sum) (hps.beta + (ks.map (hps.N - ·)).sum) - lb hps.alpha hps.beta +
        (ks.map fun k => Real.log (hps.N.choose k)).sum) := by
  have h1 : (0 : ℝ) ≤ ((ks.sum : ℕ) : ℝ) := Nat.cast_nonneg _
  have h2 : (0 : ℝ) ≤ (((ks.map (hps.N - ·)).sum : ℕ) : ℝ) := Nat.cast_nonneg _
  unfold computeTotalLikelihood
  simp only [statsOf, Int.cast_natCast]
  rw [betaln_ok (by linarith) (by linarith), Res.ok_bind, betaln_ok ha hb, Res.ok_bind, Res.pure_eq]
  rfl

theorem predLoop_eq (hps : Hypers) (ha : 0 < hps.alpha) (hb : 0 < hps.beta) (ks : List ℕ) (h : ∀ k ∈ ks, k ≤ hps.N)
    (done : List ℕ) (x : ℝ) : predLoop hps ks x (statsOf hps.N done) =
      .ok (x + (lb (hps.alpha + (done ++ ks).sum) (hps.beta + ((done ++ ks).map (hps.N - ·)).sum) -
        lb (hps.alpha + done.sum) (hps.beta + (done.map (hps.N - ·)).sum) +
        (ks.map fun k => Real.log (hps.N.choose k)).sum), statsOf hps.N (done ++ ks)) := by
  induction ks generalizing done x with
  | nil => simp [predLoop]
  | cons k ks ih =>
    have hk := h k List.mem_cons_self
    unfold predLoop
    rw [postPred_eq hps ha hb hk, Res.ok_bind, addDp_eq hps hk, Res.ok_bind,
      ih (fun k hk => h k (List.mem_cons_of_mem _ hk)), List.append_assoc, List.singleton_append, List.map_cons,
      List.sum_cons]
    congr 2
    ring

theorem prob_ofReal {a b : ℝ} (ha : 0 < a) (hb : 0 < b) (N : ℕ) (ks : List ℕ) (h : ∀ k ∈ ks, k ≤ N) :
    betaBinomialProb a b N ks = ENNReal.ofReal (Real.exp (lb (a + ks.sum) (b + (ks.map (N - ·)).sum) - lb a b +
      (ks.map fun k => Real.log (N.choose k)).sum)) := by
  rw [betaBinomialProb_eq ha hb N ks h]
  have h1 : (0 : ℝ) ≤ ((ks.sum : ℕ) : ℝ) := Nat.cast_nonneg _
  have h2 : (0 : ℝ) ≤ (((ks.map (N - ·)).sum : ℕ) : ℝ) := Nat.cast_nonneg _
  have g1 := Real.Gamma_pos_of_pos ha
  have g2 := Real.Gamma_pos_of_pos hb
  have g3 := Real.Gamma_pos_of_pos (add_pos ha hb)
  have g4 := Real.Gamma_pos_of_pos (show 0 < a + ((ks.sum : ℕ) : ℝ) by linarith)
  have g5 := Real.Gamma_pos_of_pos (show 0 < b + (((ks.map (N - ·)).sum : ℕ) : ℝ) by linarith)
  have g6 := Real.Gamma_pos_of_pos (show 0 < (a + ((ks.sum : ℕ) : ℝ)) + (b + (((ks.map (N - ·)).sum : ℕ) : ℝ)) by
    linarith)
  have hp : Real.exp ((ks.map fun k => Real.log (N.choose k)).sum) = (ks.map fun k => ((N.choose k : ℕ) : ℝ)).prod := by
    clear h1 h2 g4 g5 g6
    induction ks with
    | nil => simp
    | cons k ks ih =>
      have : (0 : ℝ) < N.choose k := by exact_mod_cast Nat.choose_pos (h k List.mem_cons_self)
      rw [List.map_cons, List.sum_cons, Real.exp_add, Real.exp_log this,
        ih fun k hk => h k (List.mem_cons_of_mem _ hk), List.map_cons, List.prod_cons]
  congr 1
  rw [Real.exp_add, hp]
  unfold lb
  simp only [Real.exp_sub, Real.exp_add, Real.exp_log g1, Real.exp_log g2, Real.exp_log g3, Real.exp_log g4,
    Real.exp_log g5, Real.exp_log g6]
  field_simp

/-- **C92, the scores.** The sum of the predictive scores of counts taken one after another is the total
score of the statistics they leave, and both are the logarithm of the beta-binomial probability of the
counts: the probability that tosses of one coin, whose probability of heads has a beta law, show them. -/
theorem C92_chain (hps : Hypers) (ha : 0 < hps.alpha) (hb : 0 < hps.beta) (ks : List ℕ)
    (h : ∀ k ∈ ks, k ≤ hps.N) :
    ∃ score ss, predLoop hps ks 0 {} = .ok (score, ss) ∧ computeTotalLikelihood hps ss = .ok score ∧
      ss.heads = ks.sum ∧ ss.tails = (ks.map fun k : ℕ => (hps.N : ℤ) - k).sum ∧ ss.dpcount = ks.length ∧
      ENNReal.ofReal (Real.exp score) = betaBinomialProb hps.alpha hps.beta hps.N ks := by
  have e0 : ({} : SuffStats) = statsOf hps.N [] := by simp [statsOf]
  refine ⟨_, _, by rw [e0, predLoop_eq hps ha hb ks h], ?_, ?_⟩
  · rw [List.nil_append, total_eq hps ha hb]
    simp
  · rw [prob_ofReal ha hb _ _ h]
    refine ⟨by simp [statsOf], ?_, by simp [statsOf], by simp⟩
    rw [List.nil_append]
    simp only [statsOf]
    induction ks with
    | nil => simp
    | cons k ks ih =>
      have := ih fun k hk => h k (List.mem_cons_of_mem _ hk)
      simp only [List.map_cons, List.sum_cons]
      rw [Nat.cast_add, Nat.cast_sub (h k List.mem_cons_self), this]

/-- The counts of the script's own test. -/
example : ∃ score ss, predLoop ⟨5, 5, 10⟩ [9, 1] 0 {} = .ok (score, ss) ∧ ss.heads = 10 ∧ ss.tails = 10 := by
  obtain ⟨score, ss, h, _, h1, h2, _⟩ := C92_chain ⟨5, 5, 10⟩ (by norm_num) (by norm_num) [9, 1] (by decide)
  exact ⟨score, ss, h, h1, h2⟩

/-- **C92, order.** Score and statistics do not depend on the order of the counts. -/
theorem C92_order (hps : Hypers) (ha : 0 < hps.alpha) (hb : 0 < hps.beta) (ks ks' : List ℕ) (hp : ks.Perm ks')
    (h : ∀ k ∈ ks, k ≤ hps.N) : predLoop hps ks 0 {} = predLoop hps ks' 0 {} := by
  have e0 : ({} : SuffStats) = statsOf hps.N [] := by simp [statsOf]
  rw [e0, predLoop_eq hps ha hb ks h, predLoop_eq hps ha hb ks' fun k hk => h k (hp.mem_iff.2 hk)]
  unfold statsOf
  simp only [List.nil_append, hp.sum_eq, (hp.map (hps.N - ·)).sum_eq,
    (hp.map fun k => Real.log (hps.N.choose k)).sum_eq, hp.length_eq]

/-- **C92, predictive probabilities.** After any counts, the predictive probabilities of the next count add
up to one. -/
theorem C92_predictive (hps : Hypers) (ha : 0 < hps.alpha) (hb : 0 < hps.beta) (ks : List ℕ)
    (h : ∀ k ∈ ks, k ≤ hps.N) :
    ∃ (score : ℝ) (ss : SuffStats) (p : ℕ → ℝ), predLoop hps ks 0 {} = .ok (score, ss) ∧
      (∀ k ≤ hps.N, computePostPred k hps ss = .ok (p k)) ∧
      ∑ k ∈ Finset.range (hps.N + 1), Real.exp (p k) = 1 := by
  have e0 : ({} : SuffStats) = statsOf hps.N [] := by simp [statsOf]
  set a := hps.alpha + ((ks.sum : ℕ) : ℝ) with hA
  set b := hps.beta + (((ks.map (hps.N - ·)).sum : ℕ) : ℝ) with hB
  have h1 : (0 : ℝ) ≤ ((ks.sum : ℕ) : ℝ) := Nat.cast_nonneg _
  have h2 : (0 : ℝ) ≤ (((ks.map (hps.N - ·)).sum : ℕ) : ℝ) := Nat.cast_nonneg _
  have ha' : 0 < a := by linarith
  have hb' : 0 < b := by linarith
  refine ⟨_, _, fun k => lb (a + ((k : ℕ) : ℝ)) (b + ((hps.N - k : ℕ) : ℝ)) - lb a b + Real.log (hps.N.choose k),
    by rw [e0, predLoop_eq hps ha hb ks h], fun k hk => ?_, ?_⟩
  · rw [List.nil_append, postPred_eq hps ha hb hk]
    congr 1
    simp only [List.sum_append, List.map_append, List.map_cons, List.map_nil, List.sum_cons, List.sum_nil, add_zero,
      Nat.cast_add, ← add_assoc, ← hA, ← hB]
    ring
  · haveI := isProbabilityMeasureBeta ha' hb'
    have e : ∀ k ∈ Finset.range (hps.N + 1), ENNReal.ofReal (Real.exp (lb (a + ((k : ℕ) : ℝ))
        (b + ((hps.N - k : ℕ) : ℝ)) - lb a b + Real.log (hps.N.choose k))) =
        ∫⁻ p, ENNReal.ofReal (binomialProb hps.N k p) ∂betaMeasure a b := by
      intro k hk
      have := prob_ofReal ha' hb' hps.N [k] (by simpa [Nat.lt_succ_iff] using hk)
      simp only [List.map_cons, List.map_nil, List.sum_cons, List.sum_nil, add_zero] at this
      rw [← this]
      unfold betaBinomialProb
      simp
    have s : ENNReal.ofReal (∑ k ∈ Finset.range (hps.N + 1), Real.exp (lb (a + ((k : ℕ) : ℝ))
        (b + ((hps.N - k : ℕ) : ℝ)) - lb a b + Real.log (hps.N.choose k))) = 1 := by
      rw [ENNReal.ofReal_sum_of_nonneg fun _ _ => (Real.exp_pos _).le, Finset.sum_congr rfl e,
        ← lintegral_finsetSum]
      · have : ∀ᵐ p ∂betaMeasure a b, ∑ k ∈ Finset.range (hps.N + 1), ENNReal.ofReal (binomialProb hps.N k p) = 1 := by
          filter_upwards [beta_ae a b] with p hp
          rw [← ENNReal.ofReal_sum_of_nonneg fun _ _ => binomialProb_nonneg hp.1.le hp.2.le, binomialProb_sum,
            ENNReal.ofReal_one]
        rw [lintegral_congr_ae this]
        simp
      · intro k _
        unfold binomialProb
        fun_prop
    rwa [ENNReal.ofReal_eq_one] at s

variable {σ : Type} [MeasurableSpace σ]

/-- **C92, one count per coin.** `simone` returns independent counts, each with the beta-binomial
probability, and leaves the generator in a fresh state. -/
theorem C92_simone (D : IdealBinomial σ) (a b : ℝ) (ha : 0 < a) (hb : 0 < b) (n : ℕ) (ks : List ℕ)
    (h : ∀ k ∈ ks, k ≤ n) (B : Set σ) (hB : MeasurableSet B) :
    D.P {s | ∃ s' ∈ B, simone D.toNumpy a b n ks.length s = (ks, s')} =
      (ks.map fun k => betaBinomialProb a b n [k]).prod * D.P B := by
  rw [← oneSet_law D ha hb n ks h hB]
  congr 1
  ext s
  constructor
  · rintro ⟨s', hs, e⟩
    exact ⟨by rw [e], by rw [e]; exact hs⟩
  · rintro ⟨h1, h2⟩
    exact ⟨_, h2, Prod.ext h1 rfl⟩

/-- **C92, two counts per coin.** `simtwo` returns independent pairs; each pair has the joint
beta-binomial probability of two counts of the same coin.  The counts must fit the array of `uint32`. -/
theorem C92_simtwo (D : IdealBinomial σ) (a b : ℝ) (ha : 0 < a) (hb : 0 < b) (n : ℕ) (hn : n < 2 ^ 32)
    (rows : List (ℕ × ℕ)) (h : ∀ r ∈ rows, r.1 ≤ n ∧ r.2 ≤ n) (B : Set σ) (hB : MeasurableSet B) :
    D.P {s | ∃ s' ∈ B, simtwo D.toNumpy a b n rows.length s = (rows, s')} =
      (rows.map fun r => betaBinomialProb a b n [r.1, r.2]).prod * D.P B := by
  have := twoSet_law D ha hb hn [] (by simp) [] rows rfl (by simpa using h) hB
  simp only [List.nil_append, List.zipWith_nil_left, List.prod_nil, one_mul] at this
  rw [← this]
  congr 1
  ext s
  constructor
  · rintro ⟨s', hs, e⟩
    unfold simtwo at e
    refine ⟨?_, ?_⟩ <;> rw [List.nil_append] <;> simp only at e <;> rw [e]
    exact hs
  · rintro ⟨h1, h2⟩
    rw [List.nil_append] at h1 h2
    exact ⟨_, h2, Prod.ext h1 rfl⟩

example : Nonempty (IdealBinomial Supply) := idealBinomial_exists

end Dist
