import Verif.Lemmas.LowEntropyLaw
import Verif.Lemmas.IdealRngExists

/-!
# C63: the law of sampled low-entropy clusterings

`Clustering::LowEntropy::sample_assignments` (clustering.cc:250-283) over a random number generator
with the laws of the C++ standard (`Spec.IdealRng`), in exact arithmetic, at every debug level.
-/

namespace Dist

open Spec MeasureTheory

variable {σ : Type} [MeasurableSpace σ]

/-- Every vector of assignments `a` that numbers its groups in order of first appearance is drawn with
the product of its sequential predictive probabilities: each item joins a group, or opens a new one, in
proportion to the exponential of `score_add_value` at the group sizes so far.  What remains of the
random stream is independent of the vector. -/
theorem C63_law (I : IdealRng σ) (lvl : Nat) (N : Int) (hN : N ≤ 2147483647) :
    ∃ score : ℕ → ℕ → ℝ,
      (∀ (g n : ℕ) (e : Int), (n : Int) < N → e ≤ n →
        (LowEntropy.scoreAddValue lvl ⟨N⟩ g e n 1 : Res XR) = .ok (.fin (score g n))) ∧
      ∀ a : List ℕ, Contiguous a → (a.length : Int) ≤ N → ∀ B : Set σ, MeasurableSet B →
        I.P {s | ∃ s' ∈ B, LowEntropy.sampleAssignments lvl ⟨N⟩ I.toRng a.length s = .ok (a, s')} =
          ENNReal.ofReal (sequentialProb score [] a) * I.P B :=
  ⟨LowEntropy.addScore N, fun g n e hn he => LowEntropy.scoreAdd_eq lvl N hN g n e hn he,
    fun a hc hsz _ hB => LowEntropy.sampleAssignments_law I lvl N hN a hc hsz hB⟩

/-- A partial form of the documented law `P(X) ∝ ∏ N_k ^ N_k` of complete data sets: it holds exactly
for the choice of the last item, whatever the others are, while groups do not exceed 10000.  That it
holds for the whole vector is false (`C63_fails`). -/
theorem C63_last_item_partial (I : IdealRng σ) (lvl : Nat) (N : Int) (hN : N ≤ 2147483647)
    (p : List ℕ) (x y : ℕ) (hx : Contiguous (p ++ [x])) (hy : Contiguous (p ++ [y]))
    (hp : (p.length : Int) + 1 = N) (hcx : p.count x ≤ 10000) (hcy : p.count y ≤ 10000) :
    I.P {s | ∃ s', LowEntropy.sampleAssignments lvl ⟨N⟩ I.toRng N s = .ok (p ++ [x], s')} *
        ENNReal.ofReal (entropyWeight (p ++ [y])) =
      I.P {s | ∃ s', LowEntropy.sampleAssignments lvl ⟨N⟩ I.toRng N s = .ok (p ++ [y], s')} *
        ENNReal.ofReal (entropyWeight (p ++ [x])) := by
  have key : ∀ z, Contiguous (p ++ [z]) →
      I.P {s | ∃ s', LowEntropy.sampleAssignments lvl ⟨N⟩ I.toRng N s = .ok (p ++ [z], s')} =
      ENNReal.ofReal (sequentialProb (LowEntropy.addScore N) [] (p ++ [z])) := by
    intro z hz
    have h := LowEntropy.sampleAssignments_law I lvl N hN (p ++ [z]) hz (by simp; omega)
      MeasurableSet.univ
    have hl : (((p ++ [z]).length : ℕ) : Int) = N := by simp; omega
    rw [hl] at h
    have := I.prob
    simpa using h
  rw [key x hx, key y hy]
  have hpos : ∀ a, 0 ≤ entropyWeight a := fun a => Finset.prod_nonneg fun _ _ => by positivity
  rw [← ENNReal.ofReal_mul' (hpos _), ← ENNReal.ofReal_mul' (hpos _)]
  congr 1
  rw [LowEntropy.sequentialProb_snoc, LowEntropy.sequentialProb_snoc]
  simp only [List.nil_append]
  have ex := LowEntropy.exp_addScore N (p.count x) p.length hp hcx
  have ey := LowEntropy.exp_addScore N (p.count y) p.length hp hcy
  have wx := LowEntropy.entropyWeight_snoc p x
  have wy := LowEntropy.entropyWeight_snoc p y
  have hpw : ∀ n : ℕ, ((n : ℕ) : ℝ) ^ n ≠ 0 := by
    intro n
    rcases n with _ | n
    · simp
    · positivity
  have h : Real.exp (LowEntropy.addScore N (p.count x) p.length) * entropyWeight (p ++ [y]) =
      Real.exp (LowEntropy.addScore N (p.count y) p.length) * entropyWeight (p ++ [x]) := by
    apply mul_right_cancel₀ (mul_ne_zero (hpw (p.count x)) (hpw (p.count y)))
    calc _ = (Real.exp (LowEntropy.addScore N (p.count x) p.length) * (p.count x : ℝ) ^ p.count x) *
          (entropyWeight (p ++ [y]) * (p.count y : ℝ) ^ p.count y) := by ring
      _ = (Real.exp (LowEntropy.addScore N (p.count y) p.length) * (p.count y : ℝ) ^ p.count y) *
          (entropyWeight (p ++ [x]) * (p.count x : ℝ) ^ p.count x) := by rw [ex, ey, wx, wy]; ring
      _ = _ := by ring
  linear_combination (sequentialProb (LowEntropy.addScore N) [] p /
    (∑ g ∈ p.toFinset, Real.exp (LowEntropy.addScore N (p.count g) p.length) +
      Real.exp (LowEntropy.addScore N 0 p.length))) * h

/-- The documented law is false of whole vectors, even for a complete data set of three items: two
vectors with the same group sizes are drawn with different probabilities. -/
theorem C63_fails (I : IdealRng σ) (lvl : Nat) :
    entropyWeight [0, 0, 1] = entropyWeight [0, 1, 0] ∧
      I.P {s | ∃ s', LowEntropy.sampleAssignments lvl ⟨3⟩ I.toRng 3 s = .ok ([0, 0, 1], s')} ≠
        I.P {s | ∃ s', LowEntropy.sampleAssignments lvl ⟨3⟩ I.toRng 3 s = .ok ([0, 1, 0], s')} := by
  constructor
  · have h1 : ([0, 0, 1] : List ℕ).toFinset = {0, 1} := by decide
    have h2 : ([0, 1, 0] : List ℕ).toFinset = {0, 1} := by decide
    simp [entropyWeight, h1, h2]
  · have := I.prob
    have h1 := LowEntropy.sampleAssignments_law I lvl 3 (by norm_num) [0, 0, 1] (by decide) (by simp)
      MeasurableSet.univ
    have h2 := LowEntropy.sampleAssignments_law I lvl 3 (by norm_num) [0, 1, 0] (by decide) (by simp)
      MeasurableSet.univ
    simp only [List.length_cons, List.length_nil, Set.mem_univ, true_and, measure_univ, mul_one] at h1 h2
    norm_num at h1 h2
    rw [h1, h2]
    intro h
    set c := Real.exp (LowEntropy.addScore 3 0 1) with hc
    have hcpos : 0 < c := Real.exp_pos _
    have e1 : ∀ n, Real.exp (LowEntropy.addScore 3 1 n) = 4 := by
      intro n
      unfold LowEntropy.addScore
      rw [if_neg one_ne_zero, if_neg (by norm_num), Real.exp_add, Real.exp_log (by positivity)]
      norm_num [Real.exp_log]
    have e2 : ∀ n, Real.exp (LowEntropy.addScore 3 2 n) = 27 / 4 := by
      intro n
      unfold LowEntropy.addScore
      rw [if_neg two_ne_zero, if_neg (by norm_num), Real.exp_add, Real.exp_log (by positivity),
        mul_comm (Real.log _), ← Real.log_pow, Real.exp_log (by positivity)]
      norm_num
    have e0 : Real.exp (LowEntropy.addScore 3 0 2) = 1 := by
      unfold LowEntropy.addScore
      rw [if_pos rfl, if_neg (by norm_num), Real.exp_zero]
    have hc30 : c ^ 30 = (3 / 2) ^ 11 := by
      have : LowEntropy.addScore 3 0 1 = Real.log (3 / 2) * (11 / 30) := by
        unfold LowEntropy.addScore LowEntropy.corr
        rw [if_pos rfl, if_pos (by norm_num)]
        norm_num
      rw [hc, this, ← Real.exp_nat_mul]
      rw [show ((30 : ℕ) : ℝ) * (Real.log (3 / 2) * (11 / 30)) = ((11 : ℕ) : ℝ) * Real.log (3 / 2) by
        push_cast; ring, ← Real.log_pow, Real.exp_log (by positivity)]
    have p1 : sequentialProb (LowEntropy.addScore 3) [] [0, 0, 1] = 4 / (4 + c) * (4 / 31) := by
      have h2 : ([0, 0] : List ℕ).toFinset = {0} := by decide
      simp only [sequentialProb, List.nil_append, List.cons_append]
      simp [h2, e0, e1, e2, ← hc]
      norm_num
    have p2 : sequentialProb (LowEntropy.addScore 3) [] [0, 1, 0] = c / (4 + c) * (4 / 9) := by
      have h2 : ([0, 1] : List ℕ).toFinset = {0, 1} := by decide
      simp only [sequentialProb, List.nil_append, List.cons_append]
      simp [h2, e0, e1, ← hc]
      norm_num
    rw [p1, p2, ENNReal.ofReal_eq_ofReal_iff (by positivity) (by positivity)] at h
    have hcv : c = 36 / 31 := by
      field_simp at h
      linarith
    rw [hcv] at hc30
    norm_num at hc30

/-- Not vacuous: such generators exist, and these vectors are in reach. -/
example : Nonempty (IdealRng Supply) ∧ Contiguous [0, 0, 1, 0, 2] ∧ Contiguous [0, 1, 0] :=
  ⟨idealRng_exists, by decide, by decide⟩

/-- A data set of two items is drawn as documented: together with probability 4/5, apart with 1/5. -/
theorem C63_two (I : IdealRng σ) (lvl : Nat) :
    I.P {s | ∃ s', LowEntropy.sampleAssignments lvl ⟨2⟩ I.toRng 2 s = .ok ([0, 0], s')} =
        4 / 5 ∧
      I.P {s | ∃ s', LowEntropy.sampleAssignments lvl ⟨2⟩ I.toRng 2 s = .ok ([0, 1], s')} =
        1 / 5 ∧
      entropyWeight [0, 0] = 4 ∧ entropyWeight [0, 1] = 1 := by
  have := I.prob
  have h1 := LowEntropy.sampleAssignments_law I lvl 2 (by norm_num) [0, 0] (by decide) (by simp)
    MeasurableSet.univ
  have h2 := LowEntropy.sampleAssignments_law I lvl 2 (by norm_num) [0, 1] (by decide) (by simp)
    MeasurableSet.univ
  simp only [List.length_cons, List.length_nil, Set.mem_univ, true_and, measure_univ, mul_one] at h1 h2
  norm_num at h1 h2
  have e1 : Real.exp (LowEntropy.addScore 2 1 1) = 4 := by
    unfold LowEntropy.addScore
    rw [if_neg one_ne_zero, if_neg (by norm_num), Real.exp_add, Real.exp_log (by positivity)]
    norm_num [Real.exp_log]
  have e0 : Real.exp (LowEntropy.addScore 2 0 1) = 1 := by
    unfold LowEntropy.addScore
    rw [if_pos rfl, if_neg (by norm_num), Real.exp_zero]
  refine ⟨?_, ?_, ?_, ?_⟩
  · rw [h1]
    simp only [sequentialProb, List.nil_append, List.cons_append]
    simp [e0, e1]
    rw [ENNReal.ofReal_div_of_pos (by norm_num)]
    norm_num
  · rw [h2]
    simp only [sequentialProb, List.nil_append, List.cons_append]
    simp [e0, e1]
    norm_num
    rw [ENNReal.ofReal_div_of_pos (by norm_num)]
    simp
  · have h : ([0, 0] : List ℕ).toFinset = {0} := by decide
    simp [entropyWeight, h]
    norm_num
  · have h : ([0, 1] : List ℕ).toFinset = {0, 1} := by decide
    simp [entropyWeight, h]

end Dist
