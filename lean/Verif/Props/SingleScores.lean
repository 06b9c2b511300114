import Verif.Lemmas.SingleScores
import Verif.Props.Sampling

/-!
# C81: scores converted and sampled in single precision

The conversions of random.hpp with every operation rounded to single precision, `fast_exp` by its
table and its polynomial, and `fast_log` by its table.  The scores are arbitrary; what is assumed
is that there are at most `2^20` of them and that no two are more than `10^9` apart.  Beyond
`1028653057` the call of `fast_exp` is undefined behaviour (`C49_very_negative`).
-/

namespace Dist

open Spec FloatOps FloatNotation MeasureTheory Single

variable {lib : Libm} {σ : Type}

/-- The probabilities the scores stand for. -/
noncomputable def Spec.softmax (x : List ℝ) : List ℝ :=
  x.map fun y => Real.exp y / (x.map Real.exp).sum

namespace Single

/-- The same, relative to any score. -/
theorem softmax_shift (x : List ℝ) (m y : ℝ) :
    Real.exp y / (x.map Real.exp).sum =
      Real.exp (y - m) / (x.map fun y => Real.exp (y - m)).sum := by
  rw [sum_exp_shift, Real.exp_sub, div_div_div_cancel_right₀ (Real.exp_pos m).ne']

theorem softmax_eq (x : List ℝ) (m : ℝ) :
    softmax x = x.map fun y => Real.exp (y - m) / (x.map fun y => Real.exp (y - m)).sum := by
  unfold softmax
  exact List.map_congr_left fun y _ => softmax_shift x m y

theorem sum_div_const (l : List ℝ) (f : ℝ → ℝ) (t : ℝ) :
    (l.map fun y => f y / t).sum = (l.map f).sum / t := by
  induction l with
  | nil => simp
  | cons y ys ih => simp only [List.map_cons, List.sum_cons, ih]; ring

theorem cum_softmax (x : List ℝ) (m : ℝ) (j : ℕ) : cum (softmax x) j =
    ((x.take j).map fun y => Real.exp (y - m)).sum / (x.map fun y => Real.exp (y - m)).sum := by
  rw [softmax_eq x m, cum, ← List.map_take, sum_div_const]

theorem softmax_nonneg (x : List ℝ) : ∀ q ∈ softmax x, 0 ≤ q := by
  intro q hq
  obtain ⟨y, hy, rfl⟩ := List.mem_map.mp hq
  exact (div_pos (Real.exp_pos y) (sum_exp_pos (List.ne_nil_of_mem hy))).le

theorem softmax_sum {x : List ℝ} (hne : x ≠ []) : (softmax x).sum = 1 := by
  unfold softmax
  rw [sum_div_const, div_self (sum_exp_pos hne).ne']

theorem cum_softmax_mem {x : List ℝ} (hne : x ≠ []) (j : ℕ) :
    0 ≤ cum (softmax x) j ∧ cum (softmax x) j ≤ 1 := by
  constructor
  · rw [← cum_zero (softmax x)]
    exact cum_mono (softmax_nonneg x) (Nat.zero_le _)
  · rcases le_total j (softmax x).length with h | h
    · rw [← softmax_sum hne, ← cum_length]
      exact cum_mono (softmax_nonneg x) h
    · rw [← softmax_sum hne, cum, List.take_of_length_le h]

/-- Cumulative likelihoods against cumulative probabilities. -/
theorem cum_near {x : List ℝ} {m : ℝ} (L : Liks lib x m) (hn : x.length ≤ 2 ^ 20) (j : ℕ) {T : ℝ}
    (hT : T = sumf (x.map fun y => expf lib (nearest (y - m)))) :
    |cum (x.map fun y => expf lib (nearest (y - m))) j - T * cum (softmax x) j| ≤
      (72 / 10 ^ 6 + 4 / 3 * (1 + 3 / 10 ^ 4) * (x.length / 2 ^ 22)) * T := by
  have hne : x ≠ [] := List.ne_nil_of_mem L.mem
  have hk1 : (x.length : ℝ) ≤ 2 ^ 20 := by exact_mod_cast hn
  have hk0 : (0 : ℝ) ≤ x.length := by positivity
  have h1 : |((x.take j).map fun y => expf lib (nearest (y - m))).sum -
      ((x.take j).map fun y => Real.exp (y - m)).sum| ≤
      26 / 10 ^ 6 * ((x.take j).map fun y => Real.exp (y - m)).sum +
      (x.take j).length * (1 / 2 ^ 124) :=
    sum_near fun y hy => L.each y (List.mem_of_mem_take hy)
  have hlen : ((x.take j).length : ℝ) ≤ 2 ^ 20 := by
    refine le_trans ?_ hk1
    exact_mod_cast List.length_take_le' _ _
  have hc := cum_softmax_mem hne j
  have hcum := cum_softmax x m j
  have hL := L.total
  have hE := L.one_le
  rw [← hT] at hL
  obtain ⟨-, -, hT0⟩ := recip_near hE L.sum_le hk1 hL
  have hcl : cum (x.map fun y => expf lib (nearest (y - m))) j =
      ((x.take j).map fun y => expf lib (nearest (y - m))).sum := by rw [cum, ← List.map_take]
  rw [hcl]
  rw [eq_div_iff (by linarith)] at hcum
  rw [← hcum] at h1
  generalize (x.map fun y => Real.exp (y - m)).sum = E at *
  generalize ((x.take j).map fun y => expf lib (nearest (y - m))).sum = A at *
  generalize cum (softmax x) j = c at *
  generalize (x.length : ℝ) = k at *
  have h2 : ((x.take j).length : ℝ) * (1 / 2 ^ 124) ≤ 1 / 10 ^ 8 := by
    calc ((x.take j).length : ℝ) * (1 / 2 ^ 124) ≤ 2 ^ 20 * (1 / 2 ^ 124) := by gcongr
      _ ≤ _ := by norm_num
  have hEc : c * E ≤ E := by nlinarith
  have h3 : |T * c - c * E| ≤ (27 / 10 ^ 6 + k / 2 ^ 22) * E := by
    have : T * c - c * E = (T - E) * c := by ring
    rw [this, abs_mul, abs_of_nonneg hc.1]
    calc |T - E| * c ≤ (27 / 10 ^ 6 + k / 2 ^ 22) * E * 1 := by
          apply mul_le_mul hL hc.2 hc.1 (by positivity)
      _ = _ := by ring
  have h4 : |A - T * c| ≤ (5301 / 10 ^ 8 + k / 2 ^ 22) * E := by
    calc |A - T * c| = |(A - c * E) - (T * c - c * E)| := by congr 1; ring
      _ ≤ |A - c * E| + |T * c - c * E| := abs_sub _ _
      _ ≤ _ := by linarith
  refine h4.trans ?_
  have h5 : E ≤ 4 / 3 * (1 + 3 / 10 ^ 4) * T := by linarith
  calc (5301 / 10 ^ 8 + k / 2 ^ 22) * E ≤
      (5301 / 10 ^ 8 + k / 2 ^ 22) * (4 / 3 * (1 + 3 / 10 ^ 4) * T) := by gcongr
    _ ≤ _ := by nlinarith

end Single

/-- **C81, probabilities.** `scores_to_probs` in single precision returns, for every score, its
probability with a small relative error, and their sum is close to 1.  (Probabilities below
`2^-120` may be lost altogether.) -/
theorem C81_probs (hl : LogNear lib.expVar) (hp : PowAccurate lib.expVar) (x : List ℝ) (hne : x ≠ [])
    (hn : x.length ≤ 2 ^ 20) (hs : ∀ y ∈ x, ∀ z ∈ x, y - z ≤ 10 ^ 9) :
    ∃ p : List ℝ, scoresToProbs (x.map (Single.mk (lib := lib))) = .ok (p.map Single.mk) ∧
      List.Forall₂ (fun q r : ℝ => 0 ≤ q ∧
        |q - r| ≤ (80 / 10 ^ 6 + x.length / 2 ^ 21) * r + 1 / 2 ^ 120) p (softmax x) ∧
      |p.sum - 1| ≤ 100 / 10 ^ 6 + x.length / 2 ^ 21 := by
  obtain ⟨m, hm, htop, -, e⟩ := scoresToLikelihoods_mk (lib := lib) x hne
  have L := liks hl hp hm htop hn hs
  have hk1 : (x.length : ℝ) ≤ 2 ^ 20 := by exact_mod_cast hn
  have hk0 : (0 : ℝ) ≤ x.length := by positivity
  obtain ⟨hr, -, hT⟩ := recip_near L.one_le L.sum_le hk1 L.total
  have hE := L.one_le
  set T := sumf (x.map fun y => expf lib (nearest (y - m))) with hTdef
  have hTpos : 0 < T := by linarith
  have key : ∀ y ∈ x, 0 ≤ nearest (expf lib (nearest (y - m)) * nearest (1 / T)) ∧
      |nearest (expf lib (nearest (y - m)) * nearest (1 / T)) - Real.exp y / (x.map Real.exp).sum| ≤
        (80 / 10 ^ 6 + x.length / 2 ^ 21) * (Real.exp y / (x.map Real.exp).sum) + 1 / 2 ^ 120 := by
    intro y hy
    refine ⟨nearest.neg_le_of_nonneg (mul_nonneg (L.nonneg y hy)
      (nearest.neg_le_of_nonneg (by positivity))), ?_⟩
    rw [softmax_shift x m]
    exact prob_near hE (Real.exp_pos _).le hk0 hk1 (L.each y hy) hr
  refine ⟨x.map fun y => nearest (expf lib (nearest (y - m)) * nearest (1 / T)), ?_, ?_, ?_⟩
  · rw [scoresToProbs, e, Res.ok_bind]
    simp only
    have hscale := (C52_elementwise ((x.map fun y => expf lib (nearest (y - m))).map
      (Single.mk (lib := lib))) _ _ [] [] [] (lit 1 1 / (⟨T⟩ : Single lib)) rfl rfl).2.2.1
    simp only [List.append_nil] at hscale
    rw [hscale, List.map_map, List.map_map, List.map_map]
    refine congrArg Res.ok (List.map_congr_left fun y _ => ?_)
    simp only [Function.comp_apply, one_mk, div_mk, mul_mk]
  · unfold softmax
    rw [List.forall₂_map_left_iff, List.forall₂_map_right_iff, List.forall₂_same]
    exact key
  · have h := sum_near (x := x) (f := fun y => nearest (expf lib (nearest (y - m)) * nearest (1 / T)))
      (g := fun y => Real.exp y / (x.map Real.exp).sum) fun y hy => (key y hy).2
    have hone : (x.map fun y => Real.exp y / (x.map Real.exp).sum).sum = 1 := softmax_sum hne
    rw [hone] at h
    refine h.trans ?_
    have : (x.length : ℝ) * (1 / 2 ^ 120) ≤ 1 / 10 ^ 8 := by
      calc (x.length : ℝ) * (1 / 2 ^ 120) ≤ 2 ^ 20 * (1 / 2 ^ 120) := by gcongr
        _ ≤ _ := by norm_num
    linarith

/-- **C81, log-sum-exp.** `log_sum_exp` in single precision; `B` bounds the scores. -/
theorem C81_log_sum_exp (hl : LogNear lib.expVar) (hp : PowAccurate lib.expVar) (x : List ℝ)
    (hne : x ≠ []) (hn : x.length ≤ 2 ^ 20) (hs : ∀ y ∈ x, ∀ z ∈ x, y - z ≤ 10 ^ 9) {B : ℝ}
    (hB : ∀ y ∈ x, |y| ≤ B) :
    ∃ r : ℝ, logSumExp (x.map (Single.mk (lib := lib))) = .ok ⟨r⟩ ∧
      |r - Real.log (x.map Real.exp).sum| ≤ 165 / 10 ^ 6 + x.length / 2 ^ 21 + B / 2 ^ 24 := by
  obtain ⟨m, hm, htop, hmax, -⟩ := scoresToLikelihoods_mk (lib := lib) x hne
  have L := liks hl hp hm htop hn hs
  refine ⟨_, logSumExp_mk x hne hmax, ?_⟩
  have hk1 : (x.length : ℝ) ≤ 2 ^ 20 := by exact_mod_cast hn
  have hk0 : (0 : ℝ) ≤ x.length := by positivity
  obtain ⟨-, hq, hT⟩ := recip_near L.one_le L.sum_le hk1 L.total
  have hE := L.one_le
  have hEk := L.sum_le
  have htot := abs_le.1 L.total
  have hmB := hB m hm
  have hsing : nearest (sumf (x.map fun y => expf lib (nearest (y - m)))) =
      sumf (x.map fun y => expf lib (nearest (y - m))) := by
    rcases List.eq_nil_or_concat x with rfl | ⟨xs, a, rfl⟩
    · exact absurd rfl hne
    · rw [List.concat_eq_append, List.map_append, List.map_singleton, sumf_concat, nearest.idem]
  have hlogE : Real.log (x.map Real.exp).sum = Real.log (x.map fun y => Real.exp (y - m)).sum + m := by
    rw [sum_exp_shift, Real.log_div (sum_exp_pos hne).ne' (Real.exp_pos m).ne', Real.log_exp]
    ring
  rw [hlogE]
  generalize sumf (x.map fun y => expf lib (nearest (y - m))) = T at *
  generalize (x.map fun y => Real.exp (y - m)).sum = E at *
  generalize (x.length : ℝ) = k at *
  have hTpos : 0 < T := by linarith
  have hE0 : 0 < E := by linarith
  have hkk : k / 2 ^ 22 ≤ 1 / 4 := by
    calc k / 2 ^ 22 ≤ 2 ^ 20 / 2 ^ 22 := by gcongr
      _ = _ := by norm_num
  have hk3 : 0 ≤ k / 2 ^ 22 := by positivity
  have hT2 : T ≤ 2 ^ 21 := by
    have : T ≤ 2 * E := by nlinarith [htot.2]
    linarith
  have hnorm : IsNormal T := ⟨hsing, by
    refine le_trans ?_ (by linarith : (1 / 2 : ℝ) ≤ T)
    norm_num, by
    refine lt_of_le_of_lt hT2 ?_
    norm_num⟩
  have h1 := logf_near hnorm
  -- `log T` and `log E`
  have h2 : |Real.log T - Real.log E| ≤ 38 / 10 ^ 6 + 7 / 4 * (k / 2 ^ 22) := by
    rw [abs_le]
    have hq' := abs_le.1 hq
    constructor
    · have := Real.log_le_sub_one_of_pos (show 0 < E / T by positivity)
      rw [Real.log_div hE0.ne' hTpos.ne'] at this
      have e1 : E / T = 1 / T * E := by ring
      rw [e1] at this
      linarith [hq'.2]
    · have := Real.log_le_sub_one_of_pos (show 0 < T / E by positivity)
      rw [Real.log_div hTpos.ne' hE0.ne'] at this
      have e1 : T / E - 1 ≤ 27 / 10 ^ 6 + k / 2 ^ 22 := by
        rw [sub_le_iff_le_add, div_le_iff₀ hE0]
        linarith [htot.2]
      linarith
  have h3 : |Real.log T| ≤ 15 := by
    rw [abs_le]
    have a := Real.log_le_log hTpos hT2
    have b := Real.log_le_log (show (0 : ℝ) < 1 / 2 by norm_num) (show 1 / 2 ≤ T by linarith)
    have c := Real.log_two_lt_d9
    rw [Real.log_pow] at a
    rw [Real.log_div (by norm_num) (by norm_num), Real.log_one] at b
    push_cast at a
    constructor <;> linarith
  have herr := nearest.error (logf T + m)
  have h4 : |logf T + m| ≤ 16 + B := by
    have h1' := abs_lt.1 h1
    have h3' := abs_le.1 h3
    have hm' := abs_le.1 hmB
    have : (1 : ℝ) / 2 ^ 13 ≤ 1 := by norm_num
    rw [abs_le]
    constructor <;> linarith [h1'.1, h1'.2]
  have h5 : |nearest (logf T + m) - (logf T + m)| ≤ 1 / 10 ^ 6 + B / 2 ^ 24 := by
    refine herr.trans ?_
    have a : (2⁻¹ : ℝ) ^ 24 * |logf T + m| ≤ 2⁻¹ ^ 24 * (16 + B) := by gcongr
    have b : (2⁻¹ : ℝ) ^ 24 * (16 + B) = 2⁻¹ ^ 20 + B / 2 ^ 24 := by ring
    have c : (2⁻¹ : ℝ) ^ 20 + 2⁻¹ ^ 150 ≤ 1 / 10 ^ 6 := by norm_num
    linarith
  have h6 : (1 : ℝ) / 2 ^ 13 ≤ 1221 / 10 ^ 7 := by norm_num
  have e21 : k / 2 ^ 21 = 2 * (k / 2 ^ 22) := by ring
  rw [e21]
  have h1' := abs_lt.1 h1
  have h2' := abs_le.1 h2
  have h5' := abs_le.1 h5
  rw [abs_le]
  constructor <;> linarith [h1'.1, h1'.2, h2'.1, h2'.2, h5'.1, h5'.2]

/-- **C81, sampling.** Sampling from scores in single precision with the draw `u` returns an index
in whose interval of the cumulative probabilities `u` lies, up to a small error, and
`sample_prob_from_scores_overwrite` returns with it its probability. -/
theorem C81_sampling (hl : LogNear lib.expVar) (hp : PowAccurate lib.expVar) (x : List ℝ)
    (hne : x ≠ []) (hn : x.length ≤ 2 ^ 20) (hs : ∀ y ∈ x, ∀ z ∈ x, y - z ≤ 10 ^ 9)
    (rng : Rng (Single lib) σ) (s s' : σ) {u : ℝ} (hu : Draws rng s ⟨u⟩ s') (u0 : 0 ≤ u)
    (u1 : u ≤ 1) :
    ∃ (i : ℕ) (hi : i < x.length) (q : ℝ),
      sampleFromScores rng s (x.map Single.mk) = .ok (i, s') ∧
      sampleProbFromScoresOverwrite rng s (x.map Single.mk) = .ok (i, ⟨q⟩, s') ∧
      cum (softmax x) i - (80 / 10 ^ 6 + x.length / 2 ^ 21) ≤ u ∧
      u ≤ cum (softmax x) (i + 1) + (80 / 10 ^ 6 + x.length / 2 ^ 21) ∧
      |q - Real.exp x[i] / (x.map Real.exp).sum| ≤
        (80 / 10 ^ 6 + x.length / 2 ^ 21) * (Real.exp x[i] / (x.map Real.exp).sum) + 1 / 2 ^ 120 := by
  obtain ⟨m, hm, htop, -, e⟩ := scoresToLikelihoods_mk (lib := lib) x hne
  have L := liks hl hp hm htop hn hs
  have hk1 : (x.length : ℝ) ≤ 2 ^ 20 := by exact_mod_cast hn
  have hk0 : (0 : ℝ) ≤ x.length := by positivity
  obtain ⟨-, hr, hT⟩ := recip_near L.one_le L.sum_le hk1 L.total
  have hE := L.one_le
  have hsing : nearest (sumf (x.map fun y => expf lib (nearest (y - m)))) =
      sumf (x.map fun y => expf lib (nearest (y - m))) := by
    rcases List.eq_nil_or_concat x with rfl | ⟨xs, a, rfl⟩
    · exact absurd rfl hne
    · rw [List.concat_eq_append, List.map_append, List.map_singleton, sumf_concat, nearest.idem]
  have hcn := fun j => cum_near L hn j rfl
  set T := sumf (x.map fun y => expf lib (nearest (y - m))) with hTdef
  have hT1 : 1 / 2 ≤ T := by linarith
  have hTpos : 0 < T := by linarith
  have ht0 : nearest (T * u) ≤ T := by
    rw [← hsing]
    exact nearest.monotone (by nlinarith)
  obtain ⟨j, hj, hloop, hlo, hup⟩ := likelihoodLoop_mk (lib := lib) x.length (B := T)
    (η := T / 2 ^ 23) le_rfl hT1 (x.map fun y => expf lib (nearest (y - m))) 0 (nearest (T * u))
    (by simpa using hne) (by
      intro z hz
      obtain ⟨w, hw, rfl⟩ := List.mem_map.mp hz
      exact L.nonneg w hw) (nearest.idem _) ht0 (by simp)
  rw [List.length_map] at hj hup
  rw [Nat.zero_add] at hloop
  have hlik : sampleFromLikelihoods rng s
      ((x.map fun y => expf lib (nearest (y - m))).map (Single.mk (lib := lib))) ⟨T⟩ = .ok (j, s') := by
    have h0 : 0 < ((x.map fun y => expf lib (nearest (y - m))).map (Single.mk (lib := lib))).length := by
      simpa using List.length_pos_iff.2 hne
    rw [sampleFromLikelihoods, distAssert0_of h0, Res.ok_bind, hu]
    simp only [List.length_map]
    rw [mul_mk, hloop]
    rfl
  have hterr : |nearest (T * u) - T * u| ≤ T / 2 ^ 23 := by
    have h := nearest.error (T * u)
    have hTu0 : 0 ≤ T * u := by positivity
    have hTu : T * u ≤ T := by nlinarith
    rw [abs_of_nonneg hTu0] at h
    refine h.trans ?_
    have h1 : (2⁻¹ : ℝ) ^ 24 * (T * u) ≤ 2⁻¹ ^ 24 * T := by gcongr
    have h2 : (2⁻¹ : ℝ) ^ 150 ≤ 2⁻¹ ^ 24 * T := by
      calc (2⁻¹ : ℝ) ^ 150 ≤ 2⁻¹ ^ 24 * (1 / 2) := by norm_num
        _ ≤ _ := by gcongr
    have h3 : T / 2 ^ 23 = 2⁻¹ ^ 24 * T + 2⁻¹ ^ 24 * T := by ring
    rw [h3]
    linarith
  have hterr' := abs_le.1 hterr
  have hjk : ((j : ℝ) + 1) ≤ x.length := by exact_mod_cast hj
  have hj0 : (0 : ℝ) ≤ j := by positivity
  have hkp : (0 : ℝ) ≤ x.length / 2 ^ 22 := by positivity
  have e21 : (x.length : ℝ) / 2 ^ 21 = 2 * (x.length / 2 ^ 22) := by ring
  refine ⟨j, hj, nearest (expf lib (nearest (x[j] - m)) / T), ?_, ?_, ?_, ?_, ?_⟩
  · rw [sampleFromScores, sampleFromScoresOverwrite, e, Res.ok_bind]
    simp only
    rw [hlik]; rfl
  · rw [sampleProbFromScoresOverwrite, e, Res.ok_bind]
    simp only
    rw [hlik, Res.ok_bind]
    simp only
    rw [getAt_of (by simpa using hj), Res.ok_bind]
    simp only [List.getElem_map, div_mk]
    rfl
  · rcases hlo with rfl | hlo
    · rw [cum_zero]
      have : (0 : ℝ) ≤ x.length / 2 ^ 21 := by positivity
      linarith
    · have h := abs_le.1 (hcn j)
      rw [e21]
      have h1 : T * cum (softmax x) j ≤
          T * (u + (80 / 10 ^ 6 + 2 * (x.length / 2 ^ 22))) := by
        have h2 : ((j : ℝ) + 1) * (T / 2 ^ 23) ≤ 1 / 2 * (x.length / 2 ^ 22) * T := by
          calc ((j : ℝ) + 1) * (T / 2 ^ 23) ≤ x.length * (T / 2 ^ 23) := by gcongr
            _ = _ := by ring
        nlinarith [h.1, hterr'.2]
      have := le_of_mul_le_mul_left h1 hTpos
      linarith
  · rcases hup with hup | hup
    · have h := abs_le.1 (hcn (j + 1))
      rw [e21]
      have h1 : T * u ≤ T * (cum (softmax x) (j + 1) + (80 / 10 ^ 6 + 2 * (x.length / 2 ^ 22))) := by
        have h2 : ((j : ℝ) + 1) * (T / 2 ^ 23) ≤ 1 / 2 * (x.length / 2 ^ 22) * T := by
          calc ((j : ℝ) + 1) * (T / 2 ^ 23) ≤ x.length * (T / 2 ^ 23) := by gcongr
            _ = _ := by ring
        nlinarith [h.2, hterr'.1]
      exact le_of_mul_le_mul_left h1 hTpos
    · rw [hup]
      have : cum (softmax x) x.length = 1 := by
        rw [← softmax_sum hne, ← cum_length, softmax, List.length_map]
      have : (0 : ℝ) ≤ x.length / 2 ^ 21 := by positivity
      linarith
  · rw [softmax_shift x m]
    have := prob_near hE (Real.exp_pos _).le hk0 hk1 (L.each x[j] (List.getElem_mem hj)) hr
    rwa [mul_one_div] at this

/-- **C81, law.** The draws on which an index is returned have measure its probability, up to a
small error. -/
theorem C81_probability (hl : LogNear lib.expVar) (hp : PowAccurate lib.expVar) (x : List ℝ)
    (hn : x.length ≤ 2 ^ 20) (hs : ∀ y ∈ x, ∀ z ∈ x, y - z ≤ 10 ^ 9)
    (rng : ℝ → Rng (Single lib) σ) (s s' : σ) (hu : ∀ u, Draws (rng u) s ⟨u⟩ s') (i : ℕ)
    (hi : i < x.length) :
    let p := Real.exp x[i] / (x.map Real.exp).sum
    let v := volume {u : ℝ | 0 ≤ u ∧ u < 1 ∧
      sampleFromScores (rng u) s (x.map Single.mk) = .ok (i, s')}
    ENNReal.ofReal (p - (160 / 10 ^ 6 + x.length / 2 ^ 20)) ≤ v ∧
      v ≤ ENNReal.ofReal (p + (160 / 10 ^ 6 + x.length / 2 ^ 20)) := by
  have hne : x ≠ [] := by rintro rfl; simp at hi
  set ε : ℝ := 80 / 10 ^ 6 + x.length / 2 ^ 21 with hε
  have hε0 : 0 < ε := by positivity
  have e2 : 160 / 10 ^ 6 + (x.length : ℝ) / 2 ^ 20 = 2 * ε := by rw [hε]; ring
  have hlen : (softmax x).length = x.length := by rw [softmax, List.length_map]
  have hsucc : cum (softmax x) (i + 1) = cum (softmax x) i + Real.exp x[i] / (x.map Real.exp).sum := by
    rw [cum_succ (by rw [hlen]; exact hi)]
    simp [softmax]
  have hmono := fun {a b : ℕ} (h : a ≤ b) => cum_mono (softmax_nonneg x) h
  have h01 := fun j => cum_softmax_mem hne j
  intro p v
  rw [e2]
  constructor
  · have hsub : Set.Ioo (cum (softmax x) i + ε) (cum (softmax x) (i + 1) - ε) ⊆
        {u : ℝ | 0 ≤ u ∧ u < 1 ∧ sampleFromScores (rng u) s (x.map Single.mk) = .ok (i, s')} := by
      rintro u ⟨h1, h2⟩
      have u0 : 0 ≤ u := by linarith [(h01 i).1]
      have u1 : u < 1 := by linarith [(h01 (i + 1)).2]
      refine ⟨u0, u1, ?_⟩
      obtain ⟨j, hj, q, hsam, -, hlo, hup, -⟩ := C81_sampling hl hp x hne hn hs (rng u) s s' (hu u) u0 u1.le
      have : j = i := by
        rcases lt_trichotomy j i with h | h | h
        · have := hmono (show j + 1 ≤ i from h)
          linarith
        · exact h
        · have := hmono (show i + 1 ≤ j from h)
          linarith
      rw [hsam, this]
    refine le_trans (le_of_eq ?_) (measure_mono hsub)
    rw [Real.volume_Ioo]
    congr 1
    rw [hsucc]
    ring
  · have hsub : {u : ℝ | 0 ≤ u ∧ u < 1 ∧ sampleFromScores (rng u) s (x.map Single.mk) = .ok (i, s')} ⊆
        Set.Icc (cum (softmax x) i - ε) (cum (softmax x) (i + 1) + ε) := by
      rintro u ⟨u0, u1, hsam⟩
      obtain ⟨j, hj, q, hsam', -, hlo, hup, -⟩ := C81_sampling hl hp x hne hn hs (rng u) s s' (hu u) u0 u1.le
      rw [hsam] at hsam'
      injection hsam' with h
      injection h with h _
      subst h
      exact ⟨hlo, hup⟩
    refine (measure_mono hsub).trans (le_of_eq ?_)
    rw [Real.volume_Icc]
    congr 1
    rw [hsucc]
    ring

/-- Non-triviality: a C library as good as the theorems ask for, and scores `0` and `log 3`, whose
second index is drawn with probability 3/4 up to `0.00017`. -/
example (rng : ℝ → Rng (Single ⟨fun _ => 0, floorTable⟩) σ) (s s' : σ)
    (hu : ∀ u, Draws (rng u) s ⟨u⟩ s') :
    volume {u : ℝ | 0 ≤ u ∧ u < 1 ∧ sampleFromScores (rng u) s
      ([0, Real.log 3].map Single.mk) = .ok (1, s')} ≤ ENNReal.ofReal (3 / 4 + 17 / 10 ^ 5) := by
  have hlog : 0 < Real.log 3 := Real.log_pos (by norm_num)
  have hlog' : Real.log 3 ≤ 2 := by
    have := Real.log_le_sub_one_of_pos (show (0 : ℝ) < 3 by norm_num)
    linarith
  have h := (C81_probability (lib := ⟨fun _ => 0, floorTable⟩) (Exp.LogExact.near rfl) floorTable_accurate
    [0, Real.log 3] (by simp) (by
      intro y hy z hz
      simp only [List.mem_cons, List.not_mem_nil, or_false] at hy hz
      rcases hy with rfl | rfl <;> rcases hz with rfl | rfl <;> linarith) rng s s' hu 1 (by simp)).2
  refine h.trans (ENNReal.ofReal_le_ofReal ?_)
  simp only [List.getElem_cons_succ, List.getElem_cons_zero, List.map_cons, List.map_nil,
    List.sum_cons, List.sum_nil, Real.exp_zero, Real.exp_log (show (0 : ℝ) < 3 by norm_num),
    List.length_cons, List.length_nil]
  norm_num

end Dist
