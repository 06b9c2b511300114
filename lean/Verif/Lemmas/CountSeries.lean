import Mathlib.Analysis.Analytic.Binomial
import Mathlib.Analysis.SpecialFunctions.Gamma.Beta
import Mathlib.Topology.Algebra.InfiniteSum.ENNReal
import Mathlib.Analysis.SpecialFunctions.Pow.Asymptotics
import Mathlib.Algebra.Order.Antidiag.Prod
import Verif.Spec.Distributions

/-! # Normalisation of the count distributions -/

namespace Dist.Spec

open Filter Topology

theorem gamma_add_nat {a : ℝ} (ha : 0 < a) (n : ℕ) :
    (ascPochhammer ℝ n).eval a * Real.Gamma a = Real.Gamma (a + n) := by
  induction n with
  | zero => simp
  | succ n ih =>
    rw [ascPochhammer_succ_eval, mul_right_comm, ih]
    push_cast
    rw [← add_assoc, Real.Gamma_add_one (by positivity), mul_comm]

theorem choose_eq_gamma {a : ℝ} (ha : 0 < a) (n : ℕ) :
    Ring.choose (a + n - 1) n = Real.Gamma (a + n) / (Real.Gamma a * n.factorial) := by
  have h := Ring.factorial_nsmul_multichoose_eq_ascPochhammer a n
  rw [Polynomial.ascPochhammer_smeval_eq_eval, Ring.multichoose_eq, nsmul_eq_mul] at h
  have hg : 0 < Real.Gamma a := Real.Gamma_pos_of_pos ha
  have hn : (0 : ℝ) < n.factorial := by exact_mod_cast n.factorial_pos
  rw [eq_div_iff (by positivity), ← gamma_add_nat ha, ← h]
  ring

theorem negBinomial_hasSum {a p : ℝ} (ha : 0 < a) (hp : 0 < p) (hp1 : p < 1) :
    HasSum (negBinomial a p) 1 := by
  have h := (Real.one_div_one_sub_rpow_hasFPowerSeriesOnBall_zero a).hasSum (y := 1 - p) (by
    rw [Metric.mem_eball, edist_zero_right, Real.enorm_eq_ofReal (by linarith)]
    rw [ENNReal.ofReal_lt_one]; linarith)
  simp only [FormalMultilinearSeries.ofScalars_apply_eq, zero_add, sub_sub_cancel, smul_eq_mul] at h
  have h2 := h.mul_left (p ^ a)
  rw [mul_one_div_cancel (Real.rpow_pos_of_pos hp a).ne'] at h2
  have e : negBinomial a p = fun i : ℕ => p ^ a * (Ring.choose (a + i - 1) i * (1 - p) ^ i) := by
    funext v
    rw [negBinomial, choose_eq_gamma ha]
    ring
  rw [e]; exact h2

/-- `B(a + 1, b + k)` summed over `k`. -/
noncomputable def bfun (a b : ℝ) : ℝ := Real.Gamma a * Real.Gamma b / Real.Gamma (a + b)

theorem bfun_pos {a b : ℝ} (ha : 0 < a) (hb : 0 < b) : 0 < bfun a b := by
  have h1 := Real.Gamma_pos_of_pos ha
  have h2 := Real.Gamma_pos_of_pos hb
  have h3 := Real.Gamma_pos_of_pos (add_pos ha hb)
  unfold bfun; positivity

theorem bfun_split {a b : ℝ} (ha : 0 < a) (hb : 0 < b) :
    bfun (a + 1) b = bfun a b - bfun a (b + 1) := by
  have h3 := Real.Gamma_pos_of_pos (add_pos ha hb)
  unfold bfun
  rw [show a + 1 + b = a + b + 1 by ring, ← add_assoc, Real.Gamma_add_one ha.ne',
    Real.Gamma_add_one hb.ne', Real.Gamma_add_one (add_pos ha hb).ne']
  field_simp
  ring

theorem bfun_tendsto {a b : ℝ} (ha : 0 < a) (hb : 0 < b) :
    Tendsto (fun n : ℕ => bfun a (b + n)) atTop (𝓝 0) := by
  rw [← tendsto_add_atTop_iff_nat 1]
  have hGa := Real.Gamma_pos_of_pos ha
  have hGb := Real.Gamma_pos_of_pos hb
  have hGab := Real.Gamma_pos_of_pos (add_pos ha hb)
  have prod : ∀ {s : ℝ}, 0 < s → ∀ n : ℕ,
      ∏ j ∈ Finset.range (n + 1), (s + j) = Real.Gamma (s + (n + 1 : ℕ)) / Real.Gamma s := by
    intro s hs n
    have h := Real.Gamma_pos_of_pos hs
    rw [eq_div_iff h.ne']
    generalize n + 1 = m
    induction m with
    | zero => simp
    | succ m ih =>
      rw [Finset.prod_range_succ, mul_right_comm, ih, Nat.cast_succ, ← add_assoc,
        Real.Gamma_add_one (by positivity), mul_comm]
  have key : ∀ n : ℕ, 0 < n → bfun a (b + (n + 1 : ℕ)) = Real.Gamma a * Real.Gamma b /
      Real.Gamma (a + b) * ((n : ℝ) ^ (-a) *
        (Real.GammaSeq (a + b) n / Real.GammaSeq b n)) := by
    intro n hn
    have hn' : (0 : ℝ) < n := by exact_mod_cast hn
    have h1 := Real.Gamma_pos_of_pos (show 0 < b + ((n + 1 : ℕ) : ℝ) by positivity)
    have h2 := Real.Gamma_pos_of_pos (show 0 < a + b + ((n + 1 : ℕ) : ℝ) by positivity)
    have hf : (0 : ℝ) < n.factorial := by exact_mod_cast n.factorial_pos
    have hnb := Real.rpow_pos_of_pos hn' b
    have hna := Real.rpow_pos_of_pos hn' a
    simp only [bfun, Real.GammaSeq, prod hb, prod (add_pos ha hb)]
    rw [Real.rpow_add hn', Real.rpow_neg hn'.le, ← add_assoc]
    field_simp
  have lim := ((tendsto_rpow_neg_atTop ha).comp tendsto_natCast_atTop_atTop).mul
    ((Real.GammaSeq_tendsto_Gamma (a + b)).div (Real.GammaSeq_tendsto_Gamma b) hGb.ne')
  have lim2 := lim.const_mul (Real.Gamma a * Real.Gamma b / Real.Gamma (a + b))
  simp only [zero_mul, mul_zero] at lim2
  refine lim2.congr' ?_
  filter_upwards [eventually_gt_atTop 0] with n hn
  rw [key n hn]; rfl

theorem bfun_sum_one {a b : ℝ} (ha : 0 < a) (hb : 0 < b) :
    HasSum (fun k : ℕ => bfun (a + 1) (b + k)) (bfun a b) := by
  rw [hasSum_iff_tendsto_nat_of_nonneg (fun k => (bfun_pos (by positivity) (by positivity)).le)]
  have : ∀ n, ∑ k ∈ Finset.range n, bfun (a + 1) (b + k) = bfun a b - bfun a (b + n) := by
    intro n
    induction n with
    | zero => simp
    | succ n ih =>
      rw [Finset.sum_range_succ, ih, bfun_split ha (by positivity)]; push_cast; rw [← add_assoc]; ring
  simp only [this]
  simpa using (bfun_tendsto ha hb).const_sub (bfun a b)

theorem bfun_sum {b : ℝ} (hb : 0 < b) (r : ℕ) : ∀ {a : ℝ}, 0 < a →
    HasSum (fun v : ℕ => ((v + r).choose v : ℝ) * bfun (a + (r + 1)) (b + v)) (bfun a b) := by
  induction r with
  | zero =>
    intro a ha
    simpa using bfun_sum_one ha hb
  | succ r ih =>
    intro a ha
    have hcs : ∀ v : ℕ, (v + (r + 1)).choose v =
        ∑ p ∈ Finset.antidiagonal v, (p.1 + r).choose p.1 := by
      intro v
      induction v with
      | zero => simp
      | succ v ihv =>
        rw [Finset.Nat.antidiagonal_succ', Finset.sum_cons, Finset.sum_map]
        simp only [Function.Embedding.prodMap, Function.Embedding.coeFn_mk, Prod.map_fst,
          Function.Embedding.refl_apply]
        rw [← ihv, show v + 1 + (r + 1) = (v + (r + 1)) + 1 by ring, Nat.choose_succ_succ,
          add_comm, show v + 1 + r = v + (r + 1) by ring]
    let f : ℕ × ℕ → ℝ := fun p =>
      ((p.1 + r).choose p.1 : ℝ) * bfun (a + (r + 1) + 1) (b + p.1 + p.2)
    have hf0 : 0 ≤ f := fun p => by
      have := bfun_pos (a := a + (r + 1) + 1) (b := b + p.1 + p.2) (by positivity) (by positivity)
      simp only [f, Pi.zero_apply]; positivity
    have hrow : ∀ j, HasSum (fun k => f (j, k))
        (((j + r).choose j : ℝ) * bfun (a + (r + 1)) (b + j)) := fun j =>
      (bfun_sum_one (a := a + (r + 1)) (b := b + j) (by positivity) (by positivity)).mul_left _
    have hcol := ih ha
    have hsum : Summable f := by
      rw [summable_prod_of_nonneg hf0]
      exact ⟨fun j => (hrow j).summable, by simpa only [(hrow _).tsum_eq] using hcol.summable⟩
    have hF : HasSum f (bfun a b) := by
      have := hsum.hasSum.prod_fiberwise hrow
      rw [← this.unique hcol]; exact hsum.hasSum
    have h2 := (Finset.HasAntidiagonal.sigmaAntidiagonalEquivProd (A := ℕ)).hasSum_iff.mpr hF
    have h3 := h2.sigma (fun v => hasSum_fintype _)
    convert h3 using 1
    funext v
    rw [hcs v]
    push_cast
    rw [Finset.sum_mul, ← Finset.sum_coe_sort (Finset.antidiagonal v)]
    refine Finset.sum_congr rfl fun p _ => ?_
    have hp := Finset.mem_antidiagonal.mp p.2
    have hp' : (v : ℝ) = (p.1.1 : ℝ) + p.1.2 := by exact_mod_cast hp.symm
    simp only [f, Function.comp, Finset.HasAntidiagonal.sigmaAntidiagonalEquivProd_apply]
    rw [hp', ← add_assoc b, add_assoc a]

theorem betaNegBinomial_hasSum {a b : ℝ} (ha : 0 < a) (hb : 0 < b) {r : ℕ} (hr : 0 < r) :
    HasSum (betaNegBinomial a b r) 1 := by
  obtain ⟨r, rfl⟩ : ∃ s, r = s + 1 := ⟨r - 1, by omega⟩
  have h := (bfun_sum hb r ha).div_const (bfun a b)
  rw [div_self (bfun_pos ha hb).ne'] at h
  have e : betaNegBinomial a b (r + 1) = fun v : ℕ =>
      ((v + r).choose v : ℝ) * bfun (a + (r + 1)) (b + v) / bfun a b := by
    funext v
    rw [betaNegBinomial, bfun, bfun, show v + (r + 1) - 1 = v + r by omega]
    push_cast
    ring
  rw [e]; exact h

end Dist.Spec
