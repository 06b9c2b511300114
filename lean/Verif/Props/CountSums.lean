import Verif.Lemmas.CountSeries
import Verif.Props.GP
import Verif.Props.BNB

/-! # C31: count predictive distributions -/

namespace Dist

open Spec FloatOps FloatNotation

/-- **C31 (Gamma-Poisson).** For every group, the predictive probability of every value
is that of a negative binomial distribution with the posterior parameters, and that
distribution sums to one over all natural numbers. -/
theorem C31_gp (a b : ℝ) (ha : 0 < a) (hb : 0 < b) (g : GP.Group XR) :
    (∀ v : UInt32, exp (g.scoreValue (GP.real a b) v) =
      .fin (negBinomial (a + g.sum.toNat)
        ((b + g.count.toNat) / (1 + (b + g.count.toNat))) v.toNat)) ∧
    HasSum (negBinomial (a + g.sum.toNat) ((b + g.count.toNat) / (1 + (b + g.count.toNat)))) 1 := by
  obtain ⟨c, s, l⟩ := g
  have h1 : 0 < a + (s.toNat : ℝ) := by positivity
  have h2 : 0 < b + (c.toNat : ℝ) := by positivity
  have h4 : 0 < 1 + (b + (c.toNat : ℝ)) := by positivity
  refine ⟨fun v => ?_, negBinomial_hasSum h1 (by positivity) (by rw [div_lt_one h4]; linarith)⟩
  have h3 : 0 < a + (s.toNat : ℝ) + v.toNat := by positivity
  have hf : (0 : ℝ) < v.toNat.factorial := by exact_mod_cast v.toNat.factorial_pos
  have g1 := Real.Gamma_pos_of_pos h1
  have g3 := Real.Gamma_pos_of_pos h3
  rw [GP.scoreValue_eq ha hb, XR.exp_fin, XR.fin_inj]
  simp only
  rw [negBinomial]
  generalize a + (s.toNat : ℝ) = A at *
  generalize b + (c.toNat : ℝ) = B at *
  have e1 : 1 - B / (1 + B) = 1 / (1 + B) := by field_simp; ring
  rw [e1, Real.div_rpow h2.le h4.le, ← Real.rpow_natCast (1 / (1 + B)),
    Real.div_rpow zero_le_one h4.le, Real.one_rpow, Real.exp_sub, Real.exp_sub, Real.exp_add,
    Real.exp_add, Real.exp_neg, Real.exp_log g1, Real.exp_log g3, Real.exp_log hf,
    mul_comm A, Real.exp_mul, Real.exp_sub, Real.exp_log h2, Real.exp_log h4,
    Real.div_rpow h2.le h4.le, Real.exp_mul, Real.exp_log h4]
  have p1 := Real.rpow_pos_of_pos h4 A
  have p2 := Real.rpow_pos_of_pos h4 (v.toNat : ℝ)
  field_simp

/-- Since values are `uint32_t`, the probabilities of all values of that type sum to
strictly less than one. -/
theorem C31_gp_uint32 (a b : ℝ) (ha : 0 < a) (hb : 0 < b) (g : GP.Group XR) :
    ∃ p : Fin (2 ^ 32) → ℝ, (∀ v : UInt32, exp (g.scoreValue (GP.real a b) v) =
      .fin (p ⟨v.toNat, v.toNat_lt⟩)) ∧ (∀ v, 0 < p v) ∧ ∑ v, p v < 1 := by
  obtain ⟨h1, h2⟩ := C31_gp a b ha hb g
  have hA : 0 < a + (g.sum.toNat : ℝ) := by positivity
  have hB : 0 < b + (g.count.toNat : ℝ) := by positivity
  have hpos : ∀ v, 0 < negBinomial (a + g.sum.toNat)
      ((b + g.count.toNat) / (1 + (b + g.count.toNat))) v := by
    intro v
    have g1 := Real.Gamma_pos_of_pos hA
    have g3 := Real.Gamma_pos_of_pos (show 0 < a + (g.sum.toNat : ℝ) + v by positivity)
    have hf : (0 : ℝ) < v.factorial := by exact_mod_cast v.factorial_pos
    have e1 : 1 - (b + g.count.toNat) / (1 + (b + g.count.toNat)) =
        1 / (1 + (b + (g.count.toNat : ℝ))) := by field_simp; ring
    rw [negBinomial, e1]
    have := Real.rpow_pos_of_pos (show 0 < (b + g.count.toNat) /
      (1 + (b + (g.count.toNat : ℝ))) by positivity) (a + g.sum.toNat)
    positivity
  refine ⟨fun v => negBinomial (a + g.sum.toNat)
    ((b + g.count.toNat) / (1 + (b + g.count.toNat))) v.1, h1, fun v => hpos v.1, ?_⟩
  rw [Fin.sum_univ_eq_sum_range (fun n => negBinomial (a + g.sum.toNat)
    ((b + g.count.toNat) / (1 + (b + g.count.toNat))) n)]
  have h3 := h2.summable.sum_le_tsum (Finset.range (2 ^ 32 + 1)) (fun i _ => (hpos i).le)
  rw [h2.tsum_eq, Finset.sum_range_succ] at h3
  have := hpos (2 ^ 32)
  linarith

/-- **C31 (Beta-Negative-Binomial), what holds.** For every group and every `r >= 1`,
the predictive score is the log probability under a beta negative binomial distribution
(which sums to one) *without its binomial coefficient*.  So for `r = 1` it is a proper
distribution.

Full statement: the exponentials of the scores sum to one for every `r`.  That is false
for `r >= 2`, see `C31_bnb_deficient`. -/
theorem C31_bnb_partial (a b : ℝ) (ha : 0 < a) (hb : 0 < b) (r : UInt32) (hr : 0 < r.toNat)
    (g : BNB.Group) :
    ∃ q : UInt32 → ℝ, (∀ v, exp (g.scoreValue (BNB.real a b r) v) = .fin (q v)) ∧
      (∀ v, ((v.toNat + r.toNat - 1).choose v.toNat : ℝ) * q v =
        betaNegBinomial (a + r.toNat * g.count.toNat) (b + g.sum.toNat) r.toNat v.toNat) ∧
      (r = 1 → ∀ v, q v =
        betaNegBinomial (a + r.toNat * g.count.toNat) (b + g.sum.toNat) r.toNat v.toNat) ∧
      HasSum (betaNegBinomial (a + r.toNat * g.count.toNat) (b + g.sum.toNat) r.toNat) 1 := by
  obtain ⟨c, s⟩ := g
  have h1 : 0 < a + (r.toNat : ℝ) * c.toNat := by positivity
  have h2 : 0 < b + (s.toNat : ℝ) := by positivity
  have hq : ∀ v : UInt32, exp ((⟨c, s⟩ : BNB.Group).scoreValue (BNB.real a b r) v) =
      .fin (Real.Gamma (a + r.toNat * c.toNat + r.toNat) * Real.Gamma (b + s.toNat + v.toNat) /
        Real.Gamma (a + r.toNat * c.toNat + r.toNat + (b + s.toNat + v.toNat)) /
        (Real.Gamma (a + r.toNat * c.toNat) * Real.Gamma (b + s.toNat) /
          Real.Gamma (a + r.toNat * c.toNat + (b + s.toNat)))) := by
    intro v
    have h3 : 0 < a + (r.toNat : ℝ) * c.toNat + r.toNat := by positivity
    have h4 : 0 < b + (s.toNat : ℝ) + v.toNat := by positivity
    have p1 := Real.Gamma_pos_of_pos h1
    have p2 := Real.Gamma_pos_of_pos h2
    have p3 := Real.Gamma_pos_of_pos h3
    have p4 := Real.Gamma_pos_of_pos h4
    have p5 := Real.Gamma_pos_of_pos (add_pos h1 h2)
    have p6 := Real.Gamma_pos_of_pos (add_pos h3 h4)
    rw [BNB.scoreValue_eq ha hb, XR.exp_fin, XR.fin_inj, Real.exp_add, Real.exp_add,
      Real.exp_sub, Real.exp_sub, Real.exp_sub, Real.exp_log p1, Real.exp_log p2,
      Real.exp_log p3, Real.exp_log p4, Real.exp_log p5, Real.exp_log p6]
    field_simp
  refine ⟨_, hq, fun v => ?_, fun hr1 v => ?_, betaNegBinomial_hasSum h1 h2 hr⟩
  · rw [betaNegBinomial]
  · rw [betaNegBinomial]
    subst hr1
    simp

/-- **C31 (Beta-Negative-Binomial), finding.** For every `r >= 2` and every group the
predictive probabilities of all natural numbers sum to strictly less than one. -/
theorem C31_bnb_deficient (a b : ℝ) (ha : 0 < a) (hb : 0 < b) (r : UInt32) (hr : 2 ≤ r.toNat)
    (g : BNB.Group) :
    ∃ q : ℕ → ℝ, (∀ v : UInt32, exp (g.scoreValue (BNB.real a b r) v) = .fin (q v.toNat)) ∧
      (∀ v, q v = Real.Gamma (a + r.toNat * g.count.toNat + r.toNat) *
        Real.Gamma (b + g.sum.toNat + v) /
        Real.Gamma (a + r.toNat * g.count.toNat + r.toNat + (b + g.sum.toNat + v)) /
        (Real.Gamma (a + r.toNat * g.count.toNat) * Real.Gamma (b + g.sum.toNat) /
          Real.Gamma (a + r.toNat * g.count.toNat + (b + g.sum.toNat)))) ∧
      Summable q ∧ ∑' v, q v < 1 := by
  obtain ⟨q, hq, hq2, _, hs⟩ := C31_bnb_partial a b ha hb r (by omega) g
  have h1 : 0 < a + (r.toNat : ℝ) * g.count.toNat := by positivity
  have h2 : 0 < b + (g.sum.toNat : ℝ) := by positivity
  let Q : ℕ → ℝ := fun v => Real.Gamma (a + r.toNat * g.count.toNat + r.toNat) *
        Real.Gamma (b + g.sum.toNat + v) /
        Real.Gamma (a + r.toNat * g.count.toNat + r.toNat + (b + g.sum.toNat + v)) /
        (Real.Gamma (a + r.toNat * g.count.toNat) * Real.Gamma (b + g.sum.toNat) /
          Real.Gamma (a + r.toNat * g.count.toNat + (b + g.sum.toNat)))
  have hQ : ∀ v, betaNegBinomial (a + r.toNat * g.count.toNat) (b + g.sum.toNat) r.toNat v =
      ((v + r.toNat - 1).choose v : ℝ) * Q v := fun v => rfl
  have hpos : ∀ v, 0 < Q v := by
    intro v
    have h3 : 0 < a + (r.toNat : ℝ) * g.count.toNat + r.toNat := by positivity
    have h4 : 0 < b + (g.sum.toNat : ℝ) + v := by positivity
    have p1 := Real.Gamma_pos_of_pos h1
    have p2 := Real.Gamma_pos_of_pos h2
    have p3 := Real.Gamma_pos_of_pos h3
    have p4 := Real.Gamma_pos_of_pos h4
    have p5 := Real.Gamma_pos_of_pos (add_pos h1 h2)
    have p6 := Real.Gamma_pos_of_pos (add_pos h3 h4)
    simp only [Q]; positivity
  have hch : ∀ v, 1 ≤ ((v + r.toNat - 1).choose v : ℝ) := fun v => by
    exact_mod_cast Nat.choose_pos (by omega)
  have hle : ∀ v, Q v ≤ betaNegBinomial (a + r.toNat * g.count.toNat) (b + g.sum.toNat)
      r.toNat v := fun v => by
    rw [hQ]; nlinarith [hch v, hpos v]
  have hsum : Summable Q := Summable.of_nonneg_of_le (fun v => (hpos v).le) hle hs.summable
  refine ⟨Q, fun v => ?_, fun v => rfl, hsum, ?_⟩
  · rw [hq v, XR.fin_inj]
    have := hq2 v
    rw [hQ] at this
    exact mul_left_cancel₀ (by have := hch v.toNat; linarith) this
  · rw [← hs.tsum_eq]
    refine hsum.tsum_lt_tsum (i := 1) hle ?_ hs.summable
    rw [hQ]
    have : (1 + r.toNat - 1).choose 1 = r.toNat := by simp
    rw [this]
    have h2r : (2 : ℝ) ≤ r.toNat := by exact_mod_cast hr
    nlinarith [hpos 1]

/-- Instances of the hypotheses: the example hyperparameters (gp.hpp:75-80,
bnb.hpp:79-85). -/
example : (0 : ℝ) < 1 ∧ 2 ≤ (2 : UInt32).toNat := by constructor <;> simp

end Dist
