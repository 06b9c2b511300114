import Verif.Props.SingleScalar
import Verif.Props.SingleBnbAccuracy
import Verif.Props.SingleNichAccuracy

/-!
# C78: error bounds for `fast_log_binom` and `fast_score_student_t` in single precision
-/

namespace Dist

open FloatOps FloatNotation Scalar

namespace Single

variable {lib : Libm}

set_option maxHeartbeats 1000000 in
/-- **C78 (`fast_log_binom` in single precision).** For integers `2 <= k <= n - 2` that are floats,
`fast_log_binom(n, k)` is within `(n + 3)/2^13` of the logarithm of the binomial coefficient. -/
theorem C78_fast_log_binom_single (n k : ℕ) (hn : nearest n = n) (hk : nearest k = k)
    (hk2 : 2 ≤ k) (hkn : k + 2 ≤ n) (hn2 : n ≤ 2 ^ 30) :
    |(fastLogBinom (⟨n⟩ : Single lib) ⟨k⟩).val - Real.log (n.choose k)| ≤ (n + 3) / 2 ^ 13 := by
  have n1 : nearest (((1 : ℤ) : ℝ) / ((1 : ℕ) : ℝ)) = 1 := by
    rw [show (((1 : ℤ) : ℝ) / ((1 : ℕ) : ℝ)) = 1 by norm_num]
    exact near_eq 1 0 (by norm_num) (by norm_num) (by norm_num)
  have hc : Real.log (n.choose k) = Real.log (Real.Gamma (n + 1)) -
      (Real.log (Real.Gamma (k + 1)) + Real.log (Real.Gamma ((n : ℝ) - k + 1))) := by
    have hle : k ≤ n := by omega
    have e : ((n : ℝ) - k + 1) = ((n - k : ℕ) : ℝ) + 1 := by rw [Nat.cast_sub hle]
    rw [e, Real.Gamma_nat_eq_factorial, Real.Gamma_nat_eq_factorial, Real.Gamma_nat_eq_factorial,
      Nat.cast_choose ℝ hle, Real.log_div (by positivity) (by positivity),
      Real.log_mul (by positivity) (by positivity)]
  rw [hc]
  unfold fastLogBinom
  simp only [val_add, val_sub, val_lgamma, val_lit, n1]
  have k0 : (2 : ℝ) ≤ k := by exact_mod_cast hk2
  have kn : (k : ℝ) + 2 ≤ n := by exact_mod_cast hkn
  have n2 : (n : ℝ) ≤ 2 ^ 30 := by exact_mod_cast hn2
  generalize (n : ℝ) = n at *
  generalize (k : ℝ) = k at *
  have hm := nearest.rounding.mono
  have n5 : ∀ x : ℝ, 5 / 2 ≤ x → 5 / 2 ≤ nearest x := fun x h => by
    have e : nearest (5 / 2) = 5 / 2 := near_eq 5 (-1) (by norm_num) (by norm_num) (by norm_num)
    rw [← e]; exact hm h
  have er : ∀ {y B : ℝ}, |y| ≤ B → 1 ≤ B → |nearest y - y| ≤ 1 / 2 ^ 23 * B := fun h hB =>
    err_le h (le_trans (by norm_num) hB)
  have n2' : nearest (2 : ℝ) = 2 := near_eq 1 1 (by norm_num) (by norm_num) (by norm_num)
  set M := n + 3 with hM
  have hM2 : M ≤ 2 ^ 31 := by norm_num at n2 ⊢; linarith
  have D0 : 2 ≤ nearest (n - k) := by rw [← n2']; exact hm (by linarith)
  have D1 : |nearest (n - k) - (n - k)| ≤ 1 / 2 ^ 23 * M := by
    refine er ?_ (by linarith)
    rw [abs_of_nonneg (by linarith)]; linarith
  generalize nearest (n - k) = d at *
  obtain ⟨D2, D3⟩ := abs_le.1 D1
  have A1 := n5 (n + 1) (by linarith)
  have B1 := n5 (k + 1) (by linarith)
  have C1 := n5 (d + 1) (by linarith)
  have A2 : |nearest (n + 1) - (n + 1)| ≤ 1 / 2 ^ 23 * M := by
    refine er ?_ (by linarith)
    rw [abs_of_nonneg (by linarith)]; linarith
  have B2 : |nearest (k + 1) - (k + 1)| ≤ 1 / 2 ^ 23 * M := by
    refine er ?_ (by linarith)
    rw [abs_of_nonneg (by linarith)]; linarith
  have C2 : |nearest (d + 1) - (d + 1)| ≤ 1 / 2 ^ 23 * (2 * M) := by
    refine er ?_ (by linarith)
    rw [abs_of_nonneg (by linarith)]; norm_num at D3 ⊢; linarith
  have iA := nearest.idem (n + 1)
  have iB := nearest.idem (k + 1)
  have iC := nearest.idem (d + 1)
  generalize nearest (n + 1) = A at *
  generalize nearest (k + 1) = B at *
  generalize nearest (d + 1) = C at *
  obtain ⟨C3, C4⟩ := abs_le.1 C2
  have hA : |A - (n + 1)| ≤ 5 / 2 ^ 23 * M := A2.trans (by norm_num; linarith)
  have hB : |B - (k + 1)| ≤ 5 / 2 ^ 23 * M := B2.trans (by norm_num; linarith)
  have hC : |C - (n - k + 1)| ≤ 5 / 2 ^ 23 * M := by
    rw [abs_le]; constructor <;> norm_num at C3 C4 D2 D3 ⊢ <;> linarith
  obtain ⟨e1, f1⟩ := lgammaf_rounded (lib := lib) iA (by linarith) A1 (by linarith) hM2 hA
  obtain ⟨e2, f2⟩ := lgammaf_rounded (lib := lib) iB (by linarith) B1 (by linarith) hM2 hB
  obtain ⟨e3, f3⟩ := lgammaf_rounded (lib := lib) iC (by linarith) C1 (by linarith) hM2 hC
  clear hA hB hC A1 A2 B1 B2 C1 C2 C3 C4 D0 D1 D2 D3 iA iB iC
  generalize lgammaf lib A = c1 at *
  generalize lgammaf lib B = c2 at *
  generalize lgammaf lib C = c3 at *
  generalize Real.log (Real.Gamma (n + 1)) = d1 at *
  generalize Real.log (Real.Gamma (k + 1)) = d2 at *
  generalize Real.log (Real.Gamma (n - k + 1)) = d3 at *
  obtain ⟨e11, e12⟩ := abs_le.1 e1
  obtain ⟨e21, e22⟩ := abs_le.1 e2
  obtain ⟨e31, e32⟩ := abs_le.1 e3
  obtain ⟨f11, f12⟩ := abs_le.1 f1
  obtain ⟨f21, f22⟩ := abs_le.1 f2
  obtain ⟨f31, f32⟩ := abs_le.1 f3
  norm_num at e11 e12 e21 e22 e31 e32
  have k1 : |nearest (c2 + c3) - (c2 + c3)| ≤ 1 / 2 ^ 23 * (24 * M) := by
    refine er ?_ (by linarith)
    rw [abs_le]; constructor <;> linarith
  generalize nearest (c2 + c3) = g1 at *
  obtain ⟨k11, k12⟩ := abs_le.1 k1
  norm_num at k11 k12
  have k2 : |nearest (c1 - g1) - (c1 - g1)| ≤ 1 / 2 ^ 23 * (50 * M) := by
    refine er ?_ (by linarith)
    rw [abs_le]; constructor <;> linarith
  obtain ⟨k21, k22⟩ := abs_le.1 k2
  norm_num at k21 k22
  rw [abs_le]
  constructor <;> norm_num <;> linarith

/-- `fast_log_binom(10, 4)` is within `1/500` of `log 210`. -/
example : |(fastLogBinom (⟨10⟩ : Single lib) ⟨4⟩).val - Real.log 210| ≤ 1 / 500 := by
  have h := C78_fast_log_binom_single (lib := lib) 10 4
    (by push_cast; exact near_eq 5 1 (by norm_num) (by norm_num) (by norm_num))
    (by push_cast; exact near_eq 1 2 (by norm_num) (by norm_num) (by norm_num))
    (by norm_num) (by norm_num) (by norm_num)
  rw [show Nat.choose 10 4 = 210 by decide] at h
  push_cast at h
  exact h.trans (by norm_num)

/-- Two numbers just above one. -/
theorem near_one_factor {q w : ℝ} (q0 : 0 ≤ q) (q1 : q ≤ 1 / 2 ^ 35) (w0 : 0 ≤ w) (w1 : w ≤ 1 / 2 ^ 35) :
    Factor (8 * ulp) (1 + q) (1 + w) := by
  have e8 : 1 + 1 / 2 ^ 35 ≤ Real.exp (8 * ulp) := by
    refine le_trans ?_ (Real.add_one_le_exp _)
    unfold ulp; norm_num
  refine ⟨by linarith, ?_, ?_⟩
  · rw [Real.exp_neg, ← div_eq_mul_inv, div_le_iff₀ (Real.exp_pos _)]
    calc 1 + w ≤ 1 + 1 / 2 ^ 35 := by linarith
      _ ≤ Real.exp (8 * ulp) := e8
      _ ≤ _ := le_mul_of_one_le_left (Real.exp_pos _).le (by linarith)
  · calc 1 + q ≤ 1 + 1 / 2 ^ 35 := by linarith
      _ ≤ Real.exp (8 * ulp) := e8
      _ ≤ _ := le_mul_of_one_le_left (Real.exp_pos _).le (by linarith)

/-- `1 + lambda * sqr(x - mu) / nu`. -/
theorem temp_factor_div {lam nu D : ℝ} (l1 : 1 / 2 ^ 31 ≤ lam) (l2 : lam ≤ 2 ^ 20)
    (hn1 : 1 / 16 ≤ nu) (hn2 : nu ≤ 2 ^ 31) (hD : |D| ≤ 2 ^ 30) :
    Factor (8 * ulp) (1 + nearest (nearest (lam * nearest (nearest D * nearest D)) / nu))
        (1 + lam * D ^ 2 / nu) ∧
      1 + lam * D ^ 2 / nu ≤ 2 ^ 85 := by
  have hu := Factor.ulp_nonneg
  have hl0 : 0 < lam := lt_of_lt_of_le (by positivity) l1
  have hn0 : 0 < nu := by linarith
  have hup : 1 + lam * D ^ 2 / nu ≤ 2 ^ 85 := by
    have h2 : D ^ 2 ≤ (2 ^ 30) ^ 2 := by rw [← sq_abs]; gcongr
    have : lam * D ^ 2 / nu ≤ 2 ^ 84 := by
      rw [div_le_iff₀ hn0]
      calc lam * D ^ 2 ≤ 2 ^ 20 * (2 ^ 30) ^ 2 := by gcongr
        _ = 2 ^ 84 * (1 / 16) := by norm_num
        _ ≤ _ := by gcongr
    norm_num at this ⊢
    linarith
  refine ⟨?_, hup⟩
  rcases le_or_gt (1 / 2 ^ 30) |D| with h | h
  · have f1 := sqr_factor h
    have f2 := (Factor.refl hl0.le).mul f1
    have hh := f2.half (by unfold ulp; norm_num)
    have hsq : 1 / 2 ^ 60 ≤ D ^ 2 := by
      rw [← sq_abs]
      calc (1 : ℝ) / 2 ^ 60 = (1 / 2 ^ 30) ^ 2 := by norm_num
        _ ≤ _ := by gcongr
    have hlow : 1 / 2 ^ 91 ≤ lam * D ^ 2 := by
      calc (1 : ℝ) / 2 ^ 91 = 1 / 2 ^ 31 * (1 / 2 ^ 60) := by norm_num
        _ ≤ _ := by gcongr
    have f3 := f2.rnd (Or.inr (le_trans (by
      have : (1 : ℝ) / 2 ^ 126 ≤ 1 / 2 ^ 91 / 2 := by norm_num
      linarith) hh))
    have f4 := f3.div (Factor.refl hn0.le) hn0
    have hh4 := f4.half (by unfold ulp; norm_num)
    have hlow4 : 1 / 2 ^ 122 ≤ lam * D ^ 2 / nu := by
      rw [le_div_iff₀ hn0]
      calc 1 / 2 ^ 122 * nu ≤ 1 / 2 ^ 122 * 2 ^ 31 := by gcongr
        _ = 1 / 2 ^ 91 := by norm_num
        _ ≤ _ := hlow
    have f5 := f4.rnd (Or.inr (le_trans (by
      have : (1 : ℝ) / 2 ^ 126 ≤ 1 / 2 ^ 122 / 2 := by norm_num
      linarith) hh4))
    exact ((Factor.refl (x := (1 : ℝ)) zero_le_one).mono (by positivity : (0 : ℝ) ≤ 8 * ulp)).add
      (f5.mono (by linarith : ulp + (ulp + (0 + 3 * ulp) + 0) ≤ 8 * ulp))
  · have hm := nearest.rounding.mono
    have hz := Factor.nearest_zero
    have e30 : nearest (1 / 2 ^ 30) = 1 / 2 ^ 30 := near_eq 1 (-30) (by norm_num) (by norm_num) (by norm_num)
    have e30' : nearest (-(1 / 2 ^ 30)) = -(1 / 2 ^ 30) := near_eq (-1) (-30) (by norm_num) (by norm_num) (by norm_num)
    obtain ⟨d1, d2⟩ := abs_lt.1 h
    have n1 : nearest D ≤ 1 / 2 ^ 30 := by rw [← e30]; exact hm d2.le
    have n2 : -(1 / 2 ^ 30) ≤ nearest D := by rw [← e30']; exact hm d1.le
    have s1 : nearest (nearest D * nearest D) ≤ 1 / 2 ^ 60 := by
      have e : nearest (1 / 2 ^ 60) = 1 / 2 ^ 60 := near_eq 1 (-60) (by norm_num) (by norm_num) (by norm_num)
      rw [← e]
      refine hm ?_
      have : nearest D * nearest D ≤ (1 / 2 ^ 30) * (1 / 2 ^ 30) := by nlinarith
      refine this.trans (by norm_num)
    have s0 : 0 ≤ nearest (nearest D * nearest D) := by rw [← hz]; exact hm (mul_self_nonneg _)
    have t1 : nearest (lam * nearest (nearest D * nearest D)) ≤ 1 / 2 ^ 40 := by
      have e : nearest (1 / 2 ^ 40) = 1 / 2 ^ 40 := near_eq 1 (-40) (by norm_num) (by norm_num) (by norm_num)
      rw [← e]
      refine hm ?_
      calc lam * nearest (nearest D * nearest D) ≤ 2 ^ 20 * (1 / 2 ^ 60) := mul_le_mul l2 s1 s0 (by positivity)
        _ = _ := by norm_num
    have t0 : 0 ≤ nearest (lam * nearest (nearest D * nearest D)) := by
      rw [← hz]; exact hm (mul_nonneg hl0.le s0)
    have u1 : nearest (nearest (lam * nearest (nearest D * nearest D)) / nu) ≤ 1 / 2 ^ 35 := by
      have e : nearest (1 / 2 ^ 35) = 1 / 2 ^ 35 := near_eq 1 (-35) (by norm_num) (by norm_num) (by norm_num)
      rw [← e]
      refine hm ?_
      rw [div_le_iff₀ hn0]
      calc _ ≤ (1 : ℝ) / 2 ^ 40 := t1
        _ ≤ 1 / 2 ^ 35 * (1 / 16) := by norm_num
        _ ≤ _ := by gcongr
    have u0 : 0 ≤ nearest (nearest (lam * nearest (nearest D * nearest D)) / nu) := by
      rw [← hz]; exact hm (div_nonneg t0 hn0.le)
    have w1 : lam * D ^ 2 / nu ≤ 1 / 2 ^ 35 := by
      have : D ^ 2 ≤ (1 / 2 ^ 30) ^ 2 := by rw [← sq_abs]; gcongr
      rw [div_le_iff₀ hn0]
      calc lam * D ^ 2 ≤ 2 ^ 20 * (1 / 2 ^ 30) ^ 2 := by gcongr
        _ ≤ 1 / 2 ^ 35 * (1 / 16) := by norm_num
        _ ≤ _ := by gcongr
    exact near_one_factor u0 u1 (by positivity) w1

set_option maxHeartbeats 1000000 in
/-- **C78 (`fast_score_student_t` in single precision).** For arguments of moderate size,
`fast_score_student_t` differs from the logarithm of the Student-t density by at most
`1/60 + (nu + 1)/2^13`. -/
theorem C78_fast_score_student_t_single (v nu mu lam : Single lib) (hn : IsNormal nu.val)
    (hn1 : 1 / 16 ≤ nu.val) (hn2 : nu.val ≤ 2 ^ 31)
    (l1 : 1 / 2 ^ 31 ≤ lam.val) (l2 : lam.val ≤ 2 ^ 20) (hx : |v.val - mu.val| ≤ 2 ^ 30) :
    |(fastScoreStudentT v nu mu lam).val - Real.log (Spec.studentT nu.val mu.val (1 / lam.val) v.val)| ≤
      1 / 60 + (nu.val + 1) / 2 ^ 13 := by
  have h0 : nearest (((0 : ℤ) : ℝ) / ((1 : ℕ) : ℝ)) = 0 := by
    rw [show (((0 : ℤ) : ℝ) / ((1 : ℕ) : ℝ)) = 0 by norm_num]; exact Factor.nearest_zero
  have h1 : nearest (((1 : ℤ) : ℝ) / ((1 : ℕ) : ℝ)) = 1 := by
    rw [show (((1 : ℤ) : ℝ) / ((1 : ℕ) : ℝ)) = 1 by norm_num]
    exact near_eq 1 0 (by norm_num) (by norm_num) (by norm_num)
  have h2 : nearest (((1 : ℤ) : ℝ) / ((2 : ℕ) : ℝ)) = 1 / 2 := by
    rw [show (((1 : ℤ) : ℝ) / ((2 : ℕ) : ℝ)) = 1 / 2 by norm_num]
    exact near_eq 1 (-1) (by norm_num) (by norm_num) (by norm_num)
  unfold fastScoreStudentT
  simp only [val_add, val_sub, val_mul, val_div, val_lit, val_log, val_lgammaNu, val_pi, val_neg, h0, h1, h2,
    zero_add]
  generalize nu.val = nu at *
  generalize lam.val = lam at *
  generalize mu.val = mu at *
  generalize v.val = x at *
  obtain ⟨D, rfl⟩ : ∃ D, x = mu + D := ⟨x - mu, by ring⟩
  rw [add_sub_cancel_left] at hx ⊢
  have hn0 : 0 < nu := by linarith
  have hpi := Real.pi_pos
  have hu := Factor.ulp_nonneg
  have ulp_v : ulp ≤ 3 / 10 ^ 7 := by unfold ulp; norm_num
  have d2 := Real.log_two_lt_d9
  have l0 : 0 < lam := lt_of_lt_of_le (by positivity) l1
  have fl : Factor (3 * ulp) lam lam := (Factor.refl l0.le).mono (by positivity)
  rw [log_studentT hn0 l0 mu]
  -- the first term
  have a0 := lgammaNuf_near (lib := lib) hn hn1 (lt_of_le_of_lt hn2 (by norm_num))
  have a2 := halfStep_bound hn1 (hn2.trans (by norm_num))
  rw [show Real.log (Real.Gamma (nu / 2 + 1 / 2)) - Real.log (Real.Gamma (nu / 2)) = LG.halfStep (nu / 2)
    from rfl] at a0
  generalize lgammaNuf lib nu = A' at *
  generalize LG.halfStep (nu / 2) = G at *
  have a3 : |nearest A' - A'| ≤ 1 / 2 ^ 23 * 21 := by
    refine err_le ?_ (by norm_num)
    have := abs_sub_abs_le_abs_sub A' G
    norm_num at a0
    linarith
  have a1 : |nearest A' - G| ≤ 16103 / 10 ^ 6 := by
    have e : nearest A' - G = (nearest A' - A') + (A' - G) := by ring
    rw [e]
    refine (abs_add_le _ _).trans ((add_le_add a3 a0).trans ?_)
    norm_num
  generalize nearest A' = A at *
  -- the normaliser
  have fpi : Factor ulp (nearest Real.pi) Real.pi := Factor.round (by
    have := Real.pi_gt_three
    have : (1 : ℝ) / 2 ^ 126 ≤ 1 := by norm_num
    linarith)
  have fpn := fpi.mul (Factor.refl hn0.le)
  have pn1 : 1 / 2 ^ 4 ≤ Real.pi * nu := by
    have := Real.pi_gt_three
    calc (1 : ℝ) / 2 ^ 4 ≤ 1 * nu := by norm_num at hn1 ⊢; linarith
      _ ≤ _ := by gcongr; linarith
  have pn2 : Real.pi * nu ≤ 2 ^ 33 := by
    have := Real.pi_lt_four
    calc Real.pi * nu ≤ 4 * 2 ^ 31 := by gcongr
      _ = _ := by norm_num
  have fpn' := fpn.rnd (Or.inr (le_trans (by
    have : (1 : ℝ) / 2 ^ 126 ≤ 1 / 2 ^ 4 / 2 := by norm_num
    linarith) (fpn.half (by unfold ulp; norm_num))))
  have fr := (fl.div fpn' (by positivity)).mono (le_of_eq (by ring :
    3 * ulp + (ulp + (ulp + 0)) = 5 * ulp))
  have r1 : 1 / 2 ^ 64 ≤ lam / (Real.pi * nu) := by
    rw [le_div_iff₀ (by positivity)]
    calc 1 / 2 ^ 64 * (Real.pi * nu) ≤ 1 / 2 ^ 64 * 2 ^ 33 := by gcongr
      _ = 1 / 2 ^ 31 := by norm_num
      _ ≤ _ := l1
  have r2 : lam / (Real.pi * nu) ≤ 2 ^ 24 := by
    rw [div_le_iff₀ (by positivity)]
    calc lam ≤ 2 ^ 20 := l2
      _ = 2 ^ 24 * (1 / 2 ^ 4) := by norm_num
      _ ≤ _ := by gcongr
  have b1 := logf_factor fr (le_trans (by
      have : (1 : ℝ) / 2 ^ 126 ≤ 1 / 2 ^ 64 / 2 := by norm_num
      linarith) (fr.half (by unfold ulp; norm_num)))
    (lt_of_le_of_lt (fr.double (by unfold ulp; norm_num)) (by
      have : (2 : ℝ) * 2 ^ 24 < 2 ^ 127 := by norm_num
      linarith))
  have b2 : |Real.log (lam / (Real.pi * nu))| ≤ 45 := by
    have u : Real.log (lam / (Real.pi * nu)) ≤ 24 * Real.log 2 := by
      have := Real.log_le_log (by positivity) r2
      rwa [Real.log_pow, Nat.cast_ofNat] at this
    have l : -(64 * Real.log 2) ≤ Real.log (lam / (Real.pi * nu)) := by
      have := Real.log_le_log (by positivity) r1
      rwa [one_div, Real.log_inv, Real.log_pow, Nat.cast_ofNat] at this
    rw [abs_le]; constructor <;> linarith
  generalize logf (nearest (lam / nearest (nearest Real.pi * nu))) = L at *
  generalize Real.log (lam / (Real.pi * nu)) = L0 at *
  -- the logarithm of the argument
  obtain ⟨ft, t2⟩ := temp_factor_div l1 l2 hn1 hn2 hx
  have t1 : 1 ≤ 1 + lam * D ^ 2 / nu := by
    have : 0 ≤ lam * D ^ 2 / nu := by positivity
    linarith
  have c1 := logf_factor ft (le_trans (by
      have : (1 : ℝ) / 2 ^ 126 ≤ 1 / 2 := by norm_num
      linarith) (ft.half (by unfold ulp; norm_num)))
    (lt_of_le_of_lt (ft.double (by unfold ulp; norm_num)) (by
      have : (2 : ℝ) * 2 ^ 85 < 2 ^ 127 := by norm_num
      linarith))
  have c2 : 0 ≤ Real.log (1 + lam * D ^ 2 / nu) := Real.log_nonneg t1
  have c3 : Real.log (1 + lam * D ^ 2 / nu) ≤ 59 := by
    have := Real.log_le_log (by linarith) t2
    rw [Real.log_pow, Nat.cast_ofNat] at this
    linarith
  generalize logf (nearest (1 + nearest (nearest (lam * nearest (nearest D * nearest D)) / nu))) = T at *
  generalize Real.log (1 + lam * D ^ 2 / nu) = T0 at *
  -- the coefficient
  have k1 : |nearest (-(1 / 2) * nu) - -(1 / 2) * nu| ≤ 1 / 2 ^ 23 * (1 / 2 * nu) :=
    err_le (by rw [abs_mul, abs_neg, abs_of_pos hn0]; norm_num) (by norm_num at hn1 ⊢; linarith)
  generalize nearest (-(1 / 2) * nu) = N at *
  have k2 : |nearest (N - 1 / 2) - (N - 1 / 2)| ≤ 1 / 2 ^ 23 * (nu + 1) := by
    refine err_le ?_ (by norm_num; linarith)
    obtain ⟨q1, q2⟩ := abs_le.1 k1
    have : 1 / 2 ^ 23 * (1 / 2 * nu) ≤ 1 / 2 * nu := by norm_num; linarith
    rw [abs_le]; constructor <;> linarith
  generalize nearest (N - 1 / 2) = K at *
  have k3 : |K - -((nu + 1) / 2)| ≤ 2 / 10 ^ 7 * (nu + 1) := by
    have e : K - -((nu + 1) / 2) = (K - (N - 1 / 2)) + (N - -(1 / 2) * nu) := by ring
    rw [e]
    refine (abs_add_le _ _).trans ((add_le_add k2 k1).trans ?_)
    norm_num
    linarith
  have c1' : |T - T0| ≤ 13 / 10 ^ 5 := by
    refine c1.trans ?_
    norm_num at ulp_v ⊢
    linarith
  have T1 : |T| ≤ 60 := by
    obtain ⟨q1, q2⟩ := abs_le.1 c1'
    rw [abs_le]; constructor <;> linarith
  have m1 : |K * T - -((nu + 1) / 2) * T0| ≤ (nu + 1) * (78 / 10 ^ 6) := by
    have e : K * T - -((nu + 1) / 2) * T0 = (K - -((nu + 1) / 2)) * T + -((nu + 1) / 2) * (T - T0) := by ring
    rw [e]
    refine (abs_add_le _ _).trans ?_
    rw [abs_mul, abs_mul, abs_neg, abs_of_pos (by linarith : (0 : ℝ) < (nu + 1) / 2)]
    calc |K - -((nu + 1) / 2)| * |T| + (nu + 1) / 2 * |T - T0| ≤
          (2 / 10 ^ 7 * (nu + 1)) * 60 + (nu + 1) / 2 * (13 / 10 ^ 5) := by gcongr
      _ ≤ _ := by ring_nf; linarith
  have m2 : |-((nu + 1) / 2) * T0| ≤ (nu + 1) * 30 := by
    rw [abs_mul, abs_neg, abs_of_pos (by linarith : (0 : ℝ) < (nu + 1) / 2), abs_of_nonneg c2]
    calc (nu + 1) / 2 * T0 ≤ (nu + 1) / 2 * 59 := by gcongr
      _ ≤ _ := by linarith
  have m3 : |K * T| ≤ (nu + 1) * 31 := by
    have := abs_sub_abs_le_abs_sub (K * T) (-((nu + 1) / 2) * T0)
    linarith
  have m4 : |nearest (K * T) - K * T| ≤ 1 / 2 ^ 23 * ((nu + 1) * 31) := err_le m3 (by norm_num; linarith)
  generalize nearest (K * T) = M at *
  have m5 : |M - -((nu + 1) / 2) * T0| ≤ (nu + 1) * (82 / 10 ^ 6) := by
    have e : M - -((nu + 1) / 2) * T0 = (M - K * T) + (K * T - -((nu + 1) / 2) * T0) := by ring
    rw [e]
    refine (abs_add_le _ _).trans ((add_le_add m4 m1).trans ?_)
    norm_num
    linarith
  have m6 : |M| ≤ (nu + 1) * 31 := by
    have := abs_sub_abs_le_abs_sub M (-((nu + 1) / 2) * T0)
    linarith
  -- the base
  have b1' : |L - L0| ≤ 13 / 10 ^ 5 := by
    refine b1.trans ?_
    norm_num at ulp_v ⊢
    linarith
  have g1 : |1 / 2 * L| ≤ 23 := by
    obtain ⟨q1, q2⟩ := abs_le.1 b1'
    obtain ⟨q3, q4⟩ := abs_le.1 b2
    rw [abs_le]; constructor <;> linarith
  have g2 : |nearest (1 / 2 * L) - 1 / 2 * L| ≤ 1 / 2 ^ 23 * 23 := err_le g1 (by norm_num)
  generalize nearest (1 / 2 * L) = H at *
  have g3 : |A + H - (G + 1 / 2 * L0)| ≤ 162 / 10 ^ 4 := by
    obtain ⟨q1, q2⟩ := abs_le.1 b1'
    obtain ⟨q3, q4⟩ := abs_le.1 a1
    obtain ⟨q5, q6⟩ := abs_le.1 g2
    norm_num at q1 q2 q3 q4 q5 q6
    rw [abs_le]; constructor <;> norm_num <;> linarith
  have g4 : |G + 1 / 2 * L0| ≤ 43 := by
    obtain ⟨q3, q4⟩ := abs_le.1 b2
    obtain ⟨q5, q6⟩ := abs_le.1 a2
    rw [abs_le]; constructor <;> linarith
  have g5 : |A + H| ≤ 44 := by
    have := abs_sub_abs_le_abs_sub (A + H) (G + 1 / 2 * L0)
    linarith
  have g6 : |nearest (A + H) - (A + H)| ≤ 1 / 2 ^ 23 * 44 := err_le g5 (by norm_num)
  generalize nearest (A + H) = B at *
  have g7 : |B - (G + 1 / 2 * L0)| ≤ 163 / 10 ^ 4 := by
    have e : B - (G + 1 / 2 * L0) = (B - (A + H)) + (A + H - (G + 1 / 2 * L0)) := by ring
    rw [e]
    refine (abs_add_le _ _).trans ((add_le_add g6 g3).trans ?_)
    norm_num
  have g8 : |B| ≤ 44 := by
    have := abs_sub_abs_le_abs_sub B (G + 1 / 2 * L0)
    linarith
  -- the sum
  have f1 : |nearest (B + M) - (B + M)| ≤ 1 / 2 ^ 23 * (44 + (nu + 1) * 31) :=
    err_le ((abs_add_le _ _).trans (add_le_add g8 m6)) (by
      have : (1 : ℝ) / 2 ^ 100 ≤ 44 := by norm_num
      nlinarith)
  have e : nearest (B + M) - (G + 1 / 2 * L0 - (nu + 1) / 2 * T0) =
      (nearest (B + M) - (B + M)) + (B - (G + 1 / 2 * L0)) + (M - -((nu + 1) / 2) * T0) := by ring
  rw [e]
  refine (abs_add_le _ _).trans ((add_le_add ((abs_add_le _ _).trans (add_le_add f1 g7)) m5).trans ?_)
  norm_num
  linarith

/-- At `nu = lambda = 1`, `mu = 0` the Cauchy density is matched within `1/60 + 1/2^12`. -/
example (v : Single lib) (hv : |v.val| ≤ 2 ^ 30) :
    |(fastScoreStudentT v ⟨1⟩ ⟨0⟩ ⟨1⟩).val - Real.log (Spec.studentT 1 0 1 v.val)| ≤ 1 / 60 + 1 / 2 ^ 12 := by
  have h := C78_fast_score_student_t_single v (⟨1⟩ : Single lib) ⟨0⟩ ⟨1⟩
    ⟨near_eq 1 0 (by norm_num) (by norm_num) (by norm_num), by norm_num, by norm_num⟩
    (by norm_num) (by norm_num) (by norm_num) (by norm_num) (by rw [sub_zero]; exact hv)
  rw [one_div_one] at h
  exact h.trans (by norm_num)

end Single

end Dist
