import Verif.Lemmas.SingleNichScore
import Mathlib.Analysis.Real.Pi.Bounds

/-!
# C76: how far the predictive log density of the normal model can be off in single precision
-/

namespace Dist

open FloatOps FloatNotation

namespace Single

variable {lib : Libm}

/-- `score_value` unfolded to roundings of real operations. -/
theorem nich_value (sh : NICH.Shared (Single lib)) (g : NICH.Group (Single lib)) (v : Single lib) :
    (g.scoreValue sh v).val =
      let post := sh.plusGroup g
      let lam := nearest (post.kappa.val / nearest (nearest (post.kappa.val + 1) * post.sigmasq.val))
      let base := nearest (lgammaNuf lib post.nu.val + nearest (1 / 2 *
        logf (nearest (lam / nearest (nearest Real.pi * post.nu.val)))))
      let D := v.val - post.mu.val
      nearest (base + nearest (nearest (nearest (-(1 / 2) * post.nu.val) - 1 / 2) *
        logf (nearest (1 + nearest (nearest (lam / post.nu.val) * nearest (nearest D * nearest D)))))) := by
  have h1 : nearest (((1 : ℤ) : ℝ) / ((1 : ℕ) : ℝ)) = 1 := by
    rw [show (((1 : ℤ) : ℝ) / ((1 : ℕ) : ℝ)) = 1 by norm_num]
    exact near_eq 1 0 (by norm_num) (by norm_num) (by norm_num)
  have h2 : nearest (((1 : ℤ) : ℝ) / ((2 : ℕ) : ℝ)) = 1 / 2 := by
    rw [show (((1 : ℤ) : ℝ) / ((2 : ℕ) : ℝ)) = 1 / 2 by norm_num]
    exact near_eq 1 (-1) (by norm_num) (by norm_num) (by norm_num)
  unfold NICH.Group.scoreValue NICH.Scorer.eval NICH.Scorer.init NICH.sqr
  simp only [val_add, val_sub, val_mul, val_div, val_lit, val_log, val_lgammaNu, val_pi, val_neg, h1, h2]

set_option maxHeartbeats 1000000 in
/-- **C76 (partial).** For a posterior of moderate size, the score `score_value` computes differs from
the logarithm of the Student-t density of that posterior by at most
`1/60 + (nu + 1)/2^13`. The bound grows with the number of observations, and `C76_nich_flat` shows that
so does the error. -/
theorem C76_nich_partial (sh : NICH.Shared (Single lib)) (g : NICH.Group (Single lib)) (v : Single lib)
    (hn : IsNormal (sh.plusGroup g).nu.val)
    (hn1 : 1 / 16 ≤ (sh.plusGroup g).nu.val) (hn2 : (sh.plusGroup g).nu.val ≤ 2 ^ 31)
    (hk1 : 1 / 2 ^ 10 ≤ (sh.plusGroup g).kappa.val) (hk2 : (sh.plusGroup g).kappa.val ≤ 2 ^ 40)
    (hs1 : 1 / 2 ^ 20 ≤ (sh.plusGroup g).sigmasq.val) (hs2 : (sh.plusGroup g).sigmasq.val ≤ 2 ^ 20)
    (hx : |v.val - (sh.plusGroup g).mu.val| ≤ 2 ^ 30) :
    |(g.scoreValue sh v).val -
        Real.log (Spec.studentT (sh.plusGroup g).nu.val (sh.plusGroup g).mu.val
          (((sh.plusGroup g).kappa.val + 1) / (sh.plusGroup g).kappa.val * (sh.plusGroup g).sigmasq.val)
          v.val)| ≤
      1 / 60 + ((sh.plusGroup g).nu.val + 1) / 2 ^ 13 := by
  rw [nich_value]
  dsimp only
  generalize (sh.plusGroup g).nu.val = nu at *
  generalize (sh.plusGroup g).kappa.val = kappa at *
  generalize (sh.plusGroup g).sigmasq.val = ssq at *
  generalize (sh.plusGroup g).mu.val = mu at *
  generalize v.val = x at *
  obtain ⟨D, rfl⟩ : ∃ D, x = mu + D := ⟨x - mu, by ring⟩
  rw [add_sub_cancel_left] at hx ⊢
  have hn0 : 0 < nu := by linarith
  have hk0 : 0 < kappa := lt_of_lt_of_le (by positivity) hk1
  have hs0 : 0 < ssq := lt_of_lt_of_le (by positivity) hs1
  have hpi := Real.pi_pos
  have hu := Factor.ulp_nonneg
  have ulp_v : ulp ≤ 3 / 10 ^ 7 := by unfold ulp; norm_num
  have d2 := Real.log_two_lt_d9
  obtain ⟨fl, l1, l2⟩ := lambda_factor hk1 hk2 hs1 hs2
  generalize hl : nearest (kappa / nearest (nearest (kappa + 1) * ssq)) = lam' at *
  generalize hl' : kappa / ((kappa + 1) * ssq) = lam at *
  have l0 : 0 < lam := lt_of_lt_of_le (by positivity) l1
  have essq : (kappa + 1) / kappa * ssq = 1 / lam := by
    rw [← hl']; field_simp
  rw [essq, log_studentT hn0 l0 mu]
  -- the first term
  have a1 := lgammaNuf_near (lib := lib) hn hn1 (lt_of_le_of_lt hn2 (by norm_num))
  have a2 := halfStep_bound hn1 (hn2.trans (by norm_num))
  rw [show Real.log (Real.Gamma (nu / 2 + 1 / 2)) - Real.log (Real.Gamma (nu / 2)) = LG.halfStep (nu / 2)
    from rfl] at a1
  generalize lgammaNuf lib nu = A at *
  generalize LG.halfStep (nu / 2) = G at *
  -- the normaliser
  have fpi : Factor ulp (nearest Real.pi) Real.pi := Factor.round (by
    have := Real.pi_gt_three
    have : (1 : ℝ) / 2 ^ 126 ≤ 1 := by norm_num
    linarith)
  have fpn := fpi.mul (Factor.refl hn0.le)
  have pn1 : 1 / 2 ^ 4 ≤ Real.pi * nu := by
    have := Real.pi_gt_three
    calc (1 : ℝ) / 2 ^ 4 ≤ 1 * nu := by norm_num at hn1 ⊢; linarith
      _ ≤ _ := by gcongr; linarith
  have pn2 : Real.pi * nu ≤ 2 ^ 33 := by
    have := Real.pi_lt_four
    calc Real.pi * nu ≤ 4 * 2 ^ 31 := by gcongr
      _ = _ := by norm_num
  have fpn' := fpn.rnd (Or.inr (le_trans (by
    have : (1 : ℝ) / 2 ^ 126 ≤ 1 / 2 ^ 4 / 2 := by norm_num
    linarith) (fpn.half (by unfold ulp; norm_num))))
  have fr := (fl.div fpn' (by positivity)).mono (le_of_eq (by ring :
    3 * ulp + (ulp + (ulp + 0)) = 5 * ulp))
  have r1 : 1 / 2 ^ 64 ≤ lam / (Real.pi * nu) := by
    rw [le_div_iff₀ (by positivity)]
    calc 1 / 2 ^ 64 * (Real.pi * nu) ≤ 1 / 2 ^ 64 * 2 ^ 33 := by gcongr
      _ = 1 / 2 ^ 31 := by norm_num
      _ ≤ _ := l1
  have r2 : lam / (Real.pi * nu) ≤ 2 ^ 24 := by
    rw [div_le_iff₀ (by positivity)]
    calc lam ≤ 2 ^ 20 := l2
      _ = 2 ^ 24 * (1 / 2 ^ 4) := by norm_num
      _ ≤ _ := by gcongr
  have b1 := logf_factor fr (le_trans (by
      have : (1 : ℝ) / 2 ^ 126 ≤ 1 / 2 ^ 64 / 2 := by norm_num
      linarith) (fr.half (by unfold ulp; norm_num)))
    (lt_of_le_of_lt (fr.double (by unfold ulp; norm_num)) (by
      have : (2 : ℝ) * 2 ^ 24 < 2 ^ 127 := by norm_num
      linarith))
  have b2 : |Real.log (lam / (Real.pi * nu))| ≤ 45 := by
    have u : Real.log (lam / (Real.pi * nu)) ≤ 24 * Real.log 2 := by
      have := Real.log_le_log (by positivity) r2
      rwa [Real.log_pow, Nat.cast_ofNat] at this
    have l : -(64 * Real.log 2) ≤ Real.log (lam / (Real.pi * nu)) := by
      have := Real.log_le_log (by positivity) r1
      rwa [one_div, Real.log_inv, Real.log_pow, Nat.cast_ofNat] at this
    rw [abs_le]; constructor <;> linarith
  generalize logf (nearest (lam' / nearest (nearest Real.pi * nu))) = L at *
  generalize Real.log (lam / (Real.pi * nu)) = L0 at *
  -- the logarithm of the argument
  have fp := fl.div (Factor.refl hn0.le) (by positivity)
  have p1 : 1 / 2 ^ 62 ≤ lam / nu := by
    rw [le_div_iff₀ hn0]
    calc 1 / 2 ^ 62 * nu ≤ 1 / 2 ^ 62 * 2 ^ 31 := by gcongr
      _ = 1 / 2 ^ 31 := by norm_num
      _ ≤ _ := l1
  have p2 : lam / nu ≤ 2 ^ 24 := by
    rw [div_le_iff₀ hn0]
    calc lam ≤ 2 ^ 20 := l2
      _ = 2 ^ 24 * (1 / 16) := by norm_num
      _ ≤ _ := by gcongr
  have fp' := (fp.rnd (Or.inr (le_trans (by
    have : (1 : ℝ) / 2 ^ 126 ≤ 1 / 2 ^ 62 / 2 := by norm_num
    linarith) (fp.half (by unfold ulp; norm_num))))).mono (le_of_eq (by ring :
      ulp + (3 * ulp + 0) = 4 * ulp))
  obtain ⟨ft, t2⟩ := temp_factor fp' p1 p2 hx
  rw [div_mul_eq_mul_div] at ft t2
  have t1 : 1 ≤ 1 + lam * D ^ 2 / nu := by
    have : 0 ≤ lam * D ^ 2 / nu := by positivity
    linarith
  have c1 := logf_factor ft (le_trans (by
      have : (1 : ℝ) / 2 ^ 126 ≤ 1 / 2 := by norm_num
      linarith) (ft.half (by unfold ulp; norm_num)))
    (lt_of_le_of_lt (ft.double (by unfold ulp; norm_num)) (by
      have : (2 : ℝ) * 2 ^ 85 < 2 ^ 127 := by norm_num
      linarith))
  have c2 : 0 ≤ Real.log (1 + lam * D ^ 2 / nu) := Real.log_nonneg t1
  have c3 : Real.log (1 + lam * D ^ 2 / nu) ≤ 59 := by
    have := Real.log_le_log (by linarith) t2
    rw [Real.log_pow, Nat.cast_ofNat] at this
    linarith
  generalize logf (nearest (1 + nearest (nearest (lam' / nu) * nearest (nearest D * nearest D)))) = T at *
  generalize Real.log (1 + lam * D ^ 2 / nu) = T0 at *
  -- the coefficient
  have k1 : |nearest (-(1 / 2) * nu) - -(1 / 2) * nu| ≤ 1 / 2 ^ 23 * (1 / 2 * nu) :=
    err_le (by rw [abs_mul, abs_neg, abs_of_pos hn0]; norm_num) (by norm_num at hn1 ⊢; linarith)
  generalize nearest (-(1 / 2) * nu) = N at *
  have k2 : |nearest (N - 1 / 2) - (N - 1 / 2)| ≤ 1 / 2 ^ 23 * (nu + 1) := by
    refine err_le ?_ (by norm_num; linarith)
    obtain ⟨q1, q2⟩ := abs_le.1 k1
    have : 1 / 2 ^ 23 * (1 / 2 * nu) ≤ 1 / 2 * nu := by norm_num; linarith
    rw [abs_le]; constructor <;> linarith
  generalize nearest (N - 1 / 2) = K at *
  have k3 : |K - -((nu + 1) / 2)| ≤ 2 / 10 ^ 7 * (nu + 1) := by
    have e : K - -((nu + 1) / 2) = (K - (N - 1 / 2)) + (N - -(1 / 2) * nu) := by ring
    rw [e]
    refine (abs_add_le _ _).trans ((add_le_add k2 k1).trans ?_)
    norm_num
    linarith
  have c1' : |T - T0| ≤ 13 / 10 ^ 5 := by
    refine c1.trans ?_
    norm_num at ulp_v ⊢
    linarith
  have T1 : |T| ≤ 60 := by
    obtain ⟨q1, q2⟩ := abs_le.1 c1'
    rw [abs_le]; constructor <;> linarith
  have m1 : |K * T - -((nu + 1) / 2) * T0| ≤ (nu + 1) * (78 / 10 ^ 6) := by
    have e : K * T - -((nu + 1) / 2) * T0 = (K - -((nu + 1) / 2)) * T + -((nu + 1) / 2) * (T - T0) := by ring
    rw [e]
    refine (abs_add_le _ _).trans ?_
    rw [abs_mul, abs_mul, abs_neg, abs_of_pos (by linarith : (0 : ℝ) < (nu + 1) / 2)]
    calc |K - -((nu + 1) / 2)| * |T| + (nu + 1) / 2 * |T - T0| ≤
          (2 / 10 ^ 7 * (nu + 1)) * 60 + (nu + 1) / 2 * (13 / 10 ^ 5) := by gcongr
      _ ≤ _ := by ring_nf; linarith
  have m2 : |-((nu + 1) / 2) * T0| ≤ (nu + 1) * 30 := by
    rw [abs_mul, abs_neg, abs_of_pos (by linarith : (0 : ℝ) < (nu + 1) / 2), abs_of_nonneg c2]
    calc (nu + 1) / 2 * T0 ≤ (nu + 1) / 2 * 59 := by gcongr
      _ ≤ _ := by linarith
  have m3 : |K * T| ≤ (nu + 1) * 31 := by
    have := abs_sub_abs_le_abs_sub (K * T) (-((nu + 1) / 2) * T0)
    linarith
  have m4 : |nearest (K * T) - K * T| ≤ 1 / 2 ^ 23 * ((nu + 1) * 31) := err_le m3 (by norm_num; linarith)
  generalize nearest (K * T) = M at *
  have m5 : |M - -((nu + 1) / 2) * T0| ≤ (nu + 1) * (82 / 10 ^ 6) := by
    have e : M - -((nu + 1) / 2) * T0 = (M - K * T) + (K * T - -((nu + 1) / 2) * T0) := by ring
    rw [e]
    refine (abs_add_le _ _).trans ((add_le_add m4 m1).trans ?_)
    norm_num
    linarith
  have m6 : |M| ≤ (nu + 1) * 31 := by
    have := abs_sub_abs_le_abs_sub M (-((nu + 1) / 2) * T0)
    linarith
  -- the base
  have b1' : |L - L0| ≤ 13 / 10 ^ 5 := by
    refine b1.trans ?_
    norm_num at ulp_v ⊢
    linarith
  have g1 : |1 / 2 * L| ≤ 23 := by
    obtain ⟨q1, q2⟩ := abs_le.1 b1'
    obtain ⟨q3, q4⟩ := abs_le.1 b2
    rw [abs_le]; constructor <;> linarith
  have g2 : |nearest (1 / 2 * L) - 1 / 2 * L| ≤ 1 / 2 ^ 23 * 23 := err_le g1 (by norm_num)
  generalize nearest (1 / 2 * L) = H at *
  have g3 : |A + H - (G + 1 / 2 * L0)| ≤ 162 / 10 ^ 4 := by
    obtain ⟨q1, q2⟩ := abs_le.1 b1'
    obtain ⟨q3, q4⟩ := abs_le.1 a1
    obtain ⟨q5, q6⟩ := abs_le.1 g2
    norm_num at q1 q2 q3 q4 q5 q6
    rw [abs_le]; constructor <;> norm_num <;> linarith
  have g4 : |G + 1 / 2 * L0| ≤ 43 := by
    obtain ⟨q3, q4⟩ := abs_le.1 b2
    obtain ⟨q5, q6⟩ := abs_le.1 a2
    rw [abs_le]; constructor <;> linarith
  have g5 : |A + H| ≤ 44 := by
    have := abs_sub_abs_le_abs_sub (A + H) (G + 1 / 2 * L0)
    linarith
  have g6 : |nearest (A + H) - (A + H)| ≤ 1 / 2 ^ 23 * 44 := err_le g5 (by norm_num)
  generalize nearest (A + H) = B at *
  have g7 : |B - (G + 1 / 2 * L0)| ≤ 163 / 10 ^ 4 := by
    have e : B - (G + 1 / 2 * L0) = (B - (A + H)) + (A + H - (G + 1 / 2 * L0)) := by ring
    rw [e]
    refine (abs_add_le _ _).trans ((add_le_add g6 g3).trans ?_)
    norm_num
  have g8 : |B| ≤ 44 := by
    have := abs_sub_abs_le_abs_sub B (G + 1 / 2 * L0)
    linarith
  -- the sum
  have f1 : |nearest (B + M) - (B + M)| ≤ 1 / 2 ^ 23 * (44 + (nu + 1) * 31) :=
    err_le ((abs_add_le _ _).trans (add_le_add g8 m6)) (by
      have : (1 : ℝ) / 2 ^ 100 ≤ 44 := by norm_num
      nlinarith)
  have e : nearest (B + M) - (G + 1 / 2 * L0 - (nu + 1) / 2 * T0) =
      (nearest (B + M) - (B + M)) + (B - (G + 1 / 2 * L0)) + (M - -((nu + 1) / 2) * T0) := by ring
  rw [e]
  refine (abs_add_le _ _).trans ((add_le_add ((abs_add_le _ _).trans (add_le_add f1 g7)) m5).trans ?_)
  norm_num
  linarith

/-- A prior with `mu = 0`, `kappa = sigmasq = nu = 1` and no observations: the Cauchy-like predictive
density is matched within `1/60 + 1/2^12`. -/
example : ∃ sh : NICH.Shared (Single lib), ∃ g : NICH.Group (Single lib), ∀ v : Single lib,
    |v.val| ≤ 2 ^ 30 →
    |(g.scoreValue sh v).val - Real.log (Spec.studentT 1 0 2 v.val)| ≤ 1 / 60 + 1 / 2 ^ 12 := by
  have n0 : nearest 0 = 0 := Factor.nearest_zero
  have n1 : nearest 1 = 1 := near_eq 1 0 (by norm_num) (by norm_num) (by norm_num)
  let sh : NICH.Shared (Single lib) := ⟨⟨0⟩, ⟨1⟩, ⟨1⟩, ⟨1⟩⟩
  let g : NICH.Group (Single lib) := ⟨0, ⟨0⟩, ⟨0⟩⟩
  have hp : sh.plusGroup g = ⟨⟨0⟩, ⟨1⟩, ⟨1⟩, ⟨1⟩⟩ := by
    unfold NICH.Shared.plusGroup
    refine NICH.Shared.mk.injEq .. ▸ ⟨?_, ?_, ?_, ?_⟩ <;> refine Single.mk.injEq .. ▸ ?_ <;>
      simp [sh, g, val_add, val_sub, val_mul, val_div, val_lit, val_ofInt, n0, n1]
  refine ⟨sh, g, fun v hv => ?_⟩
  have h := C76_nich_partial sh g v
  rw [hp] at h
  have := h ⟨n1, by norm_num, by norm_num⟩ (by norm_num) (by norm_num) (by norm_num) (by norm_num)
    (by norm_num) (by norm_num) (by simpa using hv)
  norm_num at this ⊢
  exact this

end Single

end Dist
