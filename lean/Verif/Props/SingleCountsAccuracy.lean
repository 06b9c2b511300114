import Verif.Props.SingleCounts
import Verif.Lemmas.SingleNichScore

/-!
# C77: how far the predictive log probabilities of the Gamma-Poisson model can be off
-/

namespace Dist

open FloatOps FloatNotation

namespace Single

variable {lib : Libm}

/-- The logarithm of the negative binomial probability. -/
theorem log_negBinomial {a b : ℝ} (ha : 0 < a) (hb : 0 < b) (v : ℕ) :
    Real.log (Spec.negBinomial a (b / (1 + b)) v) =
      -Real.log (Real.Gamma a) + a * (Real.log b - Real.log (1 + b)) + Real.log (Real.Gamma (a + v)) -
        Real.log v.factorial - Real.log (1 + b) * v := by
  have hG := Real.Gamma_pos_of_pos ha
  have hG' := Real.Gamma_pos_of_pos (show 0 < a + v by positivity)
  have hf : (0 : ℝ) < v.factorial := by exact_mod_cast v.factorial_pos
  have e : 1 - b / (1 + b) = 1 / (1 + b) := by field_simp; ring
  unfold Spec.negBinomial
  rw [e, Real.log_mul (by positivity) (by positivity), Real.log_mul (by positivity) (by positivity),
    Real.log_div (by positivity) (by positivity), Real.log_mul (by positivity) (by positivity),
    Real.log_rpow (by positivity), Real.log_div hb.ne' (by positivity), Real.log_pow, one_div, Real.log_inv]
  ring

theorem log_Gamma_bound {x : ℝ} (h1 : 2 ≤ x) (h2 : x ≤ 2 ^ 32) : |Real.log (Real.Gamma x)| ≤ 23 * x := by
  have h := log_Gamma_near (x := 2) (y := x) (d := x - 2) le_rfl h1 (by norm_num) h2
    (by rw [abs_of_nonneg (by linarith)])
  have e : Real.Gamma 2 = 1 := Real.Gamma_two
  rw [e, Real.log_one, sub_zero] at h
  linarith

set_option maxHeartbeats 1000000 in
/-- **C77 (partial).** For a posterior of moderate size, the score `score_value` computes differs from
the logarithm of the negative binomial probability of that posterior by at most `(a + v + 1)/2^10`.
The bound grows with the sum of the observations, and `C77_gp_zero` shows that so does the error. -/
theorem C77_gp_partial (sh : GP.Shared (Single lib)) (g : GP.Group (Single lib)) (v : UInt32)
    (ha1 : 5 / 2 ≤ (sh.plusGroup g).alpha.val) (ha2 : (sh.plusGroup g).alpha.val ≤ 2 ^ 30)
    (hb1 : 1 / 2 ^ 20 ≤ (sh.plusGroup g).invBeta.val) (hb2 : (sh.plusGroup g).invBeta.val ≤ 2 ^ 31)
    (hv : v.toNat ≤ 2 ^ 30) :
    |(g.scoreValue sh v).val -
        Real.log (Spec.negBinomial (sh.plusGroup g).alpha.val
          ((sh.plusGroup g).invBeta.val / (1 + (sh.plusGroup g).invBeta.val)) v.toNat)| ≤
      ((sh.plusGroup g).alpha.val + v.toNat + 1) / 2 ^ 10 := by
  have ha' : nearest (sh.plusGroup g).alpha.val = (sh.plusGroup g).alpha.val := nearest.idem _
  have hb' : nearest (sh.plusGroup g).invBeta.val = (sh.plusGroup g).invBeta.val := nearest.idem _
  rw [gp_value]
  dsimp only
  generalize (sh.plusGroup g).alpha.val = a at *
  generalize (sh.plusGroup g).invBeta.val = b at *
  generalize v.toNat = n at *
  have ha0 : 0 < a := by linarith
  have hb0 : 0 < b := lt_of_lt_of_le (by positivity) hb1
  rw [log_negBinomial ha0 hb0]
  have hu := Factor.ulp_nonneg
  have ulp_v : ulp ≤ 3 / 10 ^ 7 := by unfold ulp; norm_num
  have d2 := Real.log_two_lt_d9
  have hn0 : (0 : ℝ) ≤ n := by positivity
  have hn1 : (n : ℝ) ≤ 2 ^ 30 := by exact_mod_cast hv
  -- the two logarithms
  have na : IsNormal a := ⟨ha', le_trans (by norm_num) ha1, lt_of_le_of_lt ha2 (by norm_num)⟩
  have nb : IsNormal b := ⟨hb', le_trans (by norm_num) hb1, lt_of_le_of_lt hb2 (by norm_num)⟩
  have l1 := logf_near nb
  have l2 := logf_factor (Factor.refl (show (0 : ℝ) ≤ 1 + b by linarith))
    (by have : (1 : ℝ) / 2 ^ 126 ≤ 1 := by norm_num
        linarith) (lt_of_le_of_lt (add_le_add_right hb2 1) (by norm_num))
  have b1 : |Real.log b| ≤ 22 := by
    have u : Real.log b ≤ 31 * Real.log 2 := by
      have := Real.log_le_log (by positivity) hb2
      rwa [Real.log_pow, Nat.cast_ofNat] at this
    have l : -(20 * Real.log 2) ≤ Real.log b := by
      have := Real.log_le_log (by positivity) hb1
      rwa [one_div, Real.log_inv, Real.log_pow, Nat.cast_ofNat] at this
    rw [abs_le]; constructor <;> linarith
  have b2 : |Real.log (1 + b)| ≤ 23 := by
    have h0 : 0 ≤ Real.log (1 + b) := Real.log_nonneg (by linarith)
    have u : Real.log (1 + b) ≤ 32 * Real.log 2 := by
      have : 1 + b ≤ 2 ^ 32 := by norm_num at hb2 ⊢; linarith
      have := Real.log_le_log (by positivity) this
      rwa [Real.log_pow, Nat.cast_ofNat] at this
    rw [abs_of_nonneg h0]; linarith
  have b3 : |Real.log b - Real.log (1 + b)| ≤ 14 := by
    have h1 : Real.log b ≤ Real.log (1 + b) := Real.log_le_log hb0 (by linarith)
    have h2 : Real.log (1 + b) - Real.log b ≤ 14 := by
      rw [← Real.log_div (by positivity) hb0.ne']
      have : (1 + b) / b ≤ 2 ^ 20 + 1 := by
        rw [div_le_iff₀ hb0]
        have : 2 ^ 20 * (1 / 2 ^ 20) ≤ 2 ^ 20 * b := by gcongr
        norm_num at this ⊢
        linarith
      have h3 := Real.log_le_log (by positivity) this
      have h4 : Real.log ((2 : ℝ) ^ 20 + 1) ≤ Real.log (2 ^ 20 * (1 + 1 / 2 ^ 20)) :=
        Real.log_le_log (by positivity) (by norm_num)
      rw [Real.log_mul (by positivity) (by positivity), Real.log_pow, Nat.cast_ofNat] at h4
      have h5 := Real.log_le_sub_one_of_pos (show (0 : ℝ) < 1 + 1 / 2 ^ 20 by positivity)
      norm_num at h5 h4
      linarith
    rw [abs_sub_comm, abs_of_nonneg (by linarith)]
    exact h2
  generalize logf b = B at *
  generalize logf (nearest (1 + b)) = L at *
  generalize Real.log b = B0 at *
  generalize Real.log (1 + b) = L0 at *
  have l1' : |B - B0| ≤ 123 / 10 ^ 6 := l1.le.trans (by norm_num)
  have l2' : |L - L0| ≤ 123 / 10 ^ 6 := l2.trans (by norm_num at ulp_v ⊢; linarith)
  have d1 : |B + -L - (B0 - L0)| ≤ 246 / 10 ^ 6 := by
    obtain ⟨q1, q2⟩ := abs_le.1 l1'
    obtain ⟨q3, q4⟩ := abs_le.1 l2'
    rw [abs_le]; constructor <;> linarith
  have d3 : |B + -L| ≤ 15 := by
    have := abs_sub_abs_le_abs_sub (B + -L) (B0 - L0)
    linarith
  have d4 : |nearest (B + -L) - (B + -L)| ≤ 1 / 2 ^ 23 * 15 := err_le d3 (by norm_num)
  generalize nearest (B + -L) = E at *
  have d5 : |E - (B0 - L0)| ≤ 248 / 10 ^ 6 := by
    have e : E - (B0 - L0) = (E - (B + -L)) + (B + -L - (B0 - L0)) := by ring
    rw [e]
    refine (abs_add_le _ _).trans ((add_le_add d4 d1).trans ?_)
    norm_num
  have d6 : |E| ≤ 15 := by
    have := abs_sub_abs_le_abs_sub E (B0 - L0)
    linarith
  generalize B0 - L0 = E0 at *
  -- the product with the posterior shape
  have p1 : |a * E| ≤ a * 15 := by rw [abs_mul, abs_of_pos ha0]; gcongr
  have p2 : |nearest (a * E) - a * E| ≤ 1 / 2 ^ 23 * (a * 15) := err_le p1 (by norm_num; linarith)
  have p3 : |nearest (a * E) - a * E0| ≤ a * (250 / 10 ^ 6) := by
    have e : nearest (a * E) - a * E0 = (nearest (a * E) - a * E) + a * (E - E0) := by ring
    rw [e]
    refine (abs_add_le _ _).trans ?_
    rw [abs_mul a, abs_of_pos ha0]
    have : a * |E - E0| ≤ a * (248 / 10 ^ 6) := by gcongr
    norm_num at p2 this ⊢
    linarith
  have p4 : |a * E0| ≤ a * 14 := by rw [abs_mul, abs_of_pos ha0]; gcongr
  generalize nearest (a * E) = P at *
  -- the gamma functions
  have g1 := lgammaf_near (lib := lib) na ha1 (lt_of_le_of_lt ha2 (by norm_num))
  have g1' := log_Gamma_bound (x := a) (by linarith) (ha2.trans (by norm_num))
  have fn : Factor ulp (nearest (n : ℝ)) (n : ℝ) := by
    have := Factor.ofInt (n := (n : ℤ)) (by positivity)
    simpa using this
  have hN0 := fn.nonneg'
  have hN : |nearest (n : ℝ) - n| ≤ 1 / 2 ^ 23 * (n + 1) :=
    err_le (by rw [abs_of_nonneg hn0]; linarith) (by norm_num; linarith)
  generalize nearest (n : ℝ) = N at *
  have hN2 : N ≤ n + 1 / 2 ^ 23 * (n + 1) := by linarith [(abs_le.1 hN).2]
  have hN3 : 1 / 2 ^ 23 * ((n : ℝ) + 1) ≤ 1 / 2 ^ 23 * (2 ^ 30 + 1) := by gcongr
  have hA : |nearest (a + N) - (a + N)| ≤ 1 / 2 ^ 23 * (a + n + 1 + n + 1) :=
    err_le (by rw [abs_of_nonneg (by linarith)]; norm_num at hN2 ⊢; linarith) (by norm_num; linarith)
  have hA5 : 5 / 2 ≤ nearest (a + N) := by
    have e : nearest (5 / 2) = 5 / 2 := near_eq 5 (-1) (by norm_num) (by norm_num) (by norm_num)
    calc (5 : ℝ) / 2 = nearest (5 / 2) := e.symm
      _ ≤ _ := nearest.rounding.mono (by linarith)
  have hA' : |nearest (a + N) - (a + n)| ≤ 3 / 2 ^ 23 * (a + n + 1) := by
    have e : nearest (a + N) - (a + n) = (nearest (a + N) - (a + N)) + (N - n) := by ring
    rw [e]
    refine (abs_add_le _ _).trans ((add_le_add hA hN).trans ?_)
    norm_num
    linarith
  have hAn : IsNormal (nearest (a + N)) := by
    refine ⟨nearest.idem _, le_trans (by norm_num) hA5, ?_⟩
    have := (abs_le.1 hA').2
    norm_num at this ha2 hn1 ⊢
    linarith
  have hA2 : nearest (a + N) < 2 ^ 32 := by
    have := (abs_le.1 hA').2
    norm_num at this ha2 hn1 ⊢
    linarith
  have g2 := lgammaf_near (lib := lib) hAn hA5 hA2
  have g3 := log_Gamma_near (x := a + n) (y := nearest (a + N)) (by linarith) (by linarith)
    (by norm_num at ha2 hn1 ⊢; linarith) hA2.le hA'
  have g4 := log_Gamma_bound (x := a + n) (by linarith) (by norm_num at ha2 hn1 ⊢; linarith)
  generalize Real.log (Real.Gamma (nearest (a + N))) = G1 at *
  have hA3 : nearest (a + N) ≤ (a + n + 1) * (1 + 3 / 2 ^ 23) := by
    have := (abs_le.1 hA').2
    linarith
  generalize nearest (a + N) = A at *
  generalize lgammaf lib A = V at *
  generalize lgammaf lib a = U at *
  generalize Real.log (Real.Gamma a) = U0 at *
  generalize Real.log (Real.Gamma (a + n)) = V0 at *
  have g5 : |V - V0| ≤ (a + n + 1) * (29 / 10 ^ 6) := by
    have e : V - V0 = (V - G1) + (G1 - V0) := by ring
    rw [e]
    refine (abs_add_le _ _).trans ((add_le_add g2 g3).trans ?_)
    norm_num at hA3 ⊢
    linarith
  have f1 := logFactorialf_near lib (n := n) (by omega)
  have f2 : |Real.log n.factorial| ≤ 23 * (n + 2) := by
    have h0 : 0 ≤ Real.log n.factorial := Real.log_natCast_nonneg _
    have h1 : Real.log n.factorial ≤ Real.log (n + 1).factorial := by
      refine Real.log_le_log (by exact_mod_cast n.factorial_pos) ?_
      exact_mod_cast Nat.factorial_le (by omega)
    have h2 := log_Gamma_bound (x := (n : ℝ) + 2) (by linarith) (by norm_num at hn1 ⊢; linarith)
    have e : Real.Gamma ((n : ℝ) + 2) = (n + 1).factorial := by
      have := Real.Gamma_nat_eq_factorial (n + 1)
      push_cast at this
      rw [show (n : ℝ) + 2 = n + 1 + 1 by ring]
      exact this
    rw [e] at h2
    rw [abs_of_nonneg h0]
    exact h1.trans ((le_abs_self _).trans h2)
  generalize logFactorialf lib n = W at *
  generalize Real.log (n.factorial : ℝ) = W0 at *
  -- the last product
  have q1 : |-L * N - -(L0 * n)| ≤ (n + 1) * (127 / 10 ^ 6) := by
    have e : -L * N - -(L0 * n) = -(L - L0) * N + L0 * (n - N) := by ring
    rw [e]
    refine (abs_add_le _ _).trans ?_
    rw [abs_mul, abs_mul, abs_neg, abs_of_nonneg hN0, abs_sub_comm (n : ℝ)]
    have h1 : |L - L0| * N ≤ 123 / 10 ^ 6 * (n + 1 / 2 ^ 23 * (n + 1)) := by gcongr
    have h2 : |L0| * |N - n| ≤ 23 * (1 / 2 ^ 23 * (n + 1)) := by gcongr
    norm_num at h1 h2 ⊢
    linarith
  have q2 : |L0 * n| ≤ 23 * n := by rw [abs_mul, abs_of_nonneg hn0]; gcongr
  have q3 : |-L * N| ≤ 24 * (n + 1) := by
    have := abs_sub_abs_le_abs_sub (-L * N) (-(L0 * n))
    rw [abs_neg (L0 * n)] at this
    linarith
  have q4 : |nearest (-L * N) - -L * N| ≤ 1 / 2 ^ 23 * (24 * (n + 1)) := err_le q3 (by norm_num; linarith)
  generalize nearest (-L * N) = Q at *
  have q5 : |Q - -(L0 * n)| ≤ (n + 1) * (130 / 10 ^ 6) := by
    have e : Q - -(L0 * n) = (Q - -L * N) + (-L * N - -(L0 * n)) := by ring
    rw [e]
    refine (abs_add_le _ _).trans ((add_le_add q4 q1).trans ?_)
    norm_num
    linarith
  -- the sums
  have s1 : |-U + P - (-U0 + a * E0)| ≤ a * (270 / 10 ^ 6) := by
    obtain ⟨r1, r2⟩ := abs_le.1 g1
    obtain ⟨r3, r4⟩ := abs_le.1 p3
    rw [abs_le]; constructor <;> linarith
  have s2 : |-U0 + a * E0| ≤ a * 37 := by
    refine (abs_add_le _ _).trans ?_
    rw [abs_neg]; linarith
  have s3 : |-U + P| ≤ a * 38 := by
    have := abs_sub_abs_le_abs_sub (-U + P) (-U0 + a * E0)
    linarith
  have s4 : |nearest (-U + P) - (-U + P)| ≤ 1 / 2 ^ 23 * (a * 38) := err_le s3 (by norm_num; linarith)
  generalize nearest (-U + P) = S at *
  have s5 : |S - (-U0 + a * E0)| ≤ a * (275 / 10 ^ 6) := by
    have e : S - (-U0 + a * E0) = (S - (-U + P)) + (-U + P - (-U0 + a * E0)) := by ring
    rw [e]
    refine (abs_add_le _ _).trans ((add_le_add s4 s1).trans ?_)
    norm_num
    linarith
  have t1 : |S + V - (-U0 + a * E0 + V0)| ≤ (a + n + 1) * (304 / 10 ^ 6) := by
    have e : S + V - (-U0 + a * E0 + V0) = (S - (-U0 + a * E0)) + (V - V0) := by ring
    rw [e]
    refine (abs_add_le _ _).trans ((add_le_add s5 g5).trans ?_)
    norm_num
    linarith
  have t2 : |-U0 + a * E0 + V0| ≤ (a + n) * 60 := by
    refine (abs_add_le _ _).trans ((add_le_add s2 g4).trans ?_)
    linarith
  have t3 : |S + V| ≤ (a + n + 1) * 61 := by
    have := abs_sub_abs_le_abs_sub (S + V) (-U0 + a * E0 + V0)
    linarith
  have t4 : |nearest (S + V) - (S + V)| ≤ 1 / 2 ^ 23 * ((a + n + 1) * 61) := err_le t3 (by norm_num; linarith)
  generalize nearest (S + V) = T at *
  have t5 : |T - (-U0 + a * E0 + V0)| ≤ (a + n + 1) * (312 / 10 ^ 6) := by
    have e : T - (-U0 + a * E0 + V0) = (T - (S + V)) + (S + V - (-U0 + a * E0 + V0)) := by ring
    rw [e]
    refine (abs_add_le _ _).trans ((add_le_add t4 t1).trans ?_)
    norm_num
    linarith
  have u1 : |T - W - (-U0 + a * E0 + V0 - W0)| ≤ (a + n + 1) * (312 / 10 ^ 6) + (n + 1) * (40 / 10 ^ 6) := by
    have e : T - W - (-U0 + a * E0 + V0 - W0) = (T - (-U0 + a * E0 + V0)) + -(W - W0) := by ring
    rw [e]
    refine (abs_add_le _ _).trans ?_
    rw [abs_neg]
    refine (add_le_add t5 f1).trans ?_
    linarith
  have u2 : |-U0 + a * E0 + V0 - W0| ≤ (a + n + 1) * 84 := by
    refine (abs_sub _ _).trans ((add_le_add t2 f2).trans ?_)
    linarith
  have u3 : |T - W| ≤ (a + n + 1) * 85 := by
    have := abs_sub_abs_le_abs_sub (T - W) (-U0 + a * E0 + V0 - W0)
    linarith
  have u4 : |nearest (T - W) - (T - W)| ≤ 1 / 2 ^ 23 * ((a + n + 1) * 85) := err_le u3 (by norm_num; linarith)
  generalize nearest (T - W) = R at *
  have u5 : |R - (-U0 + a * E0 + V0 - W0)| ≤ (a + n + 1) * (323 / 10 ^ 6) + (n + 1) * (40 / 10 ^ 6) := by
    have e : R - (-U0 + a * E0 + V0 - W0) = (R - (T - W)) + (T - W - (-U0 + a * E0 + V0 - W0)) := by ring
    rw [e]
    refine (abs_add_le _ _).trans ((add_le_add u4 u1).trans ?_)
    norm_num
    linarith
  have v1 : |R + Q| ≤ (a + n + 1) * 112 := by
    have h1 := abs_sub_abs_le_abs_sub R (-U0 + a * E0 + V0 - W0)
    have h2 := abs_sub_abs_le_abs_sub Q (-(L0 * n))
    rw [abs_neg] at h2
    refine (abs_add_le _ _).trans ?_
    linarith
  have v2 : |nearest (R + Q) - (R + Q)| ≤ 1 / 2 ^ 23 * ((a + n + 1) * 112) := err_le v1 (by norm_num; linarith)
  have e : nearest (R + Q) - (-U0 + a * E0 + V0 - W0 - L0 * n) =
      (nearest (R + Q) - (R + Q)) + (R - (-U0 + a * E0 + V0 - W0)) + (Q - -(L0 * n)) := by ring
  rw [e]
  refine (abs_add_le _ _).trans ((add_le_add ((abs_add_le _ _).trans (add_le_add v2 u5)) q5).trans ?_)
  norm_num
  linarith

/-- Nothing observed, `alpha = 3` and `inv_beta = 1`: the value 4 is scored within 1/128. -/
example : ∃ sh : GP.Shared (Single lib), ∃ g : GP.Group (Single lib),
    |(g.scoreValue sh 4).val - Real.log (Spec.negBinomial 3 (1 / 2) 4)| ≤ 1 / 128 := by
  have n0 : nearest 0 = 0 := Factor.nearest_zero
  have n1 : nearest 1 = 1 := near_eq 1 0 (by norm_num) (by norm_num) (by norm_num)
  have n3 : nearest 3 = 3 := near_eq 3 0 (by norm_num) (by norm_num) (by norm_num)
  have hp : (⟨⟨3⟩, ⟨1⟩⟩ : GP.Shared (Single lib)).plusGroup ⟨0, 0, ⟨0⟩⟩ = ⟨⟨3⟩, ⟨1⟩⟩ := by
    unfold GP.Shared.plusGroup GP.u32
    refine GP.Shared.mk.injEq .. ▸ ⟨?_, ?_⟩ <;> refine Single.mk.injEq .. ▸ ?_ <;>
      simp [val_ofInt, n0, n1, n3]
  refine ⟨⟨⟨3⟩, ⟨1⟩⟩, ⟨0, 0, ⟨0⟩⟩, ?_⟩
  have h := C77_gp_partial (lib := lib) ⟨⟨3⟩, ⟨1⟩⟩ ⟨0, 0, ⟨0⟩⟩ 4
  rw [hp, show UInt32.toNat 4 = 4 from rfl] at h
  have := h (by norm_num) (by norm_num) (by norm_num) (by norm_num) (by norm_num)
  norm_num at this ⊢
  exact this

end Single

end Dist
