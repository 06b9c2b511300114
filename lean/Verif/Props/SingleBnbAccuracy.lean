import Verif.Props.SingleBNB
import Verif.Props.SingleCountsAccuracy

/-!
# C77: how far the predictive log probabilities of the Beta-Negative-Binomial model can be off
-/

namespace Dist

open FloatOps FloatNotation

namespace Single

variable {lib : Libm}

/-- `fast_lgamma` at an argument that is itself rounded. -/
theorem lgammaf_rounded {x y M : ℝ} (hy : nearest y = y) (hx1 : 5 / 2 ≤ x) (hy1 : 5 / 2 ≤ y)
    (hxM : x ≤ M) (hM : M ≤ 2 ^ 31) (h : |y - x| ≤ 5 / 2 ^ 23 * M) :
    |lgammaf lib y - Real.log (Real.Gamma x)| ≤ 2 / 10 ^ 5 * x + 14 / 10 ^ 6 * M ∧
      |Real.log (Real.Gamma x)| ≤ 23 * x := by
  have hM0 : 0 ≤ M := by linarith
  obtain ⟨h1, h2⟩ := abs_le.1 h
  have hy2 : y < 2 ^ 32 := by norm_num at h2 hM ⊢; linarith
  have hx2 : x ≤ 2 ^ 32 := by norm_num at hM ⊢; linarith
  have ny : IsNormal y := ⟨hy, le_trans (by norm_num) hy1, hy2.trans (by norm_num)⟩
  have e1 := lgammaf_near (lib := lib) ny hy1 hy2
  have e2 := log_Gamma_near (by linarith : 2 ≤ x) (by linarith) hx2 hy2.le h
  refine ⟨?_, log_Gamma_bound (by linarith) hx2⟩
  have e : lgammaf lib y - Real.log (Real.Gamma x) = (lgammaf lib y - Real.log (Real.Gamma y)) +
      (Real.log (Real.Gamma y) - Real.log (Real.Gamma x)) := by ring
  rw [e]
  refine (abs_add_le _ _).trans ((add_le_add e1 e2).trans ?_)
  norm_num at h1 h2 ⊢
  linarith

/-- The logarithm of the beta negative binomial probability without its binomial coefficient. -/
theorem log_betaNegBinomial {a b : ℝ} (ha : 0 < a) (hb : 0 < b) {r : ℕ} (hr : 1 ≤ r) (v : ℕ) :
    Real.log (Spec.betaNegBinomial a b r v) - Real.log ((v + r - 1).choose v) =
      Real.log (Real.Gamma (a + b)) - Real.log (Real.Gamma (a + r + (b + v))) +
        (Real.log (Real.Gamma (a + r)) - Real.log (Real.Gamma a)) +
        (Real.log (Real.Gamma (b + v)) - Real.log (Real.Gamma b)) := by
  have h1 := Real.Gamma_pos_of_pos ha
  have h2 := Real.Gamma_pos_of_pos hb
  have h3 := Real.Gamma_pos_of_pos (show 0 < a + b by positivity)
  have h4 := Real.Gamma_pos_of_pos (show 0 < a + r by positivity)
  have h5 := Real.Gamma_pos_of_pos (show 0 < b + v by positivity)
  have h6 := Real.Gamma_pos_of_pos (show 0 < a + r + (b + v) by positivity)
  have hc : (0 : ℝ) < (v + r - 1).choose v := by
    exact_mod_cast Nat.choose_pos (by omega)
  unfold Spec.betaNegBinomial
  rw [Real.log_mul hc.ne' (by positivity), Real.log_div (by positivity) (by positivity),
    Real.log_div (by positivity) (by positivity), Real.log_div (by positivity) (by positivity),
    Real.log_mul h4.ne' h5.ne', Real.log_mul h1.ne' h2.ne']
  ring

set_option maxHeartbeats 1000000 in
/-- **C77 (Beta-Negative-Binomial, partial).** For a posterior of moderate size, the score differs from
the logarithm of the beta negative binomial probability of that posterior, without the binomial
coefficient `score_value` leaves out, by at most `(alpha + beta + r + v)/2^12`.  The bound grows with
the number of observations, and `C77_bnb_contrast` shows that no fixed bound below `0.3` holds. -/
theorem C77_bnb_partial (sh : BNB.Shared (Single lib)) (g : BNB.Group) (v : UInt32)
    (ha1 : 5 / 2 ≤ (sh.plusGroup g).alpha.val) (ha2 : (sh.plusGroup g).alpha.val ≤ 2 ^ 29)
    (hb1 : 5 / 2 ≤ (sh.plusGroup g).beta.val) (hb2 : (sh.plusGroup g).beta.val ≤ 2 ^ 29)
    (hr1 : 1 ≤ sh.r.toNat) (hr : sh.r.toNat ≤ 2 ^ 29) (hv : v.toNat ≤ 2 ^ 29) :
    |(g.scoreValue sh v).val -
        (Real.log (Spec.betaNegBinomial (sh.plusGroup g).alpha.val (sh.plusGroup g).beta.val
            sh.r.toNat v.toNat) - Real.log ((v.toNat + sh.r.toNat - 1).choose v.toNat))| ≤
      ((sh.plusGroup g).alpha.val + (sh.plusGroup g).beta.val + sh.r.toNat + v.toNat) / 2 ^ 12 := by
  have ha' : nearest (sh.plusGroup g).alpha.val = (sh.plusGroup g).alpha.val := nearest.idem _
  have hb' : nearest (sh.plusGroup g).beta.val = (sh.plusGroup g).beta.val := nearest.idem _
  unfold BNB.Group.scoreValue BNB.u32
  simp only [val_add, val_sub, val_lgamma, val_ofInt, Int.cast_natCast]
  generalize (sh.plusGroup g).alpha.val = a at *
  generalize (sh.plusGroup g).beta.val = b at *
  rw [log_betaNegBinomial (by linarith) (by linarith) hr1]
  have r0 : (0 : ℝ) ≤ sh.r.toNat := by positivity
  have v0 : (0 : ℝ) ≤ v.toNat := by positivity
  have r2 : (sh.r.toNat : ℝ) ≤ 2 ^ 29 := by exact_mod_cast hr
  have v2 : (v.toNat : ℝ) ≤ 2 ^ 29 := by exact_mod_cast hv
  generalize (sh.r.toNat : ℝ) = r at *
  generalize (v.toNat : ℝ) = w at *
  have hm := nearest.rounding.mono
  have n0 : ∀ x : ℝ, 0 ≤ x → 0 ≤ nearest x := fun x h => by
    rw [← Factor.nearest_zero]; exact hm h
  have n5 : ∀ x : ℝ, 5 / 2 ≤ x → 5 / 2 ≤ nearest x := fun x h => by
    have e : nearest (5 / 2) = 5 / 2 := near_eq 5 (-1) (by norm_num) (by norm_num) (by norm_num)
    rw [← e]; exact hm h
  set M := a + b + r + w with hM
  have hM1 : 5 ≤ M := by linarith
  have hM2 : M ≤ 2 ^ 31 := by norm_num at ha2 hb2 r2 v2 ⊢; linarith
  have er : ∀ {y B : ℝ}, |y| ≤ B → 1 ≤ B → |nearest y - y| ≤ 1 / 2 ^ 23 * B := fun h hB =>
    err_le h (le_trans (by norm_num) hB)
  have R0 := n0 r r0
  have W0 := n0 w v0
  have R1 : |nearest r - r| ≤ 1 / 2 ^ 23 * (r + 1) := er (by rw [abs_of_nonneg r0]; linarith) (by linarith)
  have W1 : |nearest w - w| ≤ 1 / 2 ^ 23 * (w + 1) := er (by rw [abs_of_nonneg v0]; linarith) (by linarith)
  generalize nearest r = R at *
  generalize nearest w = W at *
  obtain ⟨R2, R3⟩ := abs_le.1 R1
  obtain ⟨W2, W3⟩ := abs_le.1 W1
  have A1 := n5 (a + R) (by linarith)
  have B1 := n5 (b + W) (by linarith)
  have A2 : |nearest (a + R) - (a + R)| ≤ 1 / 2 ^ 23 * (1001 / 1000 * (a + r)) := by
    refine er ?_ (by linarith)
    rw [abs_of_nonneg (by linarith)]
    norm_num at R3 ⊢
    linarith
  have B2 : |nearest (b + W) - (b + W)| ≤ 1 / 2 ^ 23 * (1001 / 1000 * (b + w)) := by
    refine er ?_ (by linarith)
    rw [abs_of_nonneg (by linarith)]
    norm_num at W3 ⊢
    linarith
  have iA := nearest.idem (a + R)
  have iB := nearest.idem (b + W)
  generalize nearest (a + R) = A at *
  generalize nearest (b + W) = B at *
  obtain ⟨A3, A4⟩ := abs_le.1 A2
  obtain ⟨B3, B4⟩ := abs_le.1 B2
  have C1 := n5 (a + b) (by linarith)
  have D1 := n5 (A + B) (by linarith)
  have C2 : |nearest (a + b) - (a + b)| ≤ 1 / 2 ^ 23 * M := by
    refine er ?_ (by linarith)
    rw [abs_of_nonneg (by linarith)]
    linarith
  have D2 : |nearest (A + B) - (A + B)| ≤ 1 / 2 ^ 23 * (1001 / 1000 * M) := by
    refine er ?_ (by linarith)
    rw [abs_of_nonneg (by linarith)]
    norm_num at A4 B4 R3 W3 ⊢
    linarith
  have iC := nearest.idem (a + b)
  have iD := nearest.idem (A + B)
  generalize nearest (a + b) = C at *
  generalize nearest (A + B) = D at *
  obtain ⟨D3, D4⟩ := abs_le.1 D2
  have hA : |A - (a + r)| ≤ 5 / 2 ^ 23 * M := by
    rw [abs_le]; constructor <;> norm_num at A3 A4 R2 R3 ⊢ <;> linarith
  have hB : |B - (b + w)| ≤ 5 / 2 ^ 23 * M := by
    rw [abs_le]; constructor <;> norm_num at B3 B4 W2 W3 ⊢ <;> linarith
  have hC : |C - (a + b)| ≤ 5 / 2 ^ 23 * M := C2.trans (by norm_num; linarith)
  have hD : |D - (a + r + (b + w))| ≤ 5 / 2 ^ 23 * M := by
    rw [abs_le]
    constructor <;> norm_num at A3 A4 B3 B4 R2 R3 W2 W3 D3 D4 ⊢ <;> linarith
  have hz : ∀ x : ℝ, |x - x| ≤ 5 / 2 ^ 23 * M := fun x => by
    rw [sub_self, abs_zero]; norm_num; linarith
  obtain ⟨e1, f1⟩ := lgammaf_rounded (lib := lib) iC (by linarith) C1 (by linarith) hM2 hC
  obtain ⟨e2, f2⟩ := lgammaf_rounded (lib := lib) iD (by linarith) D1 (by linarith) hM2 hD
  obtain ⟨e3, f3⟩ := lgammaf_rounded (lib := lib) iA (by linarith) A1 (by linarith) hM2 hA
  obtain ⟨e4, f4⟩ := lgammaf_rounded (lib := lib) ha' ha1 ha1 (by linarith) hM2 (hz a)
  obtain ⟨e5, f5⟩ := lgammaf_rounded (lib := lib) iB (by linarith) B1 (by linarith) hM2 hB
  obtain ⟨e6, f6⟩ := lgammaf_rounded (lib := lib) hb' hb1 hb1 (by linarith) hM2 (hz b)
  clear hA hB hC hD hz A1 A2 A3 A4 B1 B2 B3 B4 C1 C2 D1 D2 D3 D4 iA iB iC iD R0 R1 R2 R3 W0 W1 W2 W3
  generalize lgammaf lib C = c1 at *
  generalize lgammaf lib D = c2 at *
  generalize lgammaf lib A = c3 at *
  generalize lgammaf lib a = c4 at *
  generalize lgammaf lib B = c5 at *
  generalize lgammaf lib b = c6 at *
  generalize Real.log (Real.Gamma (a + b)) = d1 at *
  generalize Real.log (Real.Gamma (a + r + (b + w))) = d2 at *
  generalize Real.log (Real.Gamma (a + r)) = d3 at *
  generalize Real.log (Real.Gamma a) = d4 at *
  generalize Real.log (Real.Gamma (b + w)) = d5 at *
  generalize Real.log (Real.Gamma b) = d6 at *
  obtain ⟨e11, e12⟩ := abs_le.1 e1
  obtain ⟨e21, e22⟩ := abs_le.1 e2
  obtain ⟨e31, e32⟩ := abs_le.1 e3
  obtain ⟨e41, e42⟩ := abs_le.1 e4
  obtain ⟨e51, e52⟩ := abs_le.1 e5
  obtain ⟨e61, e62⟩ := abs_le.1 e6
  obtain ⟨f11, f12⟩ := abs_le.1 f1
  obtain ⟨f21, f22⟩ := abs_le.1 f2
  obtain ⟨f31, f32⟩ := abs_le.1 f3
  obtain ⟨f41, f42⟩ := abs_le.1 f4
  obtain ⟨f51, f52⟩ := abs_le.1 f5
  obtain ⟨f61, f62⟩ := abs_le.1 f6
  have k1 : |nearest (c1 - c2) - (c1 - c2)| ≤ 1 / 2 ^ 23 * (47 * M) := by
    refine er ?_ (by linarith)
    rw [abs_le]; constructor <;> linarith
  have k2 : |nearest (c3 - c4) - (c3 - c4)| ≤ 1 / 2 ^ 23 * (47 * M) := by
    refine er ?_ (by linarith)
    rw [abs_le]; constructor <;> linarith
  have k3 : |nearest (c5 - c6) - (c5 - c6)| ≤ 1 / 2 ^ 23 * (47 * M) := by
    refine er ?_ (by linarith)
    rw [abs_le]; constructor <;> linarith
  generalize nearest (c1 - c2) = g1 at *
  generalize nearest (c3 - c4) = g2 at *
  generalize nearest (c5 - c6) = g3 at *
  obtain ⟨k11, k12⟩ := abs_le.1 k1
  obtain ⟨k21, k22⟩ := abs_le.1 k2
  obtain ⟨k31, k32⟩ := abs_le.1 k3
  norm_num at k11 k12 k21 k22 k31 k32
  have k4 : |nearest (g1 + g2) - (g1 + g2)| ≤ 1 / 2 ^ 23 * (95 * M) := by
    refine er ?_ (by linarith)
    rw [abs_le]; constructor <;> linarith
  generalize nearest (g1 + g2) = g4 at *
  obtain ⟨k41, k42⟩ := abs_le.1 k4
  norm_num at k41 k42
  have k5 : |nearest (g4 + g3) - (g4 + g3)| ≤ 1 / 2 ^ 23 * (143 * M) := by
    refine er ?_ (by linarith)
    rw [abs_le]; constructor <;> linarith
  generalize nearest (g4 + g3) = g5 at *
  obtain ⟨k51, k52⟩ := abs_le.1 k5
  norm_num at k51 k52
  rw [abs_le]
  constructor <;> norm_num <;> linarith

/-- Nothing observed, `alpha = 3`, `beta = 4` and `r = 2`: the value 5 is scored within 1/256. -/
example : |((⟨0, 0⟩ : BNB.Group).scoreValue (⟨⟨3⟩, ⟨4⟩, 2⟩ : BNB.Shared (Single lib)) 5).val -
    (Real.log (Spec.betaNegBinomial 3 4 2 5) - Real.log ((6 : ℕ).choose 5))| ≤ 1 / 256 := by
  have n0 : nearest 0 = 0 := Factor.nearest_zero
  have n2 : nearest 2 = 2 := near_eq 2 0 (by norm_num) (by norm_num) (by norm_num)
  have n3 : nearest 3 = 3 := near_eq 3 0 (by norm_num) (by norm_num) (by norm_num)
  have n4 : nearest 4 = 4 := near_eq 4 0 (by norm_num) (by norm_num) (by norm_num)
  have hp : (⟨⟨3⟩, ⟨4⟩, 2⟩ : BNB.Shared (Single lib)).plusGroup ⟨0, 0⟩ = ⟨⟨3⟩, ⟨4⟩, 2⟩ := by
    unfold BNB.Shared.plusGroup BNB.u32
    refine BNB.Shared.mk.injEq .. ▸ ⟨?_, ?_, rfl⟩ <;> refine Single.mk.injEq .. ▸ ?_ <;>
      simp [val_ofInt, val_mul, n0, n2, n3, n4]
  have h := C77_bnb_partial (lib := lib) ⟨⟨3⟩, ⟨4⟩, 2⟩ ⟨0, 0⟩ 5
  rw [hp, show UInt32.toNat 5 = 5 from rfl, show UInt32.toNat 2 = 2 from rfl] at h
  refine (h (by norm_num) (by norm_num) (by norm_num) (by norm_num) (by norm_num) (by norm_num)
    (by norm_num)).trans (by norm_num)

end Single

end Dist
