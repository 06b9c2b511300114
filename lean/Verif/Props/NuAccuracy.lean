import Verif.Lemmas.NuCheck
import Verif.Props.SpecialAccuracy

/-! # C70: the accuracy of `fast_lgamma_nu` -/

namespace Dist

open FloatOps FloatNotation Special F32 Enc LG

theorem take_four {α : Type} (l : List α) (i : ℕ) (h : i + 3 < l.length) :
    (l.drop i).take 4 = [l[i], l[i + 1], l[i + 2], l[i + 3]] := by
  have e : ∀ k (hk : k < l.length), l.drop k = l[k] :: l.drop (k + 1) :=
    fun k hk => List.drop_eq_getElem_cons hk
  rw [e i (by omega), e (i + 1) (by omega), e (i + 2) (by omega), e (i + 3) (by omega)]
  rfl

def nuBound (a : ℚ) : ℚ := max |a| (1 / 2 ^ 114)

def nuOctaveOk (t : ℕ) : Bool :=
  match nuCoeffs t with
  | [a0, a1, a2, a3] =>
    decide (nuBound a0 + nuBound a1 * (2 ^ (t + 1) / 16) + nuBound a2 * (2 ^ (t + 1) / 16) ^ 2 +
      nuBound a3 * (2 ^ (t + 1) / 16) ^ 3 ≤ 17)
  | _ => false

theorem nuOctaves_ok : ∀ t ∈ List.range 36, nuOctaveOk t = true := by decide +kernel

theorem nuBound_abs (a : ℚ) : |(a : ℝ)| ≤ (nuBound a : ℚ) := by
  have : |a| ≤ nuBound a := le_max_left _ _
  have h : ((|a| : ℚ) : ℝ) ≤ (nuBound a : ℚ) := by exact_mod_cast this
  rwa [Rat.cast_abs] at h

theorem nuBound_min (a : ℚ) : (2⁻¹ : ℝ) ^ 114 ≤ (nuBound a : ℚ) := by
  have : (1 / 2 ^ 114 : ℚ) ≤ nuBound a := le_max_right _ _
  have h : ((1 / 2 ^ 114 : ℚ) : ℝ) ≤ (nuBound a : ℚ) := by exact_mod_cast this
  refine le_trans (le_of_eq ?_) h
  push_cast; norm_num

/-- The evaluation of `poly_eval_3` with rounding. -/
theorem eval3_error {rd : ℝ → ℝ} (hr : Rounding rd) (a0 a1 a2 a3 : ℚ) {y : ℝ} (hy : 1 / 16 ≤ y) :
    |rd (rd (rd (rd a0 + rd (y * rd a1)) + rd (rd (y * y) * rd a2)) +
        rd (rd (rd (y * y) * y) * rd a3)) - peval [a0, a1, a2, a3] y| ≤
      ((1 + 2⁻¹ ^ 23) ^ 6 - 1) * ((nuBound a0 : ℝ) + nuBound a1 * y + nuBound a2 * y ^ 2 +
        nuBound a3 * y ^ 3) := by
  have hy1 : (0 : ℝ) < y := by linarith
  have hpk : ∀ k ≤ 3, (2⁻¹ : ℝ) ^ 12 ≤ y ^ k := fun k hk => by
    calc (2⁻¹ : ℝ) ^ 12 = (1 / 16) ^ 3 := by norm_num
      _ ≤ (1 / 16) ^ k := pow_le_pow_of_le_one (by norm_num) (by norm_num) hk
      _ ≤ y ^ k := by gcongr
  have hmin : ∀ (a : ℚ) (k : ℕ), k ≤ 3 → (2⁻¹ : ℝ) ^ 126 ≤ y ^ k * (nuBound a : ℝ) :=
    fun a k hk => by
      have h2 := nuBound_min a
      have h3 : (0 : ℝ) ≤ (nuBound a : ℚ) := le_trans (by positivity) h2
      calc (2⁻¹ : ℝ) ^ 126 = 2⁻¹ ^ 12 * 2⁻¹ ^ 114 := by norm_num
        _ ≤ y ^ k * (nuBound a : ℚ) := mul_le_mul (hpk k hk) h2 (by positivity) (by positivity)
  have hpow : ∀ k ≤ 3, (2⁻¹ : ℝ) ^ 126 ≤ y ^ k := fun k hk => le_trans (by norm_num) (hpk k hk)
  have coef : ∀ a : ℚ, RelErr 1 (nuBound a : ℚ) (rd (a : ℚ)) a := fun a =>
    ((RelErr.refl (a : ℝ)).weaken (nuBound_abs a)).rnd hr
      (le_trans (by norm_num) (nuBound_min a))
  have hy0 : RelErr 0 y y y := by
    have := RelErr.refl y
    rwa [abs_of_nonneg hy1.le] at this
  have h2 : RelErr 1 (y ^ 2) (rd (y * y)) (y ^ 2) := by
    have := hy0.mul hy0
    rw [← pow_two] at this
    have := this.rnd hr (hpow 2 (by norm_num))
    rwa [pow_two y] at this ⊢
  have h3 : RelErr 2 (y ^ 3) (rd (rd (y * y) * y)) (y ^ 3) := by
    have := h2.mul hy0
    rw [← pow_succ] at this
    exact this.rnd hr (hpow 3 le_rfl)
  have t1 := (hy0.mul (coef a1)).rnd hr (by simpa using hmin a1 1 (by norm_num))
  have t2 := (h2.mul (coef a2)).rnd hr (hmin a2 2 (by norm_num))
  have t3 := (h3.mul (coef a3)).rnd hr (hmin a3 3 le_rfl)
  have pos : ∀ (a : ℚ) (k : ℕ), 0 ≤ y ^ k * (nuBound a : ℝ) := fun a k => by
    have : (0 : ℝ) ≤ (nuBound a : ℚ) := le_trans (by positivity) (nuBound_min a)
    positivity
  have c0 : (2⁻¹ : ℝ) ^ 126 ≤ (nuBound a0 : ℚ) := by simpa using hmin a0 0 (by norm_num)
  have p1 := pos a1 1
  rw [pow_one] at p1
  have s1 := (((coef a0).mono (by norm_num : 1 ≤ 2)).add t1).rnd hr (by linarith)
  have s2 := (s1.add (t2.mono (by norm_num : _ ≤ 3))).rnd hr (by linarith [pos a2 2])
  have s3 := ((s2.mono (by norm_num : _ ≤ 5)).add (t3.mono (by norm_num : _ ≤ 5))).rnd hr
    (by linarith [pos a2 2, pos a3 3])
  have := s3.err
  have e1 : (a0 : ℝ) + y * a1 + y ^ 2 * a2 + y ^ 3 * a3 = peval [a0, a1, a2, a3] y := by
    simp only [peval_cons, peval_nil]; ring
  rw [e1] at this
  refine this.trans (le_of_eq ?_)
  ring

/-- What `fast_lgamma_nu` computes in the range of its table. -/
theorem fastLgammaNu_value {rnd : ℝ → ℝ} (toF : BitVec 32 → RR rnd) (lgammaf : RR rnd → RR rnd)
    (b : BitVec 32) (q : ℚ) (hq : val b = .fin q) (hb : (toF b).val = q) (h1 : 1 / 16 ≤ q)
    (h2 : q < 2 ^ 32) :
    ∃ (t : ℕ) (a0 a1 a2 a3 : ℚ), t < 36 ∧ (2 : ℚ) ^ t / 16 ≤ q ∧ q < 2 ^ (t + 1) / 16 ∧
      nuCoeffs t = [a0, a1, a2, a3] ∧
      fastLgammaNu toF lgammaf b = .ok ⟨rnd (rnd (rnd (rnd a0 + rnd ((q : ℝ) * rnd a1)) +
        rnd (rnd ((q : ℝ) * q) * rnd a2)) + rnd (rnd (rnd ((q : ℝ) * q) * q) * rnd a3))⟩ := by
  obtain ⟨c, hc, l1, l2⟩ := intLog2_floor hq (by linarith)
  have hc1 : -4 ≤ c := by
    have : (2 : ℚ) ^ (-4 : Int) < 2 ^ (c + 1) := by
      refine lt_of_le_of_lt ?_ l2
      refine le_trans (le_of_eq ?_) h1
      norm_num
    rw [zpow_two_lt_iff] at this; omega
  have hc2 : c < 32 := by
    have : (2 : ℚ) ^ c < 2 ^ (32 : Int) := by
      refine lt_of_le_of_lt l1 (h2.trans_le ?_); norm_num
    rwa [zpow_two_lt_iff] at this
  obtain ⟨t, rfl⟩ : ∃ t : ℕ, c = (t : Int) - 4 := ⟨(c + 4).toNat, by omega⟩
  have ht : t < 36 := by omega
  have L : lgammaNuCoeff3.length = 72 := by decide
  have hL : t / 2 * 4 + 3 < lgammaNuCoeff3.length := by omega
  have hpos : Int.tdiv ((t : Int) - 4 + 4) 2 * 4 = ((t / 2 * 4 : ℕ) : Int) := by
    rw [sub_add_cancel, Int.tdiv_eq_ediv_of_nonneg (by omega)]
    push_cast; ring
  have hg : ∀ k : ℕ, (hk : k < 4) → getAtInt lgammaNuCoeff3 (((t / 2 * 4 : ℕ) : Int) + k) =
      .ok (lgammaNuCoeff3[t / 2 * 4 + k]'(by omega)) := fun k hk => by
    rw [← getAtInt_nat (l := lgammaNuCoeff3) (i := t / 2 * 4 + k) (by omega)]
    push_cast; rfl
  have g0 := hg 0 (by norm_num)
  have g1 := hg 1 (by norm_num)
  have g2 := hg 2 (by norm_num)
  have g3 := hg 3 (by norm_num)
  rw [Nat.cast_zero, add_zero] at g0
  rw [Nat.cast_one] at g1
  rw [Nat.cast_ofNat] at g2 g3
  have z1 : (2 : ℚ) ^ ((t : Int) - 4) = 2 ^ t / 16 := by
    rw [zpow_sub₀ two_ne_zero, zpow_natCast]; norm_num
  have z2 : (2 : ℚ) ^ ((t : Int) - 4 + 1) = 2 ^ (t + 1) / 16 := by
    rw [show (t : Int) - 4 + 1 = ((t + 1 : ℕ) : Int) - 4 by push_cast; ring,
      zpow_sub₀ two_ne_zero, zpow_natCast]; norm_num
  refine ⟨t, _, _, _, _, ht, z1 ▸ l1, z2 ▸ l2, by rw [nuCoeffs, take_four _ _ hL]; rfl, ?_⟩
  unfold fastLgammaNu
  rw [if_neg, hc, Res.ok_bind]
  · simp only [hpos, polyEval3, g0, g1, g2, g3, Res.ok_bind, Res.pure_eq, decimal_RR]
    rw [← hb]
    rfl
  · rw [hq]
    simp only [Val.lt, Val.le, Bool.or_eq_true, decide_eq_true_eq, not_or, not_lt, not_le]
    norm_num at h1 h2 ⊢
    exact ⟨h1, h2⟩

/-- The difference of the statement. -/
theorem halfStep_half (x : ℝ) : halfStep (x / 2) =
    Real.log (Real.Gamma (x / 2 + 1 / 2)) - Real.log (Real.Gamma (x / 2)) := rfl

/-- **C70, `fast_lgamma_nu`.** For every float `ν` in the range of the table, and every rounding with
the error of single precision, the result is within `0.0161` of `log Γ(ν/2 + 1/2) - log Γ(ν/2)`. -/
theorem C70_nu {rnd : ℝ → ℝ} (hr : Rounding rnd) (toF : BitVec 32 → RR rnd)
    (lgammaf : RR rnd → RR rnd) (b : BitVec 32) (q : ℚ) (hq : val b = .fin q)
    (hb : (toF b).val = q) (h1 : 1 / 16 ≤ q) (h2 : q < 2 ^ 32) :
    ∃ r : RR rnd, fastLgammaNu toF lgammaf b = .ok r ∧
      |r.val - (Real.log (Real.Gamma ((q : ℝ) / 2 + 1 / 2)) - Real.log (Real.Gamma ((q : ℝ) / 2)))| ≤
        161 / 10 ^ 4 := by
  obtain ⟨t, a0, a1, a2, a3, ht, l1, l2, hco, hrun⟩ :=
    fastLgammaNu_value toF lgammaf b q hq hb h1 h2
  refine ⟨_, hrun, ?_⟩
  have l1' : (2 : ℝ) ^ t / 16 ≤ q := by
    have := (Rat.cast_le (K := ℝ)).2 l1
    push_cast at this
    exact this
  have l2' : (q : ℝ) < 2 ^ (t + 1) / 16 := by
    have := (Rat.cast_lt (K := ℝ)).2 l2
    push_cast at this
    exact this
  have hacc := nu_accurate ht l1' l2'
  rw [hco, halfStep_half] at hacc
  have h1' : (1 : ℝ) / 16 ≤ q := by
    have := (Rat.cast_le (K := ℝ)).2 h1
    push_cast at this
    exact this
  have herr := eval3_error hr a0 a1 a2 a3 h1'
  have hoct := nuOctaves_ok t (List.mem_range.2 ht)
  rw [nuOctaveOk, hco] at hoct
  have hoct' := (Rat.cast_le (K := ℝ)).2 (of_decide_eq_true hoct)
  push_cast at hoct'
  have pos : ∀ a, (0 : ℝ) ≤ (nuBound a : ℚ) := fun a => le_trans (by positivity) (nuBound_min a)
  have hq0 : (0 : ℝ) < q := by linarith
  have hsum : (nuBound a0 : ℝ) + nuBound a1 * q + nuBound a2 * q ^ 2 + nuBound a3 * q ^ 3 ≤ 17 := by
    refine le_trans ?_ hoct'
    have := pos a1; have := pos a2; have := pos a3
    have hle := l2'.le
    gcongr
  have h7 : ((1 : ℝ) + 2⁻¹ ^ 23) ^ 6 - 1 ≤ 1 / 10 ^ 6 := by norm_num
  have hrnd : ((1 + (2⁻¹ : ℝ) ^ 23) ^ 6 - 1) * ((nuBound a0 : ℝ) + nuBound a1 * q +
      nuBound a2 * q ^ 2 + nuBound a3 * q ^ 3) ≤ 1 / 10 ^ 6 * 17 := by
    refine mul_le_mul h7 hsum ?_ (by norm_num)
    have := pos a0; have := pos a1; have := pos a2; have := pos a3
    positivity
  have := herr.trans hrnd
  rw [abs_le] at this hacc ⊢
  norm_num at this hacc ⊢
  constructor <;> linarith

/-- ν = 3. -/
example : ∃ r : RR nearest, fastLgammaNu (fun _ => ⟨3⟩) id 0x40400000#32 = .ok r ∧
    |r.val - (Real.log (Real.Gamma (((3 : ℚ) : ℝ) / 2 + 1 / 2)) -
      Real.log (Real.Gamma (((3 : ℚ) : ℝ) / 2)))| ≤ 161 / 10 ^ 4 :=
  C70_nu nearest.rounding (fun _ => ⟨3⟩) id 0x40400000#32 3 (by decide +kernel)
    (by norm_num) (by norm_num) (by norm_num)

/-- **C70, the bound cannot be improved by much**: at ν = 1 the exact value of the polynomial is more
than `0.013` away from `log Γ(1) - log Γ(1/2)`. -/
theorem C70_nu_sharp (lgammaf : (RR fun x => x) → RR fun x => x) :
    ∃ r : RR fun x => x, fastLgammaNu (fun _ => ⟨1⟩) lgammaf 0x3F800000#32 = .ok r ∧
      13 / 1000 < r.val - (Real.log (Real.Gamma 1) - Real.log (Real.Gamma (1 / 2))) := by
  obtain ⟨t, a0, a1, a2, a3, ht, l1, l2, hco, hrun⟩ :=
    fastLgammaNu_value (fun _ => (⟨1⟩ : RR fun x => x)) lgammaf 0x3F800000#32 1 (by decide +kernel)
      (by norm_num) (by norm_num) (by norm_num)
  refine ⟨_, hrun, ?_⟩
  have ht4 : t = 4 := by
    have e1 : (2 : ℚ) ^ t ≤ 2 ^ 4 := by linarith
    have e2 : (2 : ℚ) ^ 4 < 2 ^ (t + 1) := by linarith
    have e3 := (pow_le_pow_iff_right₀ (by norm_num : (1 : ℚ) < 2)).1 e1
    have e4 := (pow_lt_pow_iff_right₀ (by norm_num : (1 : ℚ) < 2)).1 e2
    omega
  subst ht4
  have hv : (nuCoeffs 4).sum = a0 + a1 + a2 + a3 := by rw [hco]; simp; ring
  have hv2 : -(5593 : ℚ) / 10000 < (nuCoeffs 4).sum := by decide +kernel
  rw [hv] at hv2
  have hv3 := (Rat.cast_lt (K := ℝ)).2 hv2
  push_cast at hv3
  have hpi := abs_le.1 half2pi_error
  have h2 := abs_le.1 ln2_error
  unfold half2pi at hpi
  unfold LG.ln2 at h2
  rw [Real.log_mul two_ne_zero Real.pi_pos.ne'] at hpi
  push_cast at hpi h2 ⊢
  rw [Real.Gamma_one, Real.log_one, Real.Gamma_one_half_eq, Real.log_sqrt Real.pi_pos.le]
  norm_num at hpi h2 hv3 ⊢
  linarith

end Dist
