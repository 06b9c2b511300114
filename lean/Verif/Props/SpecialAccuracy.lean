import Verif.Lemmas.IntToFloat
import Verif.Lemmas.LgammaCheck
import Verif.Lemmas.RoundRel
import Verif.Props.Special

/-! # C69: the accuracy of `fast_lgamma` -/

namespace Dist

open FloatOps FloatNotation Special F32 Enc LG

theorem decimal_RR (rnd : ℝ → ℝ) (t : Int × Int) :
    (decimal t : RR rnd) = ⟨rnd (dec t : ℚ)⟩ := by
  unfold decimal dec
  split_ifs <;> · show RR.mk _ = _; congr 2; push_cast; simp

/-- Six consecutive entries. -/
theorem take_six {α : Type} (l : List α) (i : ℕ) (h : i + 5 < l.length) :
    (l.drop i).take 6 = [l[i], l[i + 1], l[i + 2], l[i + 3], l[i + 4], l[i + 5]] := by
  have e : ∀ k (hk : k < l.length), l.drop k = l[k] :: l.drop (k + 1) :=
    fun k hk => List.drop_eq_getElem_cons hk
  rw [e i (by omega), e (i + 1) (by omega), e (i + 2) (by omega), e (i + 3) (by omega),
    e (i + 4) (by omega), e (i + 5) (by omega)]
  rfl

theorem getAtInt_nat {α : Type} {l : List α} {i : ℕ} (h : i < l.length) :
    getAtInt l (i : Int) = .ok l[i] := by
  unfold getAtInt
  rw [if_pos (by positivity), Int.toNat_natCast, getAt_of h]

/-- The bound of a coefficient, at least the smallest normal number. -/
def coefBound (a : ℚ) : ℚ := max |a| (1 / 2 ^ 126)

/-- The bounds of the terms, divided by the argument, on an octave. -/
def octaveOk (c : ℕ) : Bool :=
  match coeffs c with
  | [a0, a1, a2, a3, a4, a5] =>
    decide (coefBound a0 / 2 ^ c + coefBound a1 + coefBound a2 * 2 ^ (c + 1) +
      coefBound a3 * (2 ^ (c + 1)) ^ 2 + coefBound a4 * (2 ^ (c + 1)) ^ 3 +
      coefBound a5 * (2 ^ (c + 1)) ^ 4 ≤ 30)
  | _ => false

theorem octaves_ok : ∀ c ∈ List.range 32, c = 0 ∨ octaveOk c = true := by decide +kernel

theorem coefBound_abs (a : ℚ) : |(a : ℝ)| ≤ (coefBound a : ℚ) := by
  have : |a| ≤ coefBound a := le_max_left _ _
  have h : ((|a| : ℚ) : ℝ) ≤ (coefBound a : ℚ) := by exact_mod_cast this
  rwa [Rat.cast_abs] at h

theorem coefBound_min (a : ℚ) : (2⁻¹ : ℝ) ^ 126 ≤ (coefBound a : ℚ) := by
  have : (1 / 2 ^ 126 : ℚ) ≤ coefBound a := le_max_right _ _
  have h : ((1 / 2 ^ 126 : ℚ) : ℝ) ≤ (coefBound a : ℚ) := by exact_mod_cast this
  refine le_trans (le_of_eq ?_) h
  push_cast; norm_num

/-- A coefficient as the program reads it. -/
theorem RelErr.coef {rd : ℝ → ℝ} (hr : Rounding rd) (a : ℚ) :
    RelErr 1 (coefBound a : ℚ) (rd (a : ℚ)) a :=
  ((RelErr.refl (a : ℝ)).weaken (coefBound_abs a)).rnd hr (coefBound_min a)

/-- Horner's scheme without a scheme: the evaluation of `fast_lgamma` with rounding. -/
theorem eval_error {rd : ℝ → ℝ} (hr : Rounding rd) (a0 a1 a2 a3 a4 a5 : ℚ) {y : ℝ} (hy : 1 ≤ y) :
    let y2 := rd (y * y)
    let y3 := rd (y2 * y)
    let y4 := rd (y3 * y)
    let y5 := rd (y4 * y)
    |rd (rd (rd (rd (rd (rd a0 + rd (rd a1 * y)) + rd (rd a2 * y2)) + rd (rd a3 * y3)) +
        rd (rd a4 * y4)) + rd (rd a5 * y5)) - peval [a0, a1, a2, a3, a4, a5] y| ≤
      ((1 + 2⁻¹ ^ 23) ^ 7 - 1) * ((coefBound a0 : ℝ) + coefBound a1 * y + coefBound a2 * y ^ 2 +
        coefBound a3 * y ^ 3 + coefBound a4 * y ^ 4 + coefBound a5 * y ^ 5) := by
  intro y2 y3 y4 y5
  have hmin : ∀ (a : ℚ) (k : ℕ), (2⁻¹ : ℝ) ^ 126 ≤ (coefBound a : ℝ) * y ^ k := fun a k => by
    have h1 : (1 : ℝ) ≤ y ^ k := one_le_pow₀ hy
    have h2 := coefBound_min a
    have h3 : (0 : ℝ) ≤ (coefBound a : ℚ) := le_trans (by positivity) h2
    nlinarith
  have hpow : ∀ k, (2⁻¹ : ℝ) ^ 126 ≤ y ^ k := fun k =>
    le_trans (by norm_num) (one_le_pow₀ hy (n := k))
  have hy0 : RelErr 0 y y y := by
    have := RelErr.refl y
    rwa [abs_of_nonneg (by linarith)] at this
  have h2 : RelErr 1 (y ^ 2) y2 (y ^ 2) := by
    have := hy0.mul hy0
    rw [← pow_two] at this
    have := this.rnd hr (hpow 2)
    rwa [pow_two y] at this ⊢
  have h3 : RelErr 2 (y ^ 3) y3 (y ^ 3) := by
    have := h2.mul hy0
    rw [← pow_succ] at this
    exact this.rnd hr (hpow 3)
  have h4 : RelErr 3 (y ^ 4) y4 (y ^ 4) := by
    have := h3.mul hy0
    rw [← pow_succ] at this
    exact this.rnd hr (hpow 4)
  have h5 : RelErr 4 (y ^ 5) y5 (y ^ 5) := by
    have := h4.mul hy0
    rw [← pow_succ] at this
    exact this.rnd hr (hpow 5)
  have t1 := ((RelErr.coef hr a1).mul hy0).rnd hr (by simpa using hmin a1 1)
  have t2 := ((RelErr.coef hr a2).mul h2).rnd hr (hmin a2 2)
  have t3 := ((RelErr.coef hr a3).mul h3).rnd hr (hmin a3 3)
  have t4 := ((RelErr.coef hr a4).mul h4).rnd hr (hmin a4 4)
  have t5 := ((RelErr.coef hr a5).mul h5).rnd hr (hmin a5 5)
  have pos : ∀ (a : ℚ) (k : ℕ), 0 ≤ (coefBound a : ℝ) * y ^ k := fun a k =>
    le_trans (by positivity) (hmin a k)
  have c0 := coefBound_min a0
  have p1 := pos a1 1
  rw [pow_one] at p1
  have s1 := (((RelErr.coef hr a0).mono (by norm_num : 1 ≤ 2)).add t1).rnd hr (by linarith)
  have s2 := (s1.add (t2.mono (by norm_num : _ ≤ 3))).rnd hr (by linarith [pos a2 2])
  have s3 := (s2.add (t3.mono (by norm_num : _ ≤ 4))).rnd hr (by linarith [pos a2 2, pos a3 3])
  have s4 := (s3.add (t4.mono (by norm_num : _ ≤ 5))).rnd hr
    (by linarith [pos a2 2, pos a3 3, pos a4 4])
  have s5 := (s4.add (t5.mono (by norm_num : _ ≤ 6))).rnd hr
    (by linarith [pos a2 2, pos a3 3, pos a4 4, pos a5 5])
  have := s5.err
  refine le_trans (le_of_eq ?_) this
  congr 2
  simp only [peval_cons, peval_nil]
  ring

/-- What `fast_lgamma` computes in the range of its table, in any arithmetic. -/
theorem fastLgamma_run {F : Type} [FloatOps F] (toF : BitVec 32 → F) (lgammaf : F → F)
    (b : BitVec 32) (q : ℚ) (hq : val b = .fin q) (h1 : 5 / 2 ≤ q) (h2 : q < 2 ^ 32) :
    ∃ (c : ℕ) (t0 t1 t2 t3 t4 t5 : Int × Int), 1 ≤ c ∧ c ≤ 31 ∧ (2 : ℚ) ^ c ≤ q ∧ q < 2 ^ (c + 1) ∧
      coeffs c = [dec t0, dec t1, dec t2, dec t3, dec t4, dec t5] ∧
      let y := toF b
      let y2 := y * y
      let y3 := y2 * y
      let y4 := y3 * y
      let y5 := y4 * y
      fastLgamma toF lgammaf b = .ok (decimal t0 + decimal t1 * y + decimal t2 * y2 +
        decimal t3 * y3 + decimal t4 * y4 + decimal t5 * y5) := by
  obtain ⟨c, hc, l1, l2⟩ := intLog2_floor hq (by linarith)
  have hc1 : 1 ≤ c := by
    have : (2 : ℚ) ^ (1 : Int) < 2 ^ (c + 1) := by
      refine lt_trans ?_ (lt_of_le_of_lt h1 l2); norm_num
    rw [zpow_two_lt_iff] at this; omega
  have hc2 : c < 32 := by
    have : (2 : ℚ) ^ c < 2 ^ (32 : Int) := by
      refine lt_of_le_of_lt l1 (h2.trans_le ?_); norm_num
    rwa [zpow_two_lt_iff] at this
  obtain ⟨n, rfl⟩ : ∃ n : ℕ, c = n := ⟨c.toNat, by omega⟩
  have L := length_lgammaCoeff5
  have hL : 6 * n + 5 < lgammaCoeff5.length := by omega
  have hg : ∀ k : ℕ, (hk : k < 6) → getAtInt lgammaCoeff5 ((n : Int) * 6 + k) =
      .ok (lgammaCoeff5[6 * n + k]'(by omega)) := fun k hk => by
    rw [← getAtInt_nat (l := lgammaCoeff5) (i := 6 * n + k) (by omega)]
    congr 1; push_cast; ring
  have g0 := hg 0 (by norm_num)
  have g1 := hg 1 (by norm_num)
  have g2 := hg 2 (by norm_num)
  have g3 := hg 3 (by norm_num)
  have g4 := hg 4 (by norm_num)
  have g5 := hg 5 (by norm_num)
  push_cast at g0 g1 g2 g3 g4 g5
  rw [add_zero] at g0
  refine ⟨n, _, _, _, _, _, _, by omega, by omega, ?_, ?_,
    by rw [coeffs, take_six _ _ hL]; rfl, ?_⟩
  · exact_mod_cast l1
  · exact_mod_cast l2
  · intro y y2 y3 y4 y5
    unfold fastLgamma
    rw [if_neg, hc, Res.ok_bind]
    · simp only [g0, g1, g2, g3, g4, g5, Res.ok_bind, Res.pure_eq, y, y2, y3, y4, y5]
      rfl
    · rw [hq]
      simp only [Val.lt, Val.le, Bool.or_eq_true, decide_eq_true_eq, not_or, not_lt, not_le]
      norm_num at h2 ⊢
      exact ⟨h1, h2⟩

/-- What `fast_lgamma` computes in the range of its table. -/
theorem fastLgamma_value {rnd : ℝ → ℝ} (toF : BitVec 32 → RR rnd) (lgammaf : RR rnd → RR rnd)
    (b : BitVec 32) (q : ℚ) (hq : val b = .fin q) (hb : (toF b).val = q) (h1 : 5 / 2 ≤ q)
    (h2 : q < 2 ^ 32) :
    ∃ (c : ℕ) (a0 a1 a2 a3 a4 a5 : ℚ), 1 ≤ c ∧ c ≤ 31 ∧ (2 : ℚ) ^ c ≤ q ∧ q < 2 ^ (c + 1) ∧
      coeffs c = [a0, a1, a2, a3, a4, a5] ∧
      let y : ℝ := q
      let y2 := rnd (y * y)
      let y3 := rnd (y2 * y)
      let y4 := rnd (y3 * y)
      let y5 := rnd (y4 * y)
      fastLgamma toF lgammaf b = .ok ⟨rnd (rnd (rnd (rnd (rnd (rnd a0 + rnd (rnd a1 * y)) +
        rnd (rnd a2 * y2)) + rnd (rnd a3 * y3)) + rnd (rnd a4 * y4)) + rnd (rnd a5 * y5))⟩ := by
  obtain ⟨c, t0, t1, t2, t3, t4, t5, hc1, hc2, l1, l2, hco, hrun⟩ :=
    fastLgamma_run toF lgammaf b q hq h1 h2
  refine ⟨c, _, _, _, _, _, _, hc1, hc2, l1, l2, hco, ?_⟩
  intro y y2 y3 y4 y5
  rw [hrun]
  simp only [decimal_RR, y, y2, y3, y4, y5, ← hb]
  rfl

theorem peval_accurate {c : ℕ} (hc1 : 1 ≤ c) (hc2 : c ≤ 31) {q : ℚ} (l1 : (2 : ℚ) ^ c ≤ q)
    (l2 : q < 2 ^ (c + 1)) (h1 : 5 / 2 ≤ q) :
    |peval (coeffs c) q - Real.log (Real.Gamma q)| ≤ q / 10 ^ 5 := by
  refine poly_accurate hc1 hc2 (by exact_mod_cast l1) (by exact_mod_cast l2) ?_
  have : ((5 / 2 : ℚ) : ℝ) ≤ q := by exact_mod_cast h1
  push_cast at this
  exact this

/-- The terms of the polynomial of an octave. -/
theorem coeff_sum_le {c : ℕ} {a0 a1 a2 a3 a4 a5 : ℚ} (hc1 : 1 ≤ c) (hc2 : c ≤ 31)
    (hco : coeffs c = [a0, a1, a2, a3, a4, a5]) {q : ℚ} (l1 : (2 : ℚ) ^ c ≤ q)
    (l2 : q < 2 ^ (c + 1)) (h1' : 5 / 2 ≤ (q : ℝ)) :
    (coefBound a0 : ℝ) + coefBound a1 * q + coefBound a2 * q ^ 2 +
        coefBound a3 * q ^ 3 + coefBound a4 * q ^ 4 + coefBound a5 * q ^ 5 ≤ 30 * q := by
  have hoct := octaves_ok c (List.mem_range.2 (by omega))
  rcases hoct with h0 | hoct
  · omega
  rw [octaveOk, hco, decide_eq_true_eq] at hoct
  have hoct' : ((coefBound a0 / 2 ^ c + coefBound a1 + coefBound a2 * 2 ^ (c + 1) +
      coefBound a3 * (2 ^ (c + 1)) ^ 2 + coefBound a4 * (2 ^ (c + 1)) ^ 3 +
      coefBound a5 * (2 ^ (c + 1)) ^ 4 : ℚ) : ℝ) ≤ ((30 : ℚ) : ℝ) := by exact_mod_cast hoct
  push_cast at hoct'
  have l1' : (2 : ℝ) ^ c ≤ q := by exact_mod_cast l1
  have l2' : (q : ℝ) < 2 ^ (c + 1) := by exact_mod_cast l2
  have hp : (0 : ℝ) < 2 ^ c := by positivity
  have hq0 : (0 : ℝ) < q := by linarith
  have pos : ∀ a, (0 : ℝ) ≤ (coefBound a : ℚ) := fun a => le_trans (by positivity) (coefBound_min a)
  have e : (coefBound a0 : ℝ) + coefBound a1 * q + coefBound a2 * q ^ 2 +
      coefBound a3 * q ^ 3 + coefBound a4 * q ^ 4 + coefBound a5 * q ^ 5 =
      (coefBound a0 / q + coefBound a1 + coefBound a2 * q + coefBound a3 * q ^ 2 +
        coefBound a4 * q ^ 3 + coefBound a5 * q ^ 4) * q := by
    field_simp
  rw [e]
  refine mul_le_mul_of_nonneg_right (le_trans ?_ hoct') hq0.le
  have := pos a0; have := pos a2; have := pos a3; have := pos a4; have := pos a5
  have hle := l2'.le
  gcongr

/-- **C69, `fast_lgamma`.** For every float `y` in the range of the table, and every rounding with
the error of single precision after each operation, the result is within `4·10⁻⁵ y` of `log Γ(y)`. -/
theorem C69_lgamma {rnd : ℝ → ℝ} (hr : Rounding rnd) (toF : BitVec 32 → RR rnd)
    (lgammaf : RR rnd → RR rnd) (b : BitVec 32) (q : ℚ) (hq : val b = .fin q)
    (hb : (toF b).val = q) (h1 : 5 / 2 ≤ q) (h2 : q < 2 ^ 32) :
    ∃ r : RR rnd, fastLgamma toF lgammaf b = .ok r ∧
      |r.val - Real.log (Real.Gamma q)| ≤ 4 / 10 ^ 5 * q := by
  obtain ⟨c, a0, a1, a2, a3, a4, a5, hc1, hc2, l1, l2, hco, hrun⟩ :=
    fastLgamma_value toF lgammaf b q hq hb h1 h2
  refine ⟨_, hrun, ?_⟩
  have hacc := peval_accurate hc1 hc2 l1 l2 h1
  rw [hco] at hacc
  have h1' : ((5 / 2 : ℚ) : ℝ) ≤ q := by exact_mod_cast h1
  push_cast at h1'
  have herr := eval_error hr a0 a1 a2 a3 a4 a5 (y := (q : ℝ)) (by linarith)
  have hsum := coeff_sum_le hc1 hc2 hco l1 l2 h1'
  have pos : ∀ a, (0 : ℝ) ≤ (coefBound a : ℚ) := fun a => le_trans (by positivity) (coefBound_min a)
  have hq0 : (0 : ℝ) < q := by linarith
  have h7 : ((1 : ℝ) + 2⁻¹ ^ 23) ^ 7 - 1 ≤ 1 / 10 ^ 6 := by norm_num
  have hrnd : ((1 + (2⁻¹ : ℝ) ^ 23) ^ 7 - 1) * ((coefBound a0 : ℝ) + coefBound a1 * q +
      coefBound a2 * q ^ 2 + coefBound a3 * q ^ 3 + coefBound a4 * q ^ 4 + coefBound a5 * q ^ 5) ≤
      1 / 10 ^ 6 * (30 * q) := by
    refine mul_le_mul h7 hsum ?_ (by norm_num)
    have := pos a0; have := pos a1; have := pos a2; have := pos a3; have := pos a4; have := pos a5
    positivity
  have := (herr.trans hrnd)
  rw [abs_le] at this hacc ⊢
  constructor <;> linarith

/-- **C69, exact arithmetic.**  Without rounding the error is below `10⁻⁵ y`. -/
theorem C69_lgamma_exact (toF : BitVec 32 → RR fun x => x) (lgammaf : (RR fun x => x) → RR fun x => x)
    (b : BitVec 32) (q : ℚ) (hq : val b = .fin q) (hb : (toF b).val = q) (h1 : 5 / 2 ≤ q)
    (h2 : q < 2 ^ 32) :
    ∃ r : RR fun x => x, fastLgamma toF lgammaf b = .ok r ∧
      |r.val - Real.log (Real.Gamma q)| ≤ 1 / 10 ^ 5 * q := by
  obtain ⟨c, a0, a1, a2, a3, a4, a5, hc1, hc2, l1, l2, hco, hrun⟩ :=
    fastLgamma_value toF lgammaf b q hq hb h1 h2
  refine ⟨_, hrun, ?_⟩
  have hacc := peval_accurate hc1 hc2 l1 l2 h1
  rw [hco] at hacc
  have e : ∀ y : ℝ, (a0 : ℝ) + a1 * y + a2 * (y * y) + a3 * (y * y * y) + a4 * (y * y * y * y) +
      a5 * (y * y * y * y * y) = peval [a0, a1, a2, a3, a4, a5] y := fun y => by
    simp only [peval_cons, peval_nil]; ring
  show |(a0 : ℝ) + a1 * q + a2 * (q * q) + a3 * (q * q * q) + a4 * (q * q * q * q) +
      a5 * (q * q * q * q * q) - _| ≤ _
  rw [e q]
  refine hacc.trans (le_of_eq ?_)
  ring

/-- 1000.0f. -/
example : ∃ r : RR nearest, fastLgamma (fun _ => ⟨1000⟩) id 0x447A0000#32 = .ok r ∧
    |r.val - Real.log (Real.Gamma 1000)| ≤ 4 / 10 ^ 5 * 1000 := by
  have h := C69_lgamma nearest.rounding (fun _ => ⟨1000⟩) id 0x447A0000#32 1000 (by decide +kernel)
    (by norm_num) (by norm_num) (by norm_num)
  rw [show ((1000 : ℚ) : ℝ) = 1000 by norm_num] at h
  exact h

/-- `log Γ` between two arguments, by convexity. -/
theorem log_Gamma_lipschitz {a b : ℝ} (ha : 2 ≤ a) (hab : a ≤ b) :
    0 ≤ Real.log (Real.Gamma b) - Real.log (Real.Gamma a) ∧
      Real.log (Real.Gamma b) - Real.log (Real.Gamma a) ≤ (b - a) * Real.log b := by
  rcases hab.eq_or_lt with rfl | hab
  · simp
  have hstep : ∀ x : ℝ, 0 < x →
      Real.log (Real.Gamma (x + 1)) - Real.log (Real.Gamma x) = Real.log x := fun x hx => by
    rw [Real.Gamma_add_one hx.ne', Real.log_mul hx.ne' (Real.Gamma_pos_of_pos hx).ne']; ring
  have h1 := Real.convexOn_log_Gamma.slope_mono_adjacent (x := a) (y := b) (z := b + 1)
    (Set.mem_Ioi.2 (by linarith)) (Set.mem_Ioi.2 (by linarith)) hab (by linarith)
  have h2 := Real.convexOn_log_Gamma.slope_mono_adjacent (x := a - 1) (y := a) (z := b)
    (Set.mem_Ioi.2 (by linarith)) (Set.mem_Ioi.2 (by linarith)) (by linarith) hab
  have e2 := hstep (a - 1) (by linarith)
  simp only [Function.comp_apply, add_sub_cancel_left, div_one, hstep b (by linarith),
    sub_sub_cancel, sub_add_cancel] at h1 h2 e2
  rw [e2] at h2
  have hpos : 0 < b - a := by linarith
  rw [div_le_iff₀ hpos] at h1
  rw [le_div_iff₀ hpos] at h2
  have := mul_nonneg (Real.log_nonneg (by linarith : 1 ≤ a - 1)) hpos.le
  exact ⟨by linarith, by linarith⟩

theorem log_two_pow_32 : Real.log (2 ^ 32) ≤ 23 := by
  rw [Real.log_pow]
  have := Real.log_two_lt_d9
  norm_num
  linarith

/-- **C69, `fast_log_factorial`** beyond its table: within `5·10⁻⁵ (n + 1)` of `log n!`, as long as
`n + 1` does not round to `2^32`. -/
theorem C69_log_factorial {rnd : ℝ → ℝ} (hr : Rounding rnd) (toF : BitVec 32 → RR rnd)
    (hF : ∀ b q, val b = .fin q → (toF b).val = q) (lgammaf : RR rnd → RR rnd) (n : ℕ)
    (h1 : 64 ≤ n) (h2 : n + 129 < 2 ^ 32) :
    ∃ r : RR rnd, fastLogFactorial toF lgammaf n = .ok r ∧
      |r.val - Real.log n.factorial| ≤ 5 / 10 ^ 5 * (n + 1) := by
  obtain ⟨q, hq, e1, e2⟩ := val_ofNat (n := n + 1) (by omega) (by omega)
  have h1' : (64 : ℚ) ≤ n := by exact_mod_cast h1
  have h2' : (n : ℚ) + 129 < 2 ^ 32 := by exact_mod_cast h2
  push_cast at e1 e2
  have hq1 : 60 ≤ q := by
    have : (n : ℚ) + 1 ≤ 2 ^ 32 := by linarith
    have : ((n : ℚ) + 1) / 2 ^ 24 ≤ ((n : ℚ) + 1) / 20 := by gcongr; norm_num
    have := (abs_le.1 e1).1
    linarith
  have hq2 : q < 2 ^ 32 := by have := (abs_le.1 e2).2; linarith
  obtain ⟨r, hrun, herr⟩ := C69_lgamma hr toF lgammaf _ q hq (hF _ _ hq) (by linarith) hq2
  refine ⟨r, ?_, ?_⟩
  · unfold fastLogFactorial
    rw [if_neg (by omega), Nat.mod_eq_of_lt (by omega)]
    exact hrun
  · have hfac : Real.log n.factorial = Real.log (Real.Gamma ((n : ℝ) + 1)) := by
      rw [Real.Gamma_nat_eq_factorial]
    rw [hfac]
    have f1 : |(q : ℝ) - (n + 1)| ≤ (n + 1) / 2 ^ 24 := by
      have := (Rat.cast_le (K := ℝ)).2 e1
      push_cast at this
      exact this
    have f2 : (60 : ℝ) ≤ q := by exact_mod_cast hq1
    have f3 : (64 : ℝ) ≤ n := by exact_mod_cast h1
    have f4 : (n : ℝ) + 1 ≤ 2 ^ 32 := by exact_mod_cast (by omega : n + 1 ≤ 2 ^ 32)
    have f5 : (q : ℝ) ≤ 2 ^ 32 := by exact_mod_cast hq2.le
    have hlog : ∀ x : ℝ, 1 ≤ x → x ≤ 2 ^ 32 → Real.log x ≤ 23 := fun x hx hx2 =>
      (Real.log_le_log (by linarith) hx2).trans log_two_pow_32
    have hg : |Real.log (Real.Gamma q) - Real.log (Real.Gamma ((n : ℝ) + 1))| ≤
        (n + 1) / 2 ^ 24 * 23 := by
      have hb := abs_le.1 f1
      rcases le_total (q : ℝ) (n + 1) with h | h
      · have := log_Gamma_lipschitz (by linarith) h
        rw [abs_sub_comm, abs_of_nonneg this.1]
        refine this.2.trans ?_
        have hl := hlog (n + 1) (by linarith) f4
        have h0 : 0 ≤ Real.log ((n : ℝ) + 1) := Real.log_nonneg (by linarith)
        refine mul_le_mul ?_ hl h0 (by positivity)
        linarith
      · have := log_Gamma_lipschitz (by linarith) h
        rw [abs_of_nonneg this.1]
        refine this.2.trans ?_
        have hl := hlog q (by linarith) f5
        have h0 : 0 ≤ Real.log (q : ℝ) := Real.log_nonneg (by linarith)
        refine mul_le_mul ?_ hl h0 (by positivity)
        linarith
    have hb := abs_le.1 f1
    rw [abs_le] at herr hg ⊢
    norm_num at herr hg hb ⊢
    constructor <;> linarith

/-- A million. -/
example : ∃ r : RR nearest, fastLogFactorial (fun b => ⟨match val b with | .fin q => q | _ => 0⟩)
    id 1000000 = .ok r ∧
    |r.val - Real.log (Nat.factorial 1000000)| ≤ 5 / 10 ^ 5 * ((1000000 : ℕ) + 1) :=
  C69_log_factorial nearest.rounding _ (fun b q h => by simp only [h]) _ _ (by norm_num)
    (by norm_num)

/-- The largest argument wraps around: the code asks the libc for `log Γ(0)`. -/
theorem C69_log_factorial_wrap {F : Type} [FloatOps F] (toF : BitVec 32 → F) (lgammaf : F → F) :
    fastLogFactorial toF lgammaf (2 ^ 32 - 1) = .ok (lgammaf (toF 0)) := by
  unfold fastLogFactorial
  rw [if_neg (by norm_num), show F32.ofNat ((2 ^ 32 - 1 + 1) % 2 ^ 32) = 0 by decide]
  unfold fastLgamma
  rw [if_pos (by decide +kernel)]

end Dist
