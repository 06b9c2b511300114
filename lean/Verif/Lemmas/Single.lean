import Verif.Model.Single
import Verif.Lemmas.IntToFloat
import Verif.Props.Special
import Verif.Props.SpecialAccuracy
import Verif.Props.Tables
import Verif.Props.NuAccuracy

/-! # Single-precision numbers and their bit patterns -/

namespace Dist

namespace nearest

theorem round_le (x : ℝ) : |roundEven (x / 2 ^ quantum x)| ≤ 2 ^ 24 := by
  have hp : (0 : ℝ) < 2 ^ quantum x := by positivity
  have hlt : |x / 2 ^ quantum x| < 2 ^ 24 := by
    rw [abs_div, abs_of_pos hp, div_lt_iff₀ hp]
    have h1 := Int.lt_zpow_succ_log_self (b := 2) (by norm_num) |x|
    push_cast at h1
    calc |x| < 2 ^ (Int.log 2 |x| + 1) := h1
      _ ≤ 2 ^ (quantum x + 24) := zpow_le_zpow_right₀ (by norm_num) (by unfold quantum; omega)
      _ = 2 ^ 24 * 2 ^ quantum x := by rw [zpow_add₀ (by norm_num), mul_comm]; norm_cast
  obtain ⟨h1, h2⟩ := abs_lt.1 hlt
  rw [abs_le]
  constructor
  · refine roundEven.int_le ?_
    push_cast; linarith
  · refine roundEven.le_int ?_
    push_cast; linarith

theorem idem (x : ℝ) : nearest (nearest x) = nearest x :=
  exact_of_le (round_le x) (by unfold quantum; omega)

/-- An integer of at most 24 bits is a single-precision number. -/
theorem int {m : ℤ} (h : |m| ≤ 2 ^ 24) : nearest (m : ℝ) = m := by
  have := exact_of_le h (e := 0) (by norm_num)
  simpa using this

end nearest

namespace F32

/-- Putting a significand and an exponent together. -/
theorem pack {e m : ℕ} (he0 : 1 ≤ e) (he : e ≤ 254) (h1 : 2 ^ 23 ≤ m) (h2 : m < 2 ^ 24) :
    ∃ b, PosNormal b ∧ val b = .fin ((m : ℚ) * 2 ^ e / 2 ^ 150) := by
  obtain ⟨k, rfl⟩ := Nat.exists_eq_add_of_le h1
  set b := BitVec.ofNat 32 (e * 2 ^ 23 + k) with hb
  have hn : b.toNat = e * 2 ^ 23 + k := by
    rw [hb, BitVec.toNat_ofNat]
    norm_num at h2 ⊢
    omega
  have hs : b.msb = false := by
    rw [BitVec.msb_eq_decide, hn]
    norm_num at h2 ⊢
    omega
  have hx : expo b = e := by
    unfold expo; rw [hn]; norm_num at h2 ⊢; omega
  have hm : man b = k := by
    unfold man; rw [hn]; norm_num at h2 ⊢; omega
  have hp : PosNormal b := ⟨hs, by omega, by omega⟩
  exact ⟨b, hp, by rw [val_posNormal hp, hx, hm]⟩

/-- Among the finite patterns the value decides the class. -/
theorem posNormal_of_val {b : BitVec 32} {q : ℚ} (h : val b = .fin q) (hq : 1 / 2 ^ 126 ≤ q) :
    PosNormal b := by
  have h255 : expo b ≠ 255 := by
    intro he
    unfold val at h
    rw [if_pos he] at h
    split_ifs at h
  have hlt := expo_lt b
  unfold val at h
  rw [if_neg h255] at h
  injection h with h
  have hm0 : 0 ≤ magnitude b := by
    unfold magnitude
    split_ifs <;> positivity
  have hq0 : 0 < q := lt_of_lt_of_le (by positivity) hq
  have hs : b.msb = false := by
    by_contra hs
    rw [Bool.not_eq_false] at hs
    rw [if_pos hs] at h
    linarith
  refine ⟨hs, ?_, by omega⟩
  by_contra he
  have he : expo b = 0 := by omega
  rw [hs] at h
  simp only [Bool.false_eq_true, if_false] at h
  unfold magnitude at h
  rw [if_pos he] at h
  have hm := man_lt b
  have hm' : (man b : ℚ) < 2 ^ 23 := by exact_mod_cast hm
  have : q < 2 ^ 23 / 2 ^ 149 := by rw [← h]; gcongr
  have e : (2 : ℚ) ^ 23 / 2 ^ 149 = 1 / 2 ^ 126 := by norm_num
  linarith

end F32

/-- A normal single-precision number. -/
structure IsNormal (x : ℝ) : Prop where
  single : nearest x = x
  lower : 1 / 2 ^ 126 ≤ x
  upper : x < 2 ^ 128

namespace IsNormal

theorem pos {x : ℝ} (h : IsNormal x) : 0 < x := lt_of_lt_of_le (by positivity) h.lower

theorem pattern {x : ℝ} (h : IsNormal x) :
    ∃ b, ∃ q : ℚ, F32.val b = .fin q ∧ (q : ℝ) = x := by
  have hx := h.pos
  set L := Int.log 2 |x| with hL
  have habs : |x| = x := abs_of_pos hx
  have l1 := Int.zpow_log_le_self (b := 2) (r := |x|) (by norm_num) (abs_pos.mpr hx.ne')
  have l2 := Int.lt_zpow_succ_log_self (b := 2) (by norm_num) |x|
  push_cast at l1 l2
  rw [← hL, habs] at l1 l2
  have hL1 : -126 ≤ L := by
    by_contra hc
    have : (2 : ℝ) ^ (L + 1) ≤ 2 ^ (-126 : ℤ) := zpow_le_zpow_right₀ (by norm_num) (by omega)
    have e : (2 : ℝ) ^ (-126 : ℤ) = 1 / 2 ^ 126 := by rw [zpow_neg]; norm_num
    exact absurd (l2.trans_le (this.trans (e.le.trans h.lower))) (lt_irrefl _)
  have hL2 : L ≤ 127 := by
    by_contra hc
    have : (2 : ℝ) ^ (128 : ℤ) ≤ 2 ^ L := zpow_le_zpow_right₀ (by norm_num) (by omega)
    have e : (2 : ℝ) ^ (128 : ℤ) = 2 ^ 128 := by norm_cast
    exact absurd (h.upper.trans_le (e.ge.trans (this.trans l1))) (lt_irrefl _)
  have hq : quantum x = L - 23 := by unfold quantum; rw [← hL]; omega
  have hs := h.single
  unfold nearest at hs
  rw [hq] at hs
  set m := roundEven (x / 2 ^ (L - 23)) with hm
  have hp : (0 : ℝ) < 2 ^ (L - 23) := by positivity
  have e24 : (2 : ℝ) ^ (L + 1) = 2 ^ 24 * 2 ^ (L - 23) := by
    rw [show L + 1 = 24 + (L - 23) by ring, zpow_add₀ (by norm_num)]; norm_cast
  have e23 : (2 : ℝ) ^ L = 2 ^ 23 * 2 ^ (L - 23) := by
    conv_lhs => rw [show L = 23 + (L - 23) by ring, zpow_add₀ (by norm_num)]
    norm_cast
  have m1 : (2 : ℝ) ^ 23 ≤ m := by
    rw [e23, ← hs] at l1
    exact le_of_mul_le_mul_right l1 hp
  have m2 : (m : ℝ) < 2 ^ 24 := by
    rw [e24, ← hs] at l2
    exact lt_of_mul_lt_mul_right l2 hp.le
  have m1' : 2 ^ 23 ≤ m := by exact_mod_cast m1
  have m2' : m < 2 ^ 24 := by exact_mod_cast m2
  obtain ⟨b, -, hb⟩ := F32.pack (e := (L + 127).toNat) (m := m.toNat) (by omega) (by omega)
    (by norm_num at m1' ⊢; omega) (by norm_num at m2' ⊢; omega)
  refine ⟨b, _, hb, ?_⟩
  push_cast
  have hm0 : ((m.toNat : ℕ) : ℝ) = (m : ℝ) := by
    have : ((m.toNat : ℕ) : ℤ) = m := Int.toNat_of_nonneg (by norm_num at m1' ⊢; omega)
    exact_mod_cast congrArg (Int.cast (R := ℝ)) this
  rw [hm0, ← zpow_natCast, Int.toNat_of_nonneg (by omega)]
  rw [← hs]
  rw [show L - 23 = (L + 127) - 150 by ring, zpow_sub₀ (by norm_num) (L + 127) 150]
  norm_num
  ring

theorem bits_spec {x : ℝ} (h : IsNormal x) :
    ∃ q : ℚ, F32.PosNormal (Single.bits x) ∧ F32.val (Single.bits x) = .fin q ∧ (q : ℝ) = x := by
  have hp := h.pattern
  have hb : Single.bits x = hp.choose := by
    unfold Single.bits; rw [dif_pos hp]
  obtain ⟨q, h1, h2⟩ := hp.choose_spec
  rw [← hb] at h1
  refine ⟨q, F32.posNormal_of_val h1 ?_, h1, h2⟩
  have := h.lower
  rw [← h2] at this
  have h3 : (((1 / 2 ^ 126 : ℚ)) : ℝ) ≤ q := by push_cast; exact this
  exact_mod_cast h3

end IsNormal

namespace Single

/-- `fast_log` on a normal number. -/
theorem logf_near {x : ℝ} (h : IsNormal x) : |logf x - Real.log x| < 1 / 2 ^ 13 := by
  obtain ⟨q, h1, h2, h3⟩ := h.bits_spec
  obtain ⟨r, hr, ha⟩ := C47_accuracy nearest.rounding _ q h1 h2
  unfold logf
  rw [hr, ← h3]
  exact ha

theorem ofBits_of {b : BitVec 32} {q : ℚ} (h : F32.val b = .fin q) : (ofBits b).val = q := by
  unfold ofBits; rw [h]

theorem decimal_wide (t : Int × Int) : (Special.decimal t : Wide) = ⟨nearest (LG.dec t : ℚ)⟩ := by
  unfold Special.decimal LG.dec
  split_ifs <;> · show Wide.mk _ = _; congr 2; push_cast; simp

/-- The polynomial of `fast_lgamma`: coefficients rounded, the sum converted to single precision. -/
theorem poly_error (a0 a1 a2 a3 a4 a5 : ℚ) {y : ℝ} (hy : 1 ≤ y) :
    |nearest (nearest a0 + nearest a1 * y + nearest a2 * (y * y) + nearest a3 * (y * y * y) +
        nearest a4 * (y * y * y * y) + nearest a5 * (y * y * y * y * y)) -
          Enc.peval [a0, a1, a2, a3, a4, a5] y| ≤
      ((1 + 2⁻¹ ^ 23) ^ 2 - 1) * ((coefBound a0 : ℝ) + coefBound a1 * y + coefBound a2 * y ^ 2 +
        coefBound a3 * y ^ 3 + coefBound a4 * y ^ 4 + coefBound a5 * y ^ 5) := by
  have hr := nearest.rounding
  have hmin : ∀ (a : ℚ) (k : ℕ), (2⁻¹ : ℝ) ^ 126 ≤ (coefBound a : ℝ) * y ^ k := fun a k => by
    have h1 : (1 : ℝ) ≤ y ^ k := one_le_pow₀ hy
    have h2 := coefBound_min a
    have h3 : (0 : ℝ) ≤ (coefBound a : ℚ) := le_trans (by positivity) h2
    nlinarith
  have pos : ∀ (a : ℚ) (k : ℕ), 0 ≤ (coefBound a : ℝ) * y ^ k := fun a k =>
    le_trans (by positivity) (hmin a k)
  have hk : ∀ k : ℕ, RelErr 0 (y ^ k) (y ^ k) (y ^ k) := fun k => by
    have := RelErr.refl (y ^ k)
    rwa [abs_of_nonneg (by positivity)] at this
  have t1 := (RelErr.coef hr a1).mul (hk 1)
  have t2 := (RelErr.coef hr a2).mul (hk 2)
  have t3 := (RelErr.coef hr a3).mul (hk 3)
  have t4 := (RelErr.coef hr a4).mul (hk 4)
  have t5 := (RelErr.coef hr a5).mul (hk 5)
  have c0 := coefBound_min a0
  have s5 := ((((((RelErr.coef hr a0).add t1).add t2).add t3).add t4).add t5).rnd hr
    (by linarith [pos a1 1, pos a2 2, pos a3 3, pos a4 4, pos a5 5])
  have := s5.err
  rw [pow_one] at this
  refine le_trans (le_of_eq ?_) this
  congr 2
  · congr 1; ring
  · simp only [Enc.peval_cons, Enc.peval_nil]; ring

/-- `log Γ` at two near arguments. -/
theorem log_Gamma_near {x y d : ℝ} (hx : 2 ≤ x) (hy : 2 ≤ y) (hx2 : x ≤ 2 ^ 32) (hy2 : y ≤ 2 ^ 32)
    (h : |y - x| ≤ d) : |Real.log (Real.Gamma y) - Real.log (Real.Gamma x)| ≤ d * 23 := by
  have hlog : ∀ x : ℝ, 1 ≤ x → x ≤ 2 ^ 32 → Real.log x ≤ 23 := fun x hx hx2 =>
    (Real.log_le_log (by linarith) hx2).trans log_two_pow_32
  have hb := abs_le.1 h
  have hd : 0 ≤ d := (abs_nonneg _).trans h
  rcases le_total y x with h | h
  · have := log_Gamma_lipschitz hy h
    rw [abs_sub_comm, abs_of_nonneg this.1]
    refine this.2.trans ?_
    have hl := hlog x (by linarith) hx2
    have h0 : 0 ≤ Real.log x := Real.log_nonneg (by linarith)
    exact mul_le_mul (by linarith) hl h0 hd
  · have := log_Gamma_lipschitz hx h
    rw [abs_of_nonneg this.1]
    refine this.2.trans ?_
    have hl := hlog y (by linarith) hy2
    have h0 : 0 ≤ Real.log y := Real.log_nonneg (by linarith)
    exact mul_le_mul (by linarith) hl h0 hd

/-- `fast_lgamma` from `2.5` on, by bit pattern. -/
theorem lgamma_pattern {lib : Libm} {b : BitVec 32} {q : ℚ} (hq : F32.val b = .fin q)
    (h1' : 5 / 2 ≤ q) (h2' : q < 2 ^ 32) :
    |narrow (Special.fastLgamma wide (fun y => ⟨lib.lgammaf y.val⟩) b) - Real.log (Real.Gamma q)| ≤
      2 / 10 ^ 5 * q := by
  have h1 : 5 / 2 ≤ (q : ℝ) := by
    have : ((5 / 2 : ℚ) : ℝ) ≤ q := by exact_mod_cast h1'
    push_cast at this; exact this
  obtain ⟨c, t0, t1, t2, t3, t4, t5, hc1, hc2, l1, l2, hco, hrun⟩ :=
    fastLgamma_run wide (fun y => ⟨lib.lgammaf y.val⟩) _ q hq h1' h2'
  have hw : (wide b).val = q := ofBits_of hq
  have hv : narrow (Special.fastLgamma wide (fun y => ⟨lib.lgammaf y.val⟩) b) =
      nearest (nearest (LG.dec t0 : ℚ) + nearest (LG.dec t1 : ℚ) * q +
      nearest (LG.dec t2 : ℚ) * (q * q) + nearest (LG.dec t3 : ℚ) * (q * q * q) +
      nearest (LG.dec t4 : ℚ) * (q * q * q * q) + nearest (LG.dec t5 : ℚ) * (q * q * q * q * q)) := by
    rw [hrun]
    simp only [decimal_wide, ← hw]
    rfl
  have e1 := poly_error (LG.dec t0) (LG.dec t1) (LG.dec t2) (LG.dec t3) (LG.dec t4) (LG.dec t5)
    (y := (q : ℝ)) (by linarith)
  have hs := coeff_sum_le hc1 hc2 hco l1 l2 h1
  have e2 := peval_accurate hc1 hc2 l1 l2 h1'
  rw [hco] at e2
  have e3 := e1.trans (mul_le_mul_of_nonneg_left hs (by norm_num))
  rw [hv]
  have e4 : ((1 + (2⁻¹ : ℝ) ^ 23) ^ 2 - 1) * (30 * q) ≤ 1 / 10 ^ 5 * q := by norm_num; linarith
  rw [abs_le] at e2 e3 ⊢
  constructor <;> linarith

/-- `fast_lgamma` from `2.5` on. -/
theorem lgammaf_near {lib : Libm} {x : ℝ} (h : IsNormal x) (h1 : 5 / 2 ≤ x) (h2 : x < 2 ^ 32) :
    |lgammaf lib x - Real.log (Real.Gamma x)| ≤ 2 / 10 ^ 5 * x := by
  obtain ⟨q, -, hq, h3⟩ := h.bits_spec
  rw [← h3] at h1 h2
  have h1' : 5 / 2 ≤ q := by
    have : (((5 / 2 : ℚ)) : ℝ) ≤ q := by push_cast; exact h1
    exact_mod_cast this
  have := lgamma_pattern (lib := lib) hq h1' (by exact_mod_cast h2)
  unfold lgammaf
  rw [← h3] at this ⊢
  exact this

/-- `fast_lgamma` returns a single. -/
theorem lgammaf_single (lib : Libm) (x : ℝ) : nearest (lgammaf lib x) = lgammaf lib x := by
  unfold lgammaf narrow
  split
  · exact nearest.idem _
  · simp [nearest]

/-- `fast_log_factorial(0)`. -/
theorem logFactorialf_zero (lib : Libm) : logFactorialf lib 0 = 0 := by
  unfold logFactorialf Special.fastLogFactorial
  rw [if_pos (by norm_num), getAt_of (show 0 < Special.logFactorialTable.length by
    rw [Special.length_logFactorialTable]; norm_num), Res.ok_bind]
  show nearest (Special.decimal Special.logFactorialTable[0] : Wide).val = 0
  rw [decimal_wide, show LG.dec Special.logFactorialTable[0] = 0 by decide +kernel]
  simp [nearest]

/-- `fast_log_factorial`. -/
theorem logFactorialf_near (lib : Libm) {n : ℕ} (h2 : n + 129 < 2 ^ 32) :
    |logFactorialf lib n - Real.log n.factorial| ≤ 4 / 10 ^ 5 * (n + 1) := by
  rcases lt_or_ge n 64 with hn | h1
  · have h := logFactorialTable_checked
    rw [List.all_eq_true] at h
    have h := h n (List.mem_range.mpr hn)
    have hl : n < Special.logFactorialTable.length := by
      rw [show Special.logFactorialTable.length = 64 from rfl]; exact hn
    rw [List.getElem?_eq_getElem hl] at h
    simp only [Bool.and_eq_true, decide_eq_true_eq] at h
    obtain ⟨h1, h2⟩ := h
    have h3 := logCheck_sound h2
    have hd : (LG.dec Special.logFactorialTable[n] : ℝ) =
        (((Special.logFactorialTable[n].1 : ℚ) / 10 ^ (-Special.logFactorialTable[n].2).toNat : ℚ) : ℝ) := by
      unfold LG.dec; rw [if_neg (by omega)]
    rw [← hd] at h3
    have hv : logFactorialf lib n = nearest (LG.dec Special.logFactorialTable[n] : ℚ) := by
      unfold logFactorialf Special.fastLogFactorial
      rw [if_pos hn, getAt_of hl, Res.ok_bind]
      show nearest (Special.decimal Special.logFactorialTable[n] : Wide).val = _
      rw [decimal_wide]
      exact nearest.idem _
    rw [hv]
    have hlog0 : 0 ≤ Real.log n.factorial := Real.log_natCast_nonneg _
    have hlog : Real.log n.factorial ≤ 64 * n := by
      have f1 : (n.factorial : ℝ) ≤ (n : ℝ) ^ n := by exact_mod_cast Nat.factorial_le_pow n
      have f2 : (0 : ℝ) < n.factorial := by exact_mod_cast n.factorial_pos
      have f3 := Real.log_le_log f2 f1
      rw [Real.log_pow] at f3
      have f4 : Real.log (n : ℝ) ≤ 64 := by
        have := Real.log_le_self (x := (n : ℝ)) (by positivity)
        have h64 : (n : ℝ) < 64 := by exact_mod_cast hn
        linarith
      have : (n : ℝ) * Real.log n ≤ n * 64 := by gcongr
      linarith
    have he := nearest.error (LG.dec Special.logFactorialTable[n] : ℚ)
    push_cast at h3
    rw [abs_sub_comm] at h3
    have habs : |((LG.dec Special.logFactorialTable[n] : ℚ) : ℝ)| ≤ 64 * n + 1 / 10 ^ 13 := by
      have := abs_sub_abs_le_abs_sub ((LG.dec Special.logFactorialTable[n] : ℚ) : ℝ) (Real.log n.factorial)
      rw [abs_of_nonneg hlog0] at this
      linarith
    have hn0 : (0 : ℝ) ≤ n := by positivity
    have := abs_add_le (nearest (LG.dec Special.logFactorialTable[n] : ℚ) -
      ((LG.dec Special.logFactorialTable[n] : ℚ) : ℝ))
      (((LG.dec Special.logFactorialTable[n] : ℚ) : ℝ) - Real.log n.factorial)
    rw [sub_add_sub_cancel] at this
    refine this.trans ?_
    have h24 : (2⁻¹ : ℝ) ^ 24 * |((LG.dec Special.logFactorialTable[n] : ℚ) : ℝ)| ≤
        2⁻¹ ^ 24 * (64 * n + 1 / 10 ^ 13) := by gcongr
    norm_num at he h3 h24 ⊢
    linarith
  · obtain ⟨q, hq, e1, e2⟩ := F32.val_ofNat (n := n + 1) (by omega) (by omega)
    have h1' : (64 : ℚ) ≤ n := by exact_mod_cast h1
    have h2' : (n : ℚ) + 129 < 2 ^ 32 := by exact_mod_cast h2
    push_cast at e1 e2
    have hq1 : 60 ≤ q := by
      have : (n : ℚ) + 1 ≤ 2 ^ 32 := by linarith
      have : ((n : ℚ) + 1) / 2 ^ 24 ≤ ((n : ℚ) + 1) / 20 := by gcongr; norm_num
      have := (abs_le.1 e1).1
      linarith
    have hq2 : q < 2 ^ 32 := by have := (abs_le.1 e2).2; linarith
    have herr := lgamma_pattern (lib := lib) hq (by linarith) hq2
    have hfac : Real.log n.factorial = Real.log (Real.Gamma ((n : ℝ) + 1)) := by
      rw [Real.Gamma_nat_eq_factorial]
    have hv : logFactorialf lib n =
        narrow (Special.fastLgamma wide (fun y => ⟨lib.lgammaf y.val⟩) (F32.ofNat (n + 1))) := by
      unfold logFactorialf Special.fastLogFactorial
      rw [if_neg (by omega), Nat.mod_eq_of_lt (by omega)]
    rw [hfac, hv]
    have f1 : |(q : ℝ) - (n + 1)| ≤ (n + 1) / 2 ^ 24 := by
      have := (Rat.cast_le (K := ℝ)).2 e1
      push_cast at this
      exact this
    have f2 : (60 : ℝ) ≤ q := by exact_mod_cast hq1
    have f3 : (64 : ℝ) ≤ n := by exact_mod_cast h1
    have f4 : (n : ℝ) + 1 ≤ 2 ^ 32 := by exact_mod_cast (by omega : n + 1 ≤ 2 ^ 32)
    have f5 : (q : ℝ) ≤ 2 ^ 32 := by exact_mod_cast hq2.le
    have hg := log_Gamma_near (by linarith : (2 : ℝ) ≤ n + 1) (by linarith) f4 f5 f1
    have hb := abs_le.1 f1
    rw [abs_le] at herr hg ⊢
    norm_num at herr hg hb ⊢
    constructor <;> linarith

/-- `fast_lgamma_nu` from `1/16` on. -/
theorem lgammaNuf_near {lib : Libm} {x : ℝ} (h : IsNormal x) (h1 : 1 / 16 ≤ x) (h2 : x < 2 ^ 32) :
    |lgammaNuf lib x - (Real.log (Real.Gamma (x / 2 + 1 / 2)) - Real.log (Real.Gamma (x / 2)))| ≤
      161 / 10 ^ 4 := by
  obtain ⟨q, -, hq, h3⟩ := h.bits_spec
  rw [← h3] at h1 h2
  obtain ⟨r, hr, ha⟩ := C70_nu nearest.rounding ofBits
    (fun y => ⟨lib.lgammaf y.val⟩) _ q hq (ofBits_of hq)
    (by have : (((1 / 16 : ℚ)) : ℝ) ≤ q := by push_cast; exact h1
        exact_mod_cast this) (by exact_mod_cast h2)
  unfold lgammaNuf
  rw [hr, ← h3]
  exact ha

end Single

end Dist
