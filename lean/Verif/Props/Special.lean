import Verif.Lemmas.FastLog
import Verif.Lemmas.Special
import Verif.Model.Clustering

/-!
# C47, C48, C51: table-driven special functions

The argument of a function is any of the 2^32 bit patterns of a `float`; `F32.val` is the
number it stands for.
-/

namespace Dist

open Special F32 FloatOps FloatNotation

section
variable {F : Type} [FloatOps F]

/-! ## fast_log -/

/-- **C47, memory safety.** For every bit pattern (negative numbers, subnormals, infinities
and NaNs included) `fast_log` returns a value: the table index is in range.  Bit-for-bit,
whatever the library `log2`. -/
theorem C47_index (log2 : F → F) (b : BitVec 32) : ∃ r, fastLog log2 b = .ok r :=
  ⟨_, fastLog_eq log2 b⟩

/-- **C47, special inputs.** The sign is ignored, bit for bit: a negative number has the
"logarithm" of its absolute value. -/
theorem C47_sign_blind (log2 : F → F) (b b' : BitVec 32) (he : expo b = expo b')
    (hm : man b = man b') : fastLog log2 b = fastLog log2 b' := by
  rw [fastLog_eq, fastLog_eq, he, hm]

/-- `-1.0f` and `1.0f`. -/
example (log2 : F → F) : fastLog log2 0xBF800000#32 = fastLog log2 0x3F800000#32 :=
  C47_sign_blind log2 _ _ (by decide) (by decide)

/-- A table for some other precision is safe as well, for every size up to 23 bits. -/
theorem C47_index_any_size (log2 : F → F) (n : Nat) (hn : n ≤ 23) (b : BitVec 32) :
    ∃ r, (FastLog.new log2 n).log b = .ok r := by
  unfold FastLog.log FastLog.new
  simp only
  rw [if_neg (by omega), expField, manField]
  have h : man b / 2 ^ (23 - n) < ((List.range (2 ^ n)).map fun i =>
      log2 (FastLog.node n i)).length := by
    rw [List.length_map, List.length_range]
    rw [Nat.div_lt_iff_lt_mul (by positivity), ← pow_add, show n + (23 - n) = 23 by omega]
    exact man_lt b
  rw [getAt_of h, Res.ok_bind, Res.pure_eq]
  exact ⟨_, rfl⟩
end

/-- **C47, accuracy.** For every positive normal float `q`, every rounding with the error of
single precision and with `log2` correctly rounded, `fast_log(q)` differs from the natural
logarithm of `q` by less than `2^-13`. -/
theorem C47_accuracy {rnd : ℝ → ℝ} (hr : Rounding rnd) (b : BitVec 32) (q : ℚ)
    (hb : PosNormal b) (hq : val b = .fin q) :
    ∃ r : RR rnd, fastLog (log2R rnd) b = .ok r ∧ |r.val - Real.log (q : ℝ)| < 1 / 2 ^ 13 := by
  refine ⟨_, fastLog_val hr b, ?_⟩
  simp only
  rw [val_posNormal hb] at hq
  injection hq with hq
  obtain ⟨-, he1, he2⟩ := hb
  have hm := man_lt b
  set i := man b / 2 ^ 9 with hi
  have hi14 : i < 2 ^ 14 := by norm_num at hm ⊢; omega
  set L := Real.logb 2 (1 + (i : ℝ) / 2 ^ 14) with hL
  have hL0 : 0 ≤ L := logb_node_nonneg i
  have hL1 : L ≤ 1 := logb_node_le hi14
  have hlog2 : 0 < Real.log 2 := Real.log_pos (by norm_num)
  have hlog2' : Real.log 2 < 0.7 := by have := Real.log_two_lt_d9; norm_num at this ⊢; linarith
  -- the true logarithm
  have htrue : Real.log (q : ℝ) = ((expo b : ℝ) - 127) * Real.log 2
      + Real.log (1 + (man b : ℝ) / 2 ^ 23) := by
    have h1 : (q : ℝ) = 2 ^ ((expo b : ℤ) - ((127 : ℕ) : ℤ)) * (1 + (man b : ℝ) / 2 ^ 23) := by
      rw [← hq, zpow_nat_sub]
      push_cast
      field_simp
      ring
    rw [h1, Real.log_mul (by positivity) (by positivity), Real.log_zpow]
    push_cast; ring
  have hnode : L * Real.log 2 = Real.log (1 + (i : ℝ) / 2 ^ 14) := by
    rw [hL, Real.logb, div_mul_cancel₀ _ hlog2.ne']
  have hid : (i : ℝ) * 2 ^ 9 ≤ man b := by
    have := Nat.div_mul_le_self (man b) (2 ^ 9)
    exact_mod_cast this
  have hid' : (man b : ℝ) < ((i : ℝ) + 1) * 2 ^ 9 := by
    have : man b < (i + 1) * 2 ^ 9 := by norm_num; omega
    exact_mod_cast this
  have htab : 0 ≤ Real.log (1 + (man b : ℝ) / 2 ^ 23) - L * Real.log 2 ∧
      Real.log (1 + (man b : ℝ) / 2 ^ 23) - L * Real.log 2 ≤ 1 / 2 ^ 14 := by
    rw [hnode]
    have hpos : (0 : ℝ) < 1 + (i : ℝ) / 2 ^ 14 := by positivity
    have hpos' : (0 : ℝ) < 1 + (man b : ℝ) / 2 ^ 23 := by positivity
    constructor
    · rw [sub_nonneg]
      apply Real.log_le_log hpos
      have : (i : ℝ) / 2 ^ 14 ≤ (man b : ℝ) / 2 ^ 23 := by
        rw [div_le_div_iff₀ (by positivity) (by positivity)]; nlinarith
      linarith
    · rw [← Real.log_div hpos'.ne' hpos.ne']
      refine (Real.log_le_sub_one_of_pos (by positivity)).trans ?_
      rw [sub_le_iff_le_add, div_le_iff₀ hpos]
      have h1 : (man b : ℝ) / 2 ^ 23 ≤ ((i : ℝ) + 1) / 2 ^ 14 := by
        rw [div_le_div_iff₀ (by positivity) (by positivity)]; nlinarith
      have h2 : (0 : ℝ) ≤ (i : ℝ) / 2 ^ 14 := by positivity
      have h3 : ((i : ℝ) + 1) / 2 ^ 14 = (i : ℝ) / 2 ^ 14 + 1 / 2 ^ 14 := by ring
      nlinarith
  -- the roundings
  set e : ℝ := (expo b : ℝ) - 127 with he
  have heabs : |e| ≤ 127 := by
    rw [abs_le, he]
    have h1 : (1 : ℝ) ≤ expo b := by exact_mod_cast he1
    have h2 : (expo b : ℝ) ≤ 254 := by exact_mod_cast he2
    constructor <;> linarith
  have p24 : ((2⁻¹ : ℝ) ^ 24) = 1 / 16777216 := by norm_num
  have p150 : ((2⁻¹ : ℝ) ^ 150) ≤ 1 / 10 ^ 20 := by norm_num
  have p150' : (0 : ℝ) ≤ ((2⁻¹ : ℝ) ^ 150) := by positivity
  set t := rnd L with ht
  have ht1 : |t - L| ≤ 1 / 16777216 + 1 / 10 ^ 20 := by
    have := hr.error L
    rw [abs_of_nonneg hL0, p24] at this
    linarith
  have htabs : |e + t| ≤ 129 := by
    rw [abs_le] at ht1 heabs ⊢
    constructor <;> norm_num at ht1 ⊢ <;> linarith
  set s := rnd (e + t) with hs
  have hs1 : |s - (e + t)| ≤ 129 / 16777216 + 1 / 10 ^ 20 := by
    have := hr.error (e + t)
    rw [p24] at this
    linarith
  have hsabs : |s| ≤ 130 := by
    rw [abs_le] at hs1 htabs ⊢
    constructor <;> norm_num at hs1 ⊢ <;> linarith
  have hc1 : |ln2 rnd - Real.log 2| ≤ 0.7 / 16777216 + 2 / 10 ^ 9 := by
    have h1 := hr.error (69314718055994529 / 10 ^ 17)
    have h2 := log2_close
    rw [p24, abs_of_nonneg (a := (69314718055994529 / 10 ^ 17 : ℝ)) (by norm_num)] at h1
    unfold ln2
    rw [abs_le] at h1 h2 ⊢
    constructor <;> norm_num at h1 h2 p150 ⊢ <;> linarith
  have hcabs : |ln2 rnd| ≤ 0.71 := by
    rw [abs_le] at hc1 ⊢
    constructor <;> norm_num at hc1 hlog2' ⊢ <;> linarith
  have hprod : |s * ln2 rnd| ≤ 130 * 0.71 := by
    rw [abs_mul]
    exact mul_le_mul hsabs hcabs (abs_nonneg _) (by norm_num)
  have hr1 : |rnd (s * ln2 rnd) - s * ln2 rnd| ≤ 130 * 0.71 / 16777216 + 1 / 10 ^ 20 := by
    have := hr.error (s * ln2 rnd)
    rw [p24] at this
    linarith
  have h2 : |s * (ln2 rnd - Real.log 2)| ≤ 130 * (0.7 / 16777216 + 2 / 10 ^ 9) := by
    rw [abs_mul]
    exact mul_le_mul hsabs hc1 (abs_nonneg _) (by norm_num)
  have h3 : |(s - (e + L)) * Real.log 2| ≤ (130 / 16777216 + 2 / 10 ^ 20) * 0.7 := by
    rw [abs_mul, abs_of_pos hlog2]
    refine mul_le_mul ?_ hlog2'.le hlog2.le (by norm_num)
    rw [abs_le] at hs1 ht1 ⊢
    constructor <;> linarith
  rw [htrue]
  have hfinal : rnd (s * ln2 rnd) - (e * Real.log 2 + Real.log (1 + (man b : ℝ) / 2 ^ 23))
      = (rnd (s * ln2 rnd) - s * ln2 rnd) + s * (ln2 rnd - Real.log 2)
        + (s - (e + L)) * Real.log 2
        - (Real.log (1 + (man b : ℝ) / 2 ^ 23) - L * Real.log 2) := by ring
  rw [hfinal]
  rw [abs_le] at hr1 h2 h3
  rw [abs_lt]
  obtain ⟨a1, a2⟩ := hr1
  obtain ⟨b1, b2⟩ := h2
  obtain ⟨c1, c2⟩ := h3
  obtain ⟨d1, d2⟩ := htab
  constructor <;> norm_num at * <;> linarith

/-- Rounding to nearest and the number 3 (bit pattern `0x40400000`). -/
example : ∃ r : RR nearest, fastLog (log2R nearest) 0x40400000#32 = .ok r ∧
    |r.val - Real.log 3| < 1 / 2 ^ 13 := by
  have := C47_accuracy nearest.rounding 0x40400000#32 3 (by decide) (by
    rw [val_posNormal (by decide)]
    rw [show man 0x40400000#32 = 4194304 by decide, show expo 0x40400000#32 = 128 by decide]
    norm_num)
  simpa using this

/-- **C47, monotonicity.** In rounded arithmetic `fast_log` is monotone over all non-negative
finite floats, zero and subnormal numbers included, and across every table and exponent
boundary. -/
theorem C47_monotone {rnd : ℝ → ℝ} (hr : Rounding rnd) (b b' : BitVec 32) (q q' : ℚ)
    (hs : b.msb = false) (hs' : b'.msb = false) (hq : val b = .fin q) (hq' : val b' = .fin q')
    (h0 : 0 ≤ q) (h : q ≤ q') :
    ∃ r r' : RR rnd, fastLog (log2R rnd) b = .ok r ∧ fastLog (log2R rnd) b' = .ok r' ∧
      r.val ≤ r'.val := by
  refine ⟨_, _, fastLog_val hr b, fastLog_val hr b', ?_⟩
  simp only
  apply hr.mono
  refine mul_le_mul_of_nonneg_right ?_ (ln2_pos hr)
  apply hr.mono
  have hm := man_lt b
  have hm' := man_lt b'
  rcases fields_mono hq hq' h0 hs hs' h with hlt | ⟨heq, hle⟩
  · have h1 : rnd (Real.logb 2 (1 + ((man b / 2 ^ 9 : ℕ) : ℝ) / 2 ^ 14)) ≤ 1 := by
      have hone : rnd 1 = 1 := by simpa using rnd_int hr (m := 1) (by norm_num)
      calc _ ≤ rnd 1 := hr.mono (logb_node_le (by norm_num at hm ⊢; omega))
        _ = 1 := hone
    have h2 : 0 ≤ rnd (Real.logb 2 (1 + ((man b' / 2 ^ 9 : ℕ) : ℝ) / 2 ^ 14)) := by
      have hz : rnd 0 = 0 := by simpa using rnd_int hr (m := 0) (by norm_num)
      rw [← hz]
      exact hr.mono (logb_node_nonneg _)
    have h3 : (expo b : ℝ) + 1 ≤ expo b' := by exact_mod_cast hlt
    linarith
  · rw [heq]
    have h1 : ((man b / 2 ^ 9 : ℕ) : ℝ) ≤ ((man b' / 2 ^ 9 : ℕ) : ℝ) := by
      exact_mod_cast Nat.div_le_div_right hle
    have : Real.logb 2 (1 + ((man b / 2 ^ 9 : ℕ) : ℝ) / 2 ^ 14) ≤
        Real.logb 2 (1 + ((man b' / 2 ^ 9 : ℕ) : ℝ) / 2 ^ 14) := by
      apply Real.logb_le_logb_of_le (by norm_num) (by positivity)
      gcongr
    have := hr.mono this
    linarith

/-- The smallest subnormal number (pattern 1) and 1.0f. -/
example : ∃ r r' : RR nearest, fastLog (log2R nearest) 1#32 = .ok r ∧
    fastLog (log2R nearest) 0x3F800000#32 = .ok r' ∧ r.val ≤ r'.val :=
  C47_monotone nearest.rounding _ _ (1 / 2 ^ 149) 1 (by decide) (by decide)
    (by
      have h1 : expo 1#32 = 0 := by decide
      have h2 : man 1#32 = 1 := by decide
      have h3 : (1#32).msb = false := by decide
      simp [val, magnitude, h1, h2, h3])
    (by
      rw [val_posNormal (by decide)]
      rw [show man 0x3F800000#32 = 0 by decide, show expo 0x3F800000#32 = 127 by decide]
      norm_num)
    (by positivity) (by norm_num)

/-- **C47, powers of two.** At a pattern with zero fraction the table contributes exactly 0:
the result is the exponent times the float constant for `log 2`, rounded once. -/
theorem C47_pow2 {rnd : ℝ → ℝ} (hr : Rounding rnd) (b : BitVec 32) (hm : man b = 0) :
    ∃ r : RR rnd, fastLog (log2R rnd) b = .ok r ∧
      r.val = rnd (((expo b : ℝ) - 127) * rnd (69314718055994529 / 10 ^ 17)) := by
  refine ⟨_, fastLog_val hr b, ?_⟩
  have he := expo_lt b
  have hz : rnd 0 = 0 := by simpa using rnd_int hr (m := 0) (by norm_num)
  have hi : rnd ((expo b : ℝ) - 127) = (expo b : ℝ) - 127 := by
    have := rnd_int hr (m := (expo b : ℤ) - 127) (by rw [abs_le]; omega)
    push_cast at this
    exact this
  simp [hm, hz, hi, ln2]

/-- `fast_log(1) = 0` exactly; `fast_log(0)` and `fast_log(-0)` are the finite number
`-127 log 2`, and `fast_log(inf)` is the finite number `128 log 2`. -/
theorem C47_special {rnd : ℝ → ℝ} (hr : Rounding rnd) :
    fastLog (log2R rnd) 0x3F800000#32 = .ok ⟨0⟩ ∧
    fastLog (log2R rnd) 0#32 = .ok ⟨rnd (-127 * rnd (69314718055994529 / 10 ^ 17))⟩ ∧
    fastLog (log2R rnd) 0x80000000#32 = .ok ⟨rnd (-127 * rnd (69314718055994529 / 10 ^ 17))⟩ ∧
    fastLog (log2R rnd) 0x7F800000#32 = .ok ⟨rnd (128 * rnd (69314718055994529 / 10 ^ 17))⟩ := by
  have hz : rnd 0 = 0 := by simpa using rnd_int hr (m := 0) (by norm_num)
  have key : ∀ (b : BitVec 32) (e : ℝ), man b = 0 → (expo b : ℝ) - 127 = e →
      fastLog (log2R rnd) b = .ok ⟨rnd (e * rnd (69314718055994529 / 10 ^ 17))⟩ := by
    intro b e hm he
    obtain ⟨⟨r⟩, h1, h2⟩ := C47_pow2 hr b hm
    simp only at h2
    rw [h1, h2, he]
  refine ⟨?_, key _ _ (by decide) ?_, key _ _ (by decide) ?_, key _ _ (by decide) ?_⟩
  · rw [key _ 0 (by decide) (by rw [show expo 0x3F800000#32 = 127 by decide]; norm_num)]
    simp [hz]
  · rw [show expo 0#32 = 0 by decide]; norm_num
  · rw [show expo 0x80000000#32 = 0 by decide]; norm_num
  · rw [show expo 0x7F800000#32 = 255 by decide]; norm_num

/-! ## fast_lgamma and fast_lgamma_nu -/

section
variable {F : Type} [FloatOps F]

/-- **C48, finding: the full claim is false.** A NaN of either sign passes the range check
(both comparisons are false) and `fast_lgamma` then reads its coefficient table out of
bounds. -/
theorem C48_lgamma_nan (toF : BitVec 32 → F) (lgammaf : F → F) (b : BitVec 32)
    (h : IsNaN b) : fastLgamma toF lgammaf b = .ub := by
  have hv := val_nan.mpr h
  unfold fastLgamma
  rw [hv]
  simp only [Val.lt, Val.le, Bool.or_self, Bool.false_eq_true, if_false]
  obtain ⟨c, hc, hb⟩ : ∃ c, intLog2 b = .ok c ∧ (c * 6 < 0 ∨ (198 : Int) ≤ c * 6) := by
    cases hs : b.msb with
    | false =>
      refine ⟨_, intLog2_normal hs (by rw [h.1]; norm_num), ?_⟩
      rw [h.1]; norm_num
    | true =>
      have hn := toNat_eq b
      rw [hs, h.1] at hn
      have hm := man_lt b
      have hi : b.toInt = (b.toNat : Int) - 2 ^ 32 := by
        rw [BitVec.toInt_eq_msb_cond, hs]; norm_num
      have hc : (BitVec.sshiftRight b 23).toInt = -1 := by
        rw [shiftInt, hi, hn]
        norm_num at hm ⊢
        omega
      refine ⟨-128, ?_, by norm_num⟩
      unfold intLog2
      simp only [hc]
      norm_num
  rw [hc, Res.ok_bind]
  rw [getAtInt_ub (by rw [length_lgammaCoeff5]; exact_mod_cast hb)]
  rfl

/-- The quiet NaN `0x7FC00000`. -/
example (toF : BitVec 32 → F) (lgammaf : F → F) :
    fastLgamma toF lgammaf 0x7FC00000#32 = .ub := C48_lgamma_nan _ _ _ (by decide)

/-- **C48 for fast_lgamma, except NaN.** For each of the other bit patterns the call reads
its coefficient table in range, or delegates to the library function.  Missing: NaN inputs,
for which `C48_lgamma_nan` shows that the claim fails. -/
theorem C48_lgamma_partial (toF : BitVec 32 → F) (lgammaf : F → F) (b : BitVec 32)
    (h : ¬ IsNaN b) : ∃ r, fastLgamma toF lgammaf b = .ok r := by
  unfold fastLgamma
  cases hc : ((val b).lt (.fin (5 / 2)) || F32.Val.le (.fin 4294967296) (val b)) with
  | true => exact ⟨_, rfl⟩
  | false =>
    simp only [Bool.false_eq_true, if_false]
    obtain ⟨q, hv, h1, h2⟩ := val_between h hc
    obtain ⟨c, hc, l1, l2⟩ := intLog2_floor hv (by linarith)
    have hc1 : 1 ≤ c := by
      have : (2 : ℚ) ^ (1 : Int) < 2 ^ (c + 1) := by
        refine lt_trans ?_ (lt_of_le_of_lt h1 l2); norm_num
      rw [zpow_two_lt_iff] at this; omega
    have hc2 : c < 32 := by
      have : (2 : ℚ) ^ c < 2 ^ (32 : Int) := by
        refine lt_of_le_of_lt l1 (h2.trans_le ?_); norm_num
      rwa [zpow_two_lt_iff] at this
    rw [hc, Res.ok_bind]
    have L := length_lgammaCoeff5
    obtain ⟨a5, h5⟩ := getAtInt_of (l := lgammaCoeff5) (i := c * 6) (by omega) (by omega)
    obtain ⟨a4, h4⟩ := getAtInt_of (l := lgammaCoeff5) (i := c * 6 + 1) (by omega) (by omega)
    obtain ⟨a3, h3⟩ := getAtInt_of (l := lgammaCoeff5) (i := c * 6 + 2) (by omega) (by omega)
    obtain ⟨a2, h2⟩ := getAtInt_of (l := lgammaCoeff5) (i := c * 6 + 3) (by omega) (by omega)
    obtain ⟨a1, h1⟩ := getAtInt_of (l := lgammaCoeff5) (i := c * 6 + 4) (by omega) (by omega)
    obtain ⟨a0, h0⟩ := getAtInt_of (l := lgammaCoeff5) (i := c * 6 + 5) (by omega) (by omega)
    simp only [h0, h1, h2, h3, h4, h5, Res.ok_bind, Res.pure_eq]
    exact ⟨_, rfl⟩

/-- 1000.0f takes the polynomial. -/
example (toF : BitVec 32 → F) (lgammaf : F → F) :
    ∃ r, fastLgamma toF lgammaf 0x447A0000#32 = .ok r := C48_lgamma_partial _ _ _ (by decide)

/-- **C48, delegation.** Exactly below 2.5 and from `2^32` on the library function is
called: the result is then `lgammaf` of the argument, bit for bit. -/
theorem C48_lgamma_delegates (toF : BitVec 32 → F) (lgammaf : F → F) (b : BitVec 32) (q : ℚ)
    (hv : val b = .fin q) (h : q < 5 / 2 ∨ 4294967296 ≤ q) :
    fastLgamma toF lgammaf b = .ok (lgammaf (toF b)) := by
  unfold fastLgamma
  rw [if_pos]
  rw [hv]
  simpa [Val.lt, Val.le] using h

/-- **C48, finding: the full claim is false** for `fast_lgamma_nu` as well. -/
theorem C48_nu_nan (toF : BitVec 32 → F) (lgammaf : F → F) (b : BitVec 32)
    (h : IsNaN b) : fastLgammaNu toF lgammaf b = .ub := by
  have hv := val_nan.mpr h
  unfold fastLgammaNu
  rw [hv]
  simp only [Val.lt, Val.le, Bool.or_self, Bool.false_eq_true, if_false]
  obtain ⟨c, hc, hb⟩ : ∃ c, intLog2 b = .ok c ∧
      (Int.tdiv (c + 4) 2 * 4 + 3 < 0 ∨ (72 : Int) ≤ Int.tdiv (c + 4) 2 * 4 + 3) := by
    cases hs : b.msb with
    | false =>
      refine ⟨_, intLog2_normal hs (by rw [h.1]; norm_num), ?_⟩
      rw [h.1]; right; decide
    | true =>
      have hn := toNat_eq b
      rw [hs, h.1] at hn
      have hm := man_lt b
      have hi : b.toInt = (b.toNat : Int) - 2 ^ 32 := by
        rw [BitVec.toInt_eq_msb_cond, hs]; norm_num
      have hc : (BitVec.sshiftRight b 23).toInt = -1 := by
        rw [shiftInt, hi, hn]
        norm_num at hm ⊢
        omega
      refine ⟨-128, ?_, by left; decide⟩
      unfold intLog2
      simp only [hc]
      norm_num
  rw [hc, Res.ok_bind]
  unfold polyEval3
  rw [getAtInt_ub (by rw [length_lgammaNuCoeff3]; exact_mod_cast hb)]
  rfl

example (toF : BitVec 32 → F) (lgammaf : F → F) :
    fastLgammaNu toF lgammaf 0xFFC00001#32 = .ub := C48_nu_nan _ _ _ (by decide)

/-- **C48 for fast_lgamma_nu, except NaN.**  Missing: NaN inputs (`C48_nu_nan`). -/
theorem C48_nu_partial (toF : BitVec 32 → F) (lgammaf : F → F) (b : BitVec 32)
    (h : ¬ IsNaN b) : ∃ r, fastLgammaNu toF lgammaf b = .ok r := by
  unfold fastLgammaNu
  cases hc : ((val b).lt (.fin (1 / 16)) || F32.Val.le (.fin 4294967296) (val b)) with
  | true => exact ⟨_, rfl⟩
  | false =>
    simp only [Bool.false_eq_true, if_false]
    obtain ⟨q, hv, h1, h2⟩ := val_between h hc
    obtain ⟨c, hc, l1, l2⟩ := intLog2_floor hv (by linarith)
    have hc1 : -4 ≤ c := by
      have : (2 : ℚ) ^ (-4 : Int) < 2 ^ (c + 1) := by
        refine lt_of_le_of_lt ?_ (lt_of_le_of_lt h1 l2); norm_num
      rw [zpow_two_lt_iff] at this; omega
    have hc2 : c < 32 := by
      have : (2 : ℚ) ^ c < 2 ^ (32 : Int) := by
        refine lt_of_le_of_lt l1 (h2.trans_le ?_); norm_num
      rwa [zpow_two_lt_iff] at this
    rw [hc, Res.ok_bind]
    have L := length_lgammaNuCoeff3
    have ht : Int.tdiv (c + 4) 2 = (c + 4) / 2 := Int.tdiv_eq_ediv_of_nonneg (by omega)
    unfold polyEval3
    simp only [ht]
    obtain ⟨a3, h3⟩ := getAtInt_of (l := lgammaNuCoeff3) (i := (c + 4) / 2 * 4)
      (by omega) (by omega)
    obtain ⟨a2, h2⟩ := getAtInt_of (l := lgammaNuCoeff3) (i := (c + 4) / 2 * 4 + 1)
      (by omega) (by omega)
    obtain ⟨a1, h1⟩ := getAtInt_of (l := lgammaNuCoeff3) (i := (c + 4) / 2 * 4 + 2)
      (by omega) (by omega)
    obtain ⟨a0, h0⟩ := getAtInt_of (l := lgammaNuCoeff3) (i := (c + 4) / 2 * 4 + 3)
      (by omega) (by omega)
    simp only [h0, h1, h2, h3, Res.ok_bind, Res.pure_eq]
    exact ⟨_, rfl⟩

/-- The smallest argument that takes the polynomial, 0.0625f. -/
example (toF : BitVec 32 → F) (lgammaf : F → F) :
    ∃ r, fastLgammaNu toF lgammaf 0x3D800000#32 = .ok r := C48_nu_partial _ _ _ (by decide)

/-! ## The other tables -/

/-- **C51, the floor-log2 table is correct** at every entry but the unused one at 0. -/
theorem C51_log_table (t : Nat) (h0 : t ≠ 0) (h : t < 256) :
    ∃ c : Nat, getAt logTable256 t = .ok (c : Int) ∧ 2 ^ c ≤ t ∧ t < 2 ^ (c + 1) :=
  ⟨_, getAt_logTable h0 h, Nat.log2_self_le h0, Nat.lt_log2_self⟩

/-- The entry at 0, which no argument reaches, is below all others. -/
theorem C51_log_table_zero : ∃ c : Int, getAt logTable256 0 = .ok c ∧ c < 0 := ⟨-1, by decide, by decide⟩

/-- **C51, the inlined floor-log2 is correct** for every positive finite float, subnormal
numbers included: all four branches return the exponent of the largest power of two below
the argument. -/
theorem C51_floor_log2 (b : BitVec 32) (q : ℚ) (hv : val b = .fin q) (hq : 0 < q) :
    ∃ c : Int, intLog2 b = .ok c ∧ (2 : ℚ) ^ c ≤ q ∧ q < 2 ^ (c + 1) :=
  intLog2_floor hv hq

/-- A subnormal number that uses the table: pattern 5 is `5 * 2^-149`. -/
example : ∃ c : Int, intLog2 5#32 = .ok c ∧ (2 : ℚ) ^ c ≤ 5 / 2 ^ 149 ∧
    5 / 2 ^ 149 < (2 : ℚ) ^ (c + 1) :=
  C51_floor_log2 _ _ (by
      have h1 : expo 5#32 = 0 := by decide
      have h2 : man 5#32 = 5 := by decide
      have h3 : (5#32).msb = false := by decide
      simp [val, magnitude, h1, h2, h3]) (by positivity)

theorem ofNat_not_nan (n : Nat) (h : n < 2 ^ 32) : ¬ IsNaN (F32.ofNat n) := by
  unfold F32.ofNat
  split_ifs with h0
  · decide
  · simp only
    set e := Nat.log2 n with he
    have he32 : e < 32 := by
      rw [he]; exact (Nat.log2_lt h0).mpr h
    have hm : ∀ m, m ≤ 2 ^ 24 → ¬ IsNaN (BitVec.ofNat 32 ((e + 127) * 2 ^ 23 + (m - 2 ^ 23))) := by
      intro m hm ⟨h1, _⟩
      unfold expo at h1
      rw [BitVec.toNat_ofNat] at h1
      norm_num at h1 hm
      omega
    apply hm
    have hlt : n < 2 ^ (e + 1) := Nat.lt_log2_self
    split_ifs with h1 h2
    · calc n * 2 ^ (23 - e) ≤ 2 ^ (e + 1) * 2 ^ (23 - e) := Nat.mul_le_mul_right _ hlt.le
        _ = 2 ^ 24 := by rw [← pow_add]; congr 1; omega
    all_goals
      have hq : n / 2 ^ (e - 23) < 2 ^ 24 := by
        rw [Nat.div_lt_iff_lt_mul (by positivity), ← pow_add]
        refine lt_of_lt_of_le hlt (Nat.pow_le_pow_right (by norm_num) (by omega))
      omega

/-- **C51, fast_log_factorial is memory safe** for every `uint32_t`, the wrap-around of
`n + 1` at the largest one included. -/
theorem C51_log_factorial (toF : BitVec 32 → F) (lgammaf : F → F) (n : Nat) :
    ∃ r, fastLogFactorial toF lgammaf n = .ok r := by
  unfold fastLogFactorial
  split_ifs with h
  · rw [getAt_of (by rw [length_logFactorialTable]; exact h)]
    exact ⟨_, rfl⟩
  · exact C48_lgamma_partial _ _ _ (ofNat_not_nan _ (Nat.mod_lt _ (by norm_num)))

/-- **C51, the low-entropy partition table** is read in range for every non-negative sample
size.  (The class clamps nothing: a negative size is below 48 and indexes in front of the
table.) -/
theorem C51_partition_table (n : Int) :
    (0 ≤ n → ∃ r : F, LowEntropy.logPartition n = .ok r) ∧ (n < 0 → (LowEntropy.logPartition n : Res F) = .ub) := by
  unfold LowEntropy.logPartition
  constructor
  · intro h0
    rw [if_neg (by omega : ¬ n < 0)]
    split_ifs with h
    · have : n.toNat < LowEntropy.partitionTable.length := by
        rw [show LowEntropy.partitionTable.length = 48 by decide]; omega
      rw [getAt_of this]
      exact ⟨_, rfl⟩
    · exact ⟨_, rfl⟩
  · intro h
    rw [if_pos (by omega), if_pos h]

end

end Dist
