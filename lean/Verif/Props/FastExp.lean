import Verif.Lemmas.Exp

/-!
# C49: `fast_exp`

The claim has three parts (`Spec.FastExpSound`).  The first holds; the second holds down to
`-1028653055`; the third, and the second below that, fail, because the test that guards the clamp
looks at the integer value of the argument where it was meant to look at its bits.
-/

namespace Dist

open Dist.Exp Dist.Spec

variable {rnd : ℝ → ℝ} {c : ExpVar}

/-- C49, first part: on `[-87, 88]`, computed without rounding, the result is within `2^-22` of
the exponential, relatively, whatever the one-ulp errors in the table. -/
theorem C49_accuracy (hl : LogExact c) (hp : PowAccurate c) {x : ℝ} (h0 : -87 ≤ x) (h1 : x ≤ 88) :
    ∃ y, fastExp (fun z => z) c (.fin x) = .ok (.fin y) ∧
      |y - Real.exp x| < 2⁻¹ ^ 22 * Real.exp x := by
  obtain ⟨l0, l1⟩ := log2_bounds
  have hxa : x * (1024 / Real.log 2) = x * 1024 / Real.log 2 := by ring
  set r := rint (x * (1024 / Real.log 2)) with hrdef
  have hnear := rint_near (x * (1024 / Real.log 2))
  rw [← hrdef] at hnear
  have hub : x * (1024 / Real.log 2) ≤ (130006 : ℤ) := by
    rw [hxa, div_le_iff₀ (by linarith)]; push_cast; linarith
  have hlb : ((-128530 : ℤ) : ℝ) ≤ x * (1024 / Real.log 2) := by
    rw [hxa, le_div_iff₀ (by linarith)]; push_cast; linarith
  have r1 : r ≤ 130006 := rint_le hub
  have r0 : -128530 ≤ r := le_rint hlb
  have hr : reduce (fun z => z) c (.fin x) = r := by
    unfold reduce ExpVar.a
    simp only [V.mul]
    rw [hl, cvtss_fin]
    · push_cast at hlb; linarith
    · push_cast at hub; linarith
  have hs : ShiftDefined r := by unfold ShiftDefined; omega
  obtain ⟨q, hv, q1, q2, hq⟩ := hp _ (index_lt r)
  have hw := assemble_normal hs hv q1 q2 (by omega) (by omega)
  unfold fastExp fastExpMachine
  rw [clamp_inside (by linarith) h1, hr, if_pos hs, machine_fin hr hw]
  refine ⟨_, rfl, ?_⟩
  have hb : c.b (fun z => z) = Real.log 2 / 1024 := by unfold ExpVar.b; rw [hl]
  simp only [hb]
  have hT := remainder_near hnear
  set T := x - r * (Real.log 2 / 1024) with hTd
  have hT1 : |T| ≤ 3.3846 / 10 ^ 4 := hT.trans (by norm_num)
  have h := combine (f := 1 + T) (E := 0) hTd (by linarith) hq (by positivity) (by simp) le_rfl
  have e : 1 + (x + -(r * (Real.log 2 / 1024))) = 1 + T := by rw [hTd]; ring
  rw [e]
  refine h.trans_lt ?_
  apply mul_lt_mul_of_pos_right _ (Real.exp_pos x)
  have hsq : T ^ 2 ≤ (3.3846 / 10 ^ 4) ^ 2 := by rw [← sq_abs]; gcongr
  have : (1 + 0 + (3.3846 / 10 ^ 4) ^ 2) * (1 + (2⁻¹ : ℝ) ^ 23) - 1 < 2⁻¹ ^ 22 := by norm_num
  have h2 : (1 + 0 + T ^ 2) * (1 + (2⁻¹ : ℝ) ^ 23) ≤
      (1 + 0 + (3.3846 / 10 ^ 4) ^ 2) * (1 + (2⁻¹ : ℝ) ^ 23) := by gcongr
  linarith

/-- The same computed in single precision: every operation rounded, `logf(2)` within half an ulp.
The reduction `x - r * b` cancels, so the bound is `2^-16`. -/
theorem C49_accuracy_rounded (h : Rounding rnd) (hl : LogNear c) (hp : PowAccurate c) {x : ℝ}
    (h0 : -87 ≤ x) (h1 : x ≤ 88) :
    ∃ y, fastExp rnd c (.fin x) = .ok (.fin y) ∧ |y - Real.exp x| < 2⁻¹ ^ 16 * Real.exp x := by
  obtain ⟨l0, l1⟩ := log2_bounds
  have hx : |x| ≤ 88 := by rw [abs_le]; constructor <;> linarith
  obtain ⟨r, hr, hn⟩ := reduce_near h hl (x := x) (by linarith)
  have hn' : |x * (1024 / Real.log 2) - r| ≤ 0.52201 := by
    have : |x| * (2.5 / 10 ^ 4) ≤ 88 * (2.5 / 10 ^ 4) := by gcongr
    have : (1 : ℝ) / 10 ^ 40 ≤ 1 / 10 ^ 10 := by norm_num
    linarith
  have hxa : x * (1024 / Real.log 2) = x * 1024 / Real.log 2 := by ring
  have hub : x * (1024 / Real.log 2) ≤ 130006 := by
    rw [hxa, div_le_iff₀ (by linarith)]; linarith
  have hlb : -128530 ≤ x * (1024 / Real.log 2) := by
    rw [hxa, le_div_iff₀ (by linarith)]; linarith
  have hn2 := abs_le.1 hn'
  have r1 : r ≤ 130007 := by
    have : (r : ℝ) ≤ (130007 : ℤ) := by push_cast; linarith
    exact_mod_cast this
  have r0 : -128531 ≤ r := by
    have : ((-128531 : ℤ) : ℝ) ≤ r := by push_cast; linarith
    exact_mod_cast this
  have hs : ShiftDefined r := by unfold ShiftDefined; omega
  obtain ⟨q, hv, q1, q2, hq⟩ := hp _ (index_lt r)
  have hw := assemble_normal hs hv q1 q2 (by omega) (by omega)
  unfold fastExp fastExpMachine
  rw [clamp_inside (by linarith) h1, hr, if_pos hs, machine_fin hr hw]
  refine ⟨_, rfl, ?_⟩
  -- the reduced argument
  have hT := remainder_near hn'
  set T := x - r * (Real.log 2 / 1024) with hTd
  have hT1 : |T| ≤ 3.54 / 10 ^ 4 := hT.trans (by norm_num)
  have hrr : rnd (r : ℝ) = r := by
    have := h.exact r 0 (by rw [abs_le]; constructor <;> omega) (by norm_num) (by norm_num)
    simpa using this
  have hrabs : |(r : ℝ)| ≤ 130007 := by
    rw [abs_le]
    constructor
    · have : ((-130007 : ℤ) : ℝ) ≤ r := by exact_mod_cast (by omega : -130007 ≤ r)
      push_cast at this; linarith
    · have : (r : ℝ) ≤ (130007 : ℤ) := by exact_mod_cast r1
      push_cast at this; linarith
  have hb := b_near h hl
  have m1 : |r * c.b rnd - r * (Real.log 2 / 1024)| ≤ 9.11 / 10 ^ 6 := by
    rw [← mul_sub, abs_mul]
    calc |(r : ℝ)| * _ ≤ 130007 * (7 / 10 ^ 11) := by gcongr
      _ ≤ _ := by norm_num
  have m0 : |(r : ℝ) * (Real.log 2 / 1024)| ≤ 88.01 := by
    rw [abs_mul, abs_of_pos (by linarith : 0 < Real.log 2 / 1024)]
    calc |(r : ℝ)| * _ ≤ 130007 * (0.6931471808 / 1024) := by gcongr
      _ ≤ _ := by norm_num
  have m0' : |r * c.b rnd| ≤ 88.02 := by
    have := abs_sub_abs_le_abs_sub (r * c.b rnd) (r * (Real.log 2 / 1024))
    have : (9.11 : ℝ) / 10 ^ 6 ≤ 0.01 := by norm_num
    linarith
  have m2 := h.error (r * c.b rnd)
  have m2' : |rnd (r * c.b rnd) - r * c.b rnd| ≤ 5.27 / 10 ^ 6 := by
    refine m2.trans ?_
    calc (2⁻¹ : ℝ) ^ 24 * |r * c.b rnd| + 2⁻¹ ^ 150 ≤ 2⁻¹ ^ 24 * 88.02 + 2⁻¹ ^ 150 := by gcongr
      _ ≤ _ := by norm_num
  set M := rnd (r * c.b rnd) with hM
  have m3 : |x + -M - T| ≤ 1.44 / 10 ^ 5 := by
    have e : x + -M - T = -((M - r * c.b rnd) + (r * c.b rnd - r * (Real.log 2 / 1024))) := by
      rw [hTd]; ring
    rw [e, abs_neg]
    refine (abs_add_le _ _).trans ?_
    linarith
  have m4 : |x + -M| ≤ 3.7 / 10 ^ 4 := by
    have := abs_sub_abs_le_abs_sub (x + -M) T
    linarith
  have m5 := h.error (x + -M)
  set t := rnd (x + -M) with ht
  have m5' : |t - (x + -M)| ≤ 1 / 10 ^ 8 := by
    refine m5.trans ?_
    calc (2⁻¹ : ℝ) ^ 24 * |x + -M| + 2⁻¹ ^ 150 ≤ 2⁻¹ ^ 24 * (3.7 / 10 ^ 4) + 2⁻¹ ^ 150 := by gcongr
      _ ≤ _ := by norm_num
  have m6 : |t - T| ≤ 1.442 / 10 ^ 5 := by
    have := abs_sub_le t (x + -M) T
    linarith
  have m7 : |1 + t| ≤ 1.001 := by
    have a1 := abs_add_le 1 t
    have a2 := abs_sub_abs_le_abs_sub t T
    rw [abs_one] at a1
    linarith
  have m8 := h.error (1 + t)
  set f := rnd (1 + t) with hf
  have m8' : |f - (1 + t)| ≤ 6 / 10 ^ 8 := by
    refine m8.trans ?_
    calc (2⁻¹ : ℝ) ^ 24 * |1 + t| + 2⁻¹ ^ 150 ≤ 2⁻¹ ^ 24 * 1.001 + 2⁻¹ ^ 150 := by gcongr
      _ ≤ _ := by norm_num
  have m9 : |f - (1 + T)| ≤ 1.449 / 10 ^ 5 := by
    have := abs_sub_le f (1 + t) (1 + T)
    have e : 1 + t - (1 + T) = t - T := by ring
    rw [e] at this
    linarith
  have hexpT : 0.9996 ≤ Real.exp T := by
    have := Real.add_one_le_exp T
    have := (abs_le.1 hT1).1
    linarith
  have hcomb := combine (f := f) (E := 1.45 / 10 ^ 5) hTd (by linarith) hq (by positivity)
    (m9.trans (by nlinarith)) (by positivity)
  set w := (2 : ℝ) ^ (r / 2 ^ 10) * q
  have hE : |f * w - Real.exp x| ≤ 1.476 / 10 ^ 5 * Real.exp x := by
    refine hcomb.trans (mul_le_mul_of_nonneg_right ?_ (Real.exp_pos x).le)
    have hsq : T ^ 2 ≤ (3.54 / 10 ^ 4) ^ 2 := by rw [← sq_abs]; gcongr
    have : (1 + 1.45 / 10 ^ 5 + (3.54 / 10 ^ 4) ^ 2) * (1 + (2⁻¹ : ℝ) ^ 23) - 1 ≤
        1.476 / 10 ^ 5 := by norm_num
    have h2 : (1 + 1.45 / 10 ^ 5 + T ^ 2) * (1 + (2⁻¹ : ℝ) ^ 23) ≤
        (1 + 1.45 / 10 ^ 5 + (3.54 / 10 ^ 4) ^ 2) * (1 + (2⁻¹ : ℝ) ^ 23) := by gcongr
    linarith
  rw [hrr]
  have m10 := h.error (f * w)
  have hfw : |f * w| ≤ 1.01 * Real.exp x := by
    have := abs_sub_abs_le_abs_sub (f * w) (Real.exp x)
    rw [abs_of_pos (Real.exp_pos x)] at this
    have := Real.exp_pos x
    linarith
  have hlow : (2⁻¹ : ℝ) ^ 126 ≤ Real.exp x := by
    have : (2⁻¹ : ℝ) ^ 126 = Real.exp (-(126 * Real.log 2)) := by
      rw [Real.exp_neg, inv_pow, mul_comm, Real.exp_mul, Real.exp_log (by norm_num)]
      norm_num
    rw [this]
    apply Real.exp_le_exp.2
    linarith
  have hom : (2⁻¹ : ℝ) ^ 150 ≤ 2⁻¹ ^ 24 * Real.exp x := by
    calc (2⁻¹ : ℝ) ^ 150 = 2⁻¹ ^ 24 * 2⁻¹ ^ 126 := by rw [← pow_add]
      _ ≤ _ := by gcongr
  have hfin : |rnd (f * w) - f * w| ≤ 1.3 / 10 ^ 7 * Real.exp x := by
    refine m10.trans ?_
    have a1 : (2⁻¹ : ℝ) ^ 24 * |f * w| ≤ 2⁻¹ ^ 24 * (1.01 * Real.exp x) := by gcongr
    have a2 : (2⁻¹ : ℝ) ^ 24 * 2.01 ≤ 1.3 / 10 ^ 7 := by norm_num
    have a3 := mul_le_mul_of_nonneg_right a2 (Real.exp_pos x).le
    linarith
  have hlast := abs_sub_le (rnd (f * w)) (f * w) (Real.exp x)
  have : (1.476 / 10 ^ 5 + 1.3 / 10 ^ 7 : ℝ) * Real.exp x < 2⁻¹ ^ 16 * Real.exp x :=
    mul_lt_mul_of_pos_right (by norm_num) (Real.exp_pos x)
  linarith

/-- C49, second part, as far as it holds: from `-87` down to `-1028653055` the result is finite,
not negative and at most `2^-124`, in any rounding. -/
theorem C49_tiny_partial (h : Rounding rnd) (hl : LogNear c) (hp : PowAccurate c) {x : ℝ}
    (h0 : -1028653055 ≤ x) (h1 : x < -87) :
    ∃ y, fastExp rnd c (.fin x) = .ok (.fin y) ∧ 0 ≤ y ∧ y ≤ 2⁻¹ ^ 124 := by
  obtain ⟨x1, hc, g0, g1⟩ : ∃ x1, clamp (.fin x) = .fin x1 ∧ -88 ≤ x1 ∧ x1 < -87 := by
    rcases lt_or_ge x (-88) with hx | hx
    · exact ⟨-88, clamp_negative h0 hx, le_rfl, by norm_num⟩
    · exact ⟨x, clamp_inside hx (by linarith), hx, h1⟩
  have hx : |x1| ≤ 300 := by rw [abs_le]; constructor <;> linarith
  obtain ⟨r, hr, hT⟩ := reduce_bounds h hl hx
  have r0 : -130040 ≤ r := neg_le_r hT (by norm_num) (by push_cast; linarith)
  have r1 : r ≤ -128500 := r_le_neg hT (by norm_num) (by push_cast; linarith)
  have hs : ShiftDefined r := by unfold ShiftDefined; omega
  obtain ⟨f1, f2⟩ := factor_near h hl hx hT
  obtain ⟨q, hv, q1, q2, -⟩ := hp _ (index_lt r)
  obtain ⟨w, hw, w0, w1⟩ : ∃ w : ℝ, V.ofBits (assemble c r) = .fin w ∧ 0 ≤ w ∧ w ≤ 2⁻¹ ^ 125 := by
    by_cases he : 1 ≤ r / 2 ^ 10 + 127
    · refine ⟨_, assemble_normal hs hv q1 q2 he (by omega), ?_, ?_⟩
      · have : (0 : ℝ) ≤ q := by exact_mod_cast (by linarith : (0 : ℚ) ≤ q)
        positivity
      · have hu : r / 2 ^ 10 = -126 := by omega
        have : (q : ℝ) ≤ 2 := by exact_mod_cast q2.le
        rw [hu]
        calc (2 : ℝ) ^ (-126 : ℤ) * q ≤ 2 ^ (-126 : ℤ) * 2 := by gcongr
          _ = _ := by norm_num
    · obtain ⟨e1, e2, e3⟩ := assemble_fields c r hs
      have he0 : F32.expo (assemble c r) = 0 := by omega
      have hmsb : (assemble c r).msb = false := by rw [e3]; simp; omega
      have hm := F32.man_lt (assemble c r)
      refine ⟨((F32.man (assemble c r) : ℚ) / 2 ^ 149 : ℚ), ?_, ?_, ?_⟩
      · unfold V.ofBits F32.val F32.magnitude
        rw [if_neg (by omega), hmsb, if_pos he0]
        simp
      · positivity
      · have : (F32.man (assemble c r) : ℝ) ≤ 2 ^ 23 := by exact_mod_cast hm.le
        push_cast
        calc (F32.man (assemble c r) : ℝ) / 2 ^ 149 ≤ 2 ^ 23 / 2 ^ 149 := by gcongr
          _ ≤ _ := by norm_num
  unfold fastExp fastExpMachine
  rw [hc, hr, if_pos hs, machine_fin hr hw]
  refine ⟨_, rfl, ?_, ?_⟩
  · calc (0 : ℝ) = rnd 0 := (rnd_zero h).symm
      _ ≤ _ := h.mono (mul_nonneg (by linarith) w0)
  · have h124 : rnd (2⁻¹ ^ 124) = 2⁻¹ ^ 124 := by
      have := h.exact 1 (-124) (by norm_num) (by norm_num) (by norm_num)
      have e : ((1 : ℤ) : ℝ) * 2 ^ (-124 : ℤ) = 2⁻¹ ^ 124 := by norm_num
      rwa [e] at this
    rw [← h124]
    apply h.mono
    calc _ ≤ 2 * (2⁻¹ : ℝ) ^ 125 := mul_le_mul f2 w1 w0 (by norm_num)
      _ = _ := by norm_num

/-- C49, the third part, in the only range where the clamp is taken for a positive argument:
between `1118830593` and the largest `int` the result is that at `88`. -/
theorem C49_saturates_partial {x : ℝ} (h0 : 1118830593 ≤ x) (h1 : x ≤ 2 ^ 31 - 1) :
    fastExp rnd c (.fin x) = fastExp rnd c (.fin 88) := by
  have hc : clamp (.fin x) = .fin 88 := by
    have a : rint x ≤ 2 ^ 31 - 1 := rint_le (by push_cast; linarith)
    have b : 1118830593 ≤ rint x := le_rint (by push_cast; linarith)
    have hcv : cvtss (.fin x) = rint x := cvtss_fin (by linarith) h1
    unfold clamp
    simp only [hcv]
    rw [if_pos]
    · unfold V.minss V.maxss V.lt
      have : ¬ x < 88 := by linarith
      simp only [this, decide_false]
      norm_num
    · unfold f88; omega
  have h88 : clamp (.fin 88) = .fin 88 := clamp_inside (by norm_num) le_rfl
  unfold fastExp fastExpMachine
  rw [hc, h88]

/-- Finding: for every argument from `91` to `177` the exponent runs into the sign bit and the
result is a negative number, in any rounding. -/
theorem C49_positive_wraps (h : Rounding rnd) (hl : LogNear c) (hp : PowAccurate c) {x : ℝ}
    (h0 : 91 ≤ x) (h1 : x ≤ 177) : ∃ y, fastExp rnd c (.fin x) = .ok (.fin y) ∧ y < 0 := by
  have hx : |x| ≤ 300 := by rw [abs_le]; constructor <;> linarith
  obtain ⟨r, hr, hT⟩ := reduce_bounds h hl hx
  have r0 : 134144 ≤ r := le_r hT (by norm_num) (by push_cast; linarith)
  have r1 : r ≤ 262000 := r_le hT (by norm_num) (by push_cast; linarith)
  have hs : ShiftDefined r := by unfold ShiftDefined; omega
  obtain ⟨f1, f2⟩ := factor_near h hl hx hT
  obtain ⟨q, hv, q1, q2, -⟩ := hp _ (index_lt r)
  obtain ⟨e1, e2, e3⟩ := assemble_fields c r hs
  have hmsb : (assemble c r).msb = true := by rw [e3]; simp; omega
  have hexp : 1 ≤ F32.expo (assemble c r) ∧ F32.expo (assemble c r) ≤ 254 := by omega
  obtain ⟨w, hw, w0⟩ : ∃ w : ℝ, V.ofBits (assemble c r) = .fin (-w) ∧ 2⁻¹ ^ 126 ≤ w := by
    refine ⟨(F32.magnitude (assemble c r) : ℝ), ?_, ?_⟩
    · unfold V.ofBits F32.val
      rw [if_neg (by omega), hmsb]
      simp
    · unfold F32.magnitude
      rw [if_neg (by omega)]
      push_cast
      have hpow : (2 : ℝ) ^ 1 ≤ 2 ^ F32.expo (assemble c r) :=
        pow_le_pow_right₀ (by norm_num) hexp.1
      have hm : (0 : ℝ) ≤ F32.man (assemble c r) := by positivity
      rw [le_div_iff₀ (by positivity)]
      calc (2⁻¹ : ℝ) ^ 126 * 2 ^ 150 = 2 ^ 23 * 2 ^ 1 := by norm_num
        _ ≤ _ := mul_le_mul (by linarith) hpow (by norm_num) (by positivity)
  have hc : clamp (.fin x) = .fin x := clamp_small (le_rint (by push_cast; linarith)) (by linarith)
  unfold fastExp fastExpMachine
  rw [hc, hr, if_pos hs, machine_fin hr hw]
  refine ⟨_, rfl, ?_⟩
  have hneg : rnd (-2⁻¹ ^ 127) = -2⁻¹ ^ 127 := by
    have := h.exact (-1) (-127) (by norm_num) (by norm_num) (by norm_num)
    have e : ((-1 : ℤ) : ℝ) * 2 ^ (-127 : ℤ) = -2⁻¹ ^ 127 := by norm_num
    rwa [e] at this
  refine lt_of_le_of_lt (h.mono (?_ : _ ≤ -(2⁻¹ : ℝ) ^ 127)) (by rw [hneg]; norm_num)
  have : (2⁻¹ : ℝ) ^ 127 = 1 / 2 * 2⁻¹ ^ 126 := by norm_num
  rw [this]
  have := mul_le_mul f1 w0 (by positivity) (by linarith)
  linarith

/-- Finding: for every argument from `88.8` to `89.3` the exponent field is all ones over a
nonzero fraction: the result is not a number. -/
theorem C49_positive_nan (h : Rounding rnd) (hl : LogNear c) (hp : PowAccurate c) {x : ℝ}
    (h0 : 88.8 ≤ x) (h1 : x ≤ 89.3) : fastExp rnd c (.fin x) = .ok .nan := by
  have hx : |x| ≤ 300 := by rw [abs_le]; constructor <;> linarith
  obtain ⟨r, hr, hT⟩ := reduce_bounds h hl hx
  have r0 : 131172 ≤ r := le_r hT (by norm_num) (by push_cast; linarith)
  have r1 : r ≤ 132000 := r_le hT (by norm_num) (by push_cast; linarith)
  have hs : ShiftDefined r := by unfold ShiftDefined; omega
  obtain ⟨q, hv, q1, q2, hq⟩ := hp _ (index_lt r)
  obtain ⟨e1, e2, -⟩ := assemble_fields c r hs
  have hent := entry hv q1 q2
  have hman : F32.man (c.pow2 (r % 2 ^ 10).toNat) ≠ 0 := by
    intro hz
    rw [hz] at hent
    have hq1 : (q : ℝ) = 1 := by rw [hent]; norm_num
    have hi : (100 : ℝ) ≤ ((r % 2 ^ 10).toNat : ℝ) := by
      exact_mod_cast (by omega : 100 ≤ (r % 2 ^ 10).toNat)
    have hpow : 1 + Real.log 2 * (((r % 2 ^ 10).toNat : ℝ) / 1024) ≤
        2 ^ (((r % 2 ^ 10).toNat : ℝ) / 1024) := by
      rw [Real.rpow_def_of_pos (by norm_num)]
      have := Real.add_one_le_exp (Real.log 2 * (((r % 2 ^ 10).toNat : ℝ) / 1024))
      linarith
    obtain ⟨l0, l1⟩ := log2_bounds
    have h2 : 0.5 * (100 / 1024) ≤ Real.log 2 * (((r % 2 ^ 10).toNat : ℝ) / 1024) :=
      mul_le_mul (by linarith) (by gcongr) (by norm_num) (by linarith)
    have := (abs_le.1 hq).1
    have e23 : (2⁻¹ : ℝ) ^ 23 < 0.001 := by norm_num
    rw [hq1] at this
    linarith
  have hnan : V.ofBits (assemble c r) = .nan := by
    have : F32.val (assemble c r) = .nan := F32.val_nan.2 ⟨by omega, by rw [e2]; exact hman⟩
    unfold V.ofBits
    rw [this]
  have hc : clamp (.fin x) = .fin x := clamp_small (le_rint (by push_cast; linarith)) (by linarith)
  unfold fastExp fastExpMachine
  rw [hc, hr, if_pos hs]
  unfold machine
  simp only [hr, hnan, V.mul, V.sub, V.neg, V.add]

/-- Finding: from `267` up to `10^6` the shift of the exponent loses bits: undefined behaviour. -/
theorem C49_positive_ub (h : Rounding rnd) (hl : LogNear c) {x : ℝ} (h0 : 267 ≤ x)
    (h1 : x ≤ 10 ^ 6) : fastExp rnd c (.fin x) = .ub := by
  obtain ⟨l0, l1⟩ := log2_bounds
  obtain ⟨r, hr, hn⟩ := reduce_near h hl (x := x) (by rw [abs_of_nonneg (by linarith)]; exact h1)
  rw [abs_of_nonneg (by linarith : 0 ≤ x)] at hn
  have hn' := abs_le.1 hn
  have hq : 1477 ≤ 1024 / Real.log 2 := by rw [le_div_iff₀ (by linarith)]; linarith
  have hr0 : ((394300 : ℤ) : ℝ) ≤ r := by
    have : x * 1477 ≤ x * (1024 / Real.log 2) := by gcongr
    have : (1 : ℝ) / 10 ^ 40 ≤ 1 / 10 ^ 10 := by norm_num
    push_cast
    linarith
  have r0 : 394300 ≤ r := by exact_mod_cast hr0
  have hs : ¬ ShiftDefined r := by unfold ShiftDefined; omega
  have hc : clamp (.fin x) = .fin x := clamp_small (le_rint (by push_cast; linarith)) (by linarith)
  unfold fastExp
  rw [hc, hr, if_neg hs]

/-- Finding: arguments at and below `-1028653057` escape the clamp; the reduction overflows the
conversion and the exponent shifted is negative: undefined behaviour.  With the wrapping shift of
the processor and no rounding the result is a negative number. -/
theorem C49_very_negative (hl : LogExact c) {x : ℝ} (hx : x ≤ -1028653057) :
    fastExp (fun z => z) c (.fin x) = .ub ∧
      ∃ y, fastExpMachine (fun z => z) c (.fin x) = .fin y ∧ y < 0 := by
  obtain ⟨l0, l1⟩ := log2_bounds
  have hc : clamp (.fin x) = .fin x := by
    unfold clamp
    simp only
    rw [if_neg]
    rcases le_or_gt (-2 ^ 31) x with h | h
    · rw [cvtss_fin h (by linarith)]
      have a : rint x ≤ -1028653057 := rint_le (by push_cast; linarith)
      have b : -2 ^ 31 ≤ rint x := le_rint (by push_cast; linarith)
      unfold f88; omega
    · rw [cvtss_low h.le]
      unfold f88; norm_num
  have hr : reduce (fun z => z) c (.fin x) = -2 ^ 31 := by
    unfold reduce ExpVar.a
    simp only [V.mul]
    apply cvtss_low
    rw [hl]
    have hq : 1477 ≤ 1024 / Real.log 2 := by rw [le_div_iff₀ (by linarith)]; linarith
    nlinarith
  refine ⟨?_, ?_⟩
  · unfold fastExp
    rw [hc, hr, if_neg not_shift_min]
  · obtain ⟨e1, e2⟩ := assemble_min c
    obtain ⟨w, hw, w0⟩ : ∃ w : ℝ, V.ofBits (assemble c (-2 ^ 31)) = .fin w ∧ 0 < w := by
      refine ⟨(F32.magnitude (assemble c (-2 ^ 31)) : ℝ), ?_, ?_⟩
      · unfold V.ofBits F32.val
        rw [if_neg (by omega), e2]
        simp
      · have : 0 < F32.magnitude (assemble c (-2 ^ 31)) := by
          unfold F32.magnitude
          rw [if_neg (by omega)]
          positivity
        exact_mod_cast this
    unfold fastExpMachine
    rw [hc, machine_fin hr hw]
    refine ⟨_, rfl, ?_⟩
    apply mul_neg_of_neg_of_pos _ w0
    have hb : c.b (fun z => z) = Real.log 2 / 1024 := by unfold ExpVar.b; rw [hl]
    simp only [hb]
    push_cast
    nlinarith

/-- Finding: minus infinity is not clamped either; the compiled code returns minus infinity. -/
theorem C49_minus_infinity : fastExp rnd c (.inf true) = .ub ∧
    fastExpMachine rnd c (.inf true) = .inf true := by
  have hcv : ∀ v : V, (∀ z, v ≠ .fin z) → cvtss v = -2 ^ 31 := by
    intro v hv
    cases v with
    | nan => rfl
    | inf s => rfl
    | fin z => exact absurd rfl (hv z)
  have hc : clamp (.inf true) = .inf true := by
    unfold clamp
    simp only
    rw [hcv _ (by intro z hz; cases hz), if_neg (by unfold f88; norm_num)]
  have hr : reduce rnd c (.inf true) = -2 ^ 31 := by
    unfold reduce
    apply hcv
    intro z
    simp only [V.mul, V.scaleInf]
    split_ifs <;> simp
  refine ⟨?_, ?_⟩
  · unfold fastExp
    rw [hc, hr, if_neg not_shift_min]
  · obtain ⟨e1, e2⟩ := assemble_min c
    obtain ⟨w, hw, w0⟩ : ∃ w : ℝ, V.ofBits (assemble c (-2 ^ 31)) = .fin w ∧ 0 < w := by
      refine ⟨(F32.magnitude (assemble c (-2 ^ 31)) : ℝ), ?_, ?_⟩
      · unfold V.ofBits F32.val
        rw [if_neg (by omega), e2]
        simp
      · have : 0 < F32.magnitude (assemble c (-2 ^ 31)) := by
          unfold F32.magnitude
          rw [if_neg (by omega)]
          positivity
        exact_mod_cast this
    unfold fastExpMachine machine
    rw [hc]
    simp only [hr, hw, V.mul, V.sub, V.neg, V.add, V.scaleInf]
    rw [if_neg w0.ne']
    simp [not_lt.2 w0.le]

/-- The full claim fails, for exact arithmetic and an exact table: at `100` the result is
negative. -/
theorem C49_full_fails (hl : LogExact c) (hp : PowAccurate c) :
    ¬ FastExpSound (fun z => z) c := by
  intro hs
  obtain ⟨y, hy, hy0⟩ := C49_positive_wraps Rounding.id (LogExact.near hl) hp (x := 100) (by norm_num)
    (by norm_num)
  rcases hs.saturates 100 (by norm_num) with h | ⟨z, hz, hz0⟩
  · rw [h] at hy
    simp at hy
  · rw [hz] at hy
    injection hy with hy
    injection hy with hy
    have := Real.exp_pos 88
    linarith

/-! ### A library that meets the hypotheses -/

/-- The fraction bits of `2^(i/1024)`, rounded down. -/
noncomputable def floorTable : ExpVar where
  log2 := Real.log 2
  pow2 i := BitVec.ofNat 32 (127 * 2 ^ 23 + ⌊((2 : ℝ) ^ ((i : ℝ) / 1024) - 1) * 2 ^ 23⌋₊)

theorem floorTable_accurate : PowAccurate floorTable := by
  intro i hi
  set p : ℝ := (2 : ℝ) ^ ((i : ℝ) / 1024) with hp
  have h1 : 1 ≤ p := Real.one_le_rpow (by norm_num) (by positivity)
  have h2 : p < 2 := by
    have : p < 2 ^ (1 : ℝ) := by
      apply Real.rpow_lt_rpow_of_exponent_lt (by norm_num)
      rw [div_lt_one (by norm_num)]
      exact_mod_cast hi
    simpa using this
  set m := ⌊(p - 1) * 2 ^ 23⌋₊ with hm
  have hm0 : (m : ℝ) ≤ (p - 1) * 2 ^ 23 := Nat.floor_le (by nlinarith)
  have hm1 : (p - 1) * 2 ^ 23 < m + 1 := Nat.lt_floor_add_one _
  have hmlt : m < 2 ^ 23 := by
    have : (m : ℝ) < 2 ^ 23 := by nlinarith
    exact_mod_cast this
  have ht : (floorTable.pow2 i).toNat = 127 * 2 ^ 23 + m := by
    unfold floorTable
    simp only [BitVec.toNat_ofNat]
    rw [← hp, ← hm]
    apply Nat.mod_eq_of_lt
    omega
  have he : F32.expo (floorTable.pow2 i) = 127 := by unfold F32.expo; omega
  have hman : F32.man (floorTable.pow2 i) = m := by unfold F32.man; omega
  have hmsb : (floorTable.pow2 i).msb = false := by
    rw [BitVec.msb_eq_decide, ht]; simp; omega
  have hv := F32.val_posNormal (b := floorTable.pow2 i) ⟨hmsb, by omega, by omega⟩
  have hq : (((2 ^ 23 + m : ℕ) : ℚ) * 2 ^ 127 / 2 ^ 150) = ((2 ^ 23 + m : ℕ) : ℚ) / 2 ^ 23 := by
    field_simp
  rw [he, hman, hq] at hv
  have hmq : (m : ℚ) < 2 ^ 23 := by exact_mod_cast hmlt
  refine ⟨_, hv, ?_, ?_, ?_⟩
  · rw [le_div_iff₀ (by positivity)]
    push_cast
    have : (0 : ℚ) ≤ m := by positivity
    linarith
  · rw [div_lt_iff₀ (by positivity)]
    push_cast
    linarith
  · push_cast
    rw [abs_le]
    constructor
    · rw [le_sub_iff_add_le, le_div_iff₀ (by positivity)]
      norm_num at hm1 ⊢
      linarith
    · rw [sub_le_iff_le_add, div_le_iff₀ (by positivity)]
      norm_num at hm0 ⊢
      linarith

/-- The hypotheses of every theorem above hold together. -/
example : LogExact floorTable ∧ LogNear floorTable ∧ PowAccurate floorTable ∧ Rounding nearest :=
  ⟨rfl, LogExact.near rfl, floorTable_accurate, nearest.rounding⟩

/-- `fast_exp(100)` rounded to nearest is negative; `fast_exp(89)` is not a number. -/
example : (∃ y, fastExp nearest floorTable (.fin 100) = .ok (.fin y) ∧ y < 0) ∧
    fastExp nearest floorTable (.fin 89) = .ok .nan :=
  ⟨C49_positive_wraps nearest.rounding (LogExact.near (c := floorTable) rfl) floorTable_accurate (by norm_num)
    (by norm_num), C49_positive_nan nearest.rounding (LogExact.near (c := floorTable) rfl) floorTable_accurate
    (by norm_num) (by norm_num)⟩

end Dist
