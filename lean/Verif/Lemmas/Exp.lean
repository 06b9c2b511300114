import Mathlib.Analysis.Complex.ExponentialBounds
import Mathlib.Tactic.Linarith
import Mathlib.Tactic.Positivity
import Mathlib.Tactic.FieldSimp
import Mathlib.Tactic.Ring
import Mathlib.Tactic.GCongr
import Verif.Base.Rounded
import Verif.Spec.Exp

/-! # Lemmas about the model of `fast_exp` -/

namespace Dist.Exp

open Dist.Spec

theorem rint_near (x : ℝ) : |x - rint x| ≤ 1 / 2 := by
  have h0 := Int.floor_le x
  have h1 := Int.lt_floor_add_one x
  unfold rint
  split_ifs <;> push_cast <;> rw [abs_le] <;> constructor <;> linarith

theorem rint_le {x : ℝ} {n : ℤ} (h : x ≤ n) : rint x ≤ n := by
  have := rint_near x
  rw [abs_le] at this
  have h2 : (rint x : ℝ) < (n + 1 : ℤ) := by push_cast; linarith
  have := Int.cast_lt.1 h2
  omega

theorem le_rint {x : ℝ} {n : ℤ} (h : (n : ℝ) ≤ x) : n ≤ rint x := by
  have := rint_near x
  rw [abs_le] at this
  have h2 : ((n - 1 : ℤ) : ℝ) < (rint x : ℝ) := by push_cast; linarith
  have := Int.cast_lt.1 h2
  omega

/-- Within the `int` range the conversion is the nearest integer. -/
theorem cvtss_fin {x : ℝ} (h0 : -2 ^ 31 ≤ x) (h1 : x ≤ 2 ^ 31 - 1) : cvtss (.fin x) = rint x := by
  have a : (-2 ^ 31 : ℤ) ≤ rint x := le_rint (by push_cast; linarith)
  have b : rint x ≤ (2 ^ 31 - 1 : ℤ) := rint_le (by push_cast; linarith)
  unfold cvtss
  simp only
  rw [if_pos ⟨a, by omega⟩]

theorem cvtss_low {x : ℝ} (h : x ≤ -2 ^ 31) : cvtss (.fin x) = -2 ^ 31 := by
  have a : rint x ≤ (-2 ^ 31 : ℤ) := rint_le (by push_cast; linarith)
  unfold cvtss
  simp only
  split_ifs with hc
  · omega
  · rfl

theorem cvtss_high {x : ℝ} (h : 2 ^ 31 ≤ x) : cvtss (.fin x) = -2 ^ 31 := by
  have a : (2 ^ 31 : ℤ) ≤ rint x := le_rint (by push_cast; linarith)
  unfold cvtss
  simp only
  rw [if_neg (by omega)]

theorem cvtss_range (x : V) : -2 ^ 31 ≤ cvtss x ∧ cvtss x < 2 ^ 31 := by
  unfold cvtss
  split
  · split_ifs with h
    · exact h
    · norm_num
  · norm_num

/-- The fields of an entry of the table. -/
theorem entry {c : ExpVar} {i : ℕ} {q : ℚ} (hv : F32.val (c.pow2 i) = .fin q) (h1 : 1 ≤ q)
    (h2 : q < 2) : q = ((2 ^ 23 + F32.man (c.pow2 i) : ℕ) : ℚ) / 2 ^ 23 := by
  set b := c.pow2 i
  have hm := F32.man_lt b
  have he := F32.expo_lt b
  unfold F32.val at hv
  split_ifs at hv with a1 a2 a3
  · injection hv with hv
    exfalso
    have : 0 ≤ F32.magnitude b := by unfold F32.magnitude; split_ifs <;> positivity
    linarith
  · injection hv with hv
    unfold F32.magnitude at hv
    split_ifs at hv with a4
    · exfalso
      have : (F32.man b : ℚ) < 2 ^ 23 := by exact_mod_cast hm
      rw [← hv] at h1
      rw [le_div_iff₀ (by positivity)] at h1
      norm_num at h1 this
      linarith
    · have hn : (F32.man b : ℚ) < 2 ^ 23 := by exact_mod_cast hm
      have hn0 : (0 : ℚ) ≤ (F32.man b : ℚ) := by positivity
      have : F32.expo b = 127 := by
        rcases lt_trichotomy (F32.expo b) 127 with h | h | h
        · exfalso
          have hp : (2 : ℚ) ^ F32.expo b ≤ 2 ^ 126 := pow_le_pow_right₀ (by norm_num) (by omega)
          rw [← hv, le_div_iff₀ (by positivity)] at h1
          push_cast at h1
          have : (2 ^ 23 + (F32.man b : ℚ)) * 2 ^ F32.expo b
              ≤ (2 ^ 23 + (F32.man b : ℚ)) * 2 ^ 126 := by gcongr
          have h4 : (2 ^ 23 + (F32.man b : ℚ)) < 2 ^ 24 :=
            (add_lt_add_right hn (2 ^ 23)).trans_eq (by norm_num)
          have h5 : (2 ^ 23 + (F32.man b : ℚ)) * 2 ^ 126 < 2 ^ 24 * 2 ^ 126 := by gcongr
          rw [← pow_add] at h5
          linarith
        · exact h
        · exfalso
          have hp : (2 : ℚ) ^ 128 ≤ 2 ^ F32.expo b := pow_le_pow_right₀ (by norm_num) (by omega)
          rw [← hv, div_lt_iff₀ (by positivity)] at h2
          push_cast at h2
          have : (2 ^ 23 + (F32.man b : ℚ)) * 2 ^ 128
              ≤ (2 ^ 23 + (F32.man b : ℚ)) * 2 ^ F32.expo b := by gcongr
          norm_num at h2 this hn
          linarith
      rw [← hv, this]
      field_simp

/-- The word assembled for a reduced argument. -/
theorem assemble_toNat (c : ExpVar) (r : ℤ) (h : ShiftDefined r) :
    (assemble c r).toNat = (r / 2 ^ 10 + 127).toNat * 2 ^ 23 +
      F32.man (c.pow2 (r % 2 ^ 10).toNat) := by
  obtain ⟨h0, h1⟩ := h
  have ht : (c.tbl (r % 2 ^ 10).toNat).toNat = F32.man (c.pow2 (r % 2 ^ 10).toNat) := by
    unfold ExpVar.tbl F32.man
    rw [BitVec.toNat_and]
    have : (BitVec.ofNat 32 (2 ^ 23 - 1)).toNat = 2 ^ 23 - 1 := by decide
    rw [this, Nat.and_two_pow_sub_one_eq_mod]
  have hm := F32.man_lt (c.pow2 (r % 2 ^ 10).toNat)
  unfold assemble
  simp only
  generalize r / 2 ^ 10 + 127 = e at *
  obtain ⟨e, rfl⟩ := Int.eq_ofNat_of_zero_le h0
  have he : e * 2 ^ 23 < 2 ^ 32 := by exact_mod_cast h1
  rw [BitVec.toNat_or, ht, BitVec.toNat_shiftLeft]
  have : (BitVec.ofInt 32 (e : ℤ)).toNat = e := by
    rw [BitVec.ofInt_natCast, BitVec.toNat_ofNat]
    apply Nat.mod_eq_of_lt
    omega
  rw [this, Nat.shiftLeft_eq, Nat.mod_eq_of_lt he, ← Nat.shiftLeft_eq,
    ← Nat.shiftLeft_add_eq_or_of_lt hm, Nat.shiftLeft_eq]
  simp

/-- Exponent field, fraction and sign of the assembled word. -/
theorem assemble_fields (c : ExpVar) (r : ℤ) (h : ShiftDefined r) :
    F32.expo (assemble c r) = (r / 2 ^ 10 + 127).toNat % 256 ∧
    F32.man (assemble c r) = F32.man (c.pow2 (r % 2 ^ 10).toNat) ∧
    (assemble c r).msb = decide (256 ≤ r / 2 ^ 10 + 127) := by
  have ht := assemble_toNat c r h
  have hm := F32.man_lt (c.pow2 (r % 2 ^ 10).toNat)
  obtain ⟨h0, h1⟩ := h
  unfold F32.expo
  rw [show F32.man (assemble c r) = (assemble c r).toNat % 2 ^ 23 from rfl,
    BitVec.msb_eq_decide, ht]
  refine ⟨by omega, by omega, ?_⟩
  rw [decide_eq_decide]
  omega

theorem index_lt (r : ℤ) : (r % 2 ^ 10).toNat < 1024 := by omega

/-- With an exponent in the normal range the word stands for `± 2^u` times the table entry. -/
theorem assemble_normal {c : ExpVar} {r : ℤ} {q : ℚ} (h : ShiftDefined r)
    (hv : F32.val (c.pow2 (r % 2 ^ 10).toNat) = .fin q) (h1 : 1 ≤ q) (h2 : q < 2)
    (he0 : 1 ≤ r / 2 ^ 10 + 127) (he1 : r / 2 ^ 10 + 127 ≤ 254) :
    V.ofBits (assemble c r) = .fin ((2 : ℝ) ^ (r / 2 ^ 10) * q) := by
  obtain ⟨f1, f2, f3⟩ := assemble_fields c r h
  have hq := entry hv h1 h2
  have e1 : F32.expo (assemble c r) = (r / 2 ^ 10 + 127).toNat := by omega
  have hp : F32.PosNormal (assemble c r) := by
    refine ⟨?_, by omega, by omega⟩
    rw [f3]; simp; omega
  unfold V.ofBits
  rw [F32.val_posNormal hp, e1, f2]
  simp only
  congr 1
  rw [hq]
  have : (2 : ℝ) ^ (r / 2 ^ 10) = 2 ^ (r / 2 ^ 10 + 127).toNat / 2 ^ 127 := by
    rw [← zpow_natCast, Int.toNat_of_nonneg (by omega), zpow_add₀ (by norm_num)]
    norm_num
  rw [this]
  push_cast
  field_simp

theorem log2_bounds : 0.6931471803 < Real.log 2 ∧ Real.log 2 < 0.6931471808 :=
  ⟨Real.log_two_gt_d9, Real.log_two_lt_d9⟩

/-- `e^x` split at a multiple of `log 2 / 1024`. -/
theorem exp_split (x : ℝ) (r : ℤ) :
    Real.exp x = Real.exp (x - r * (Real.log 2 / 1024)) *
      (2 ^ (r / 2 ^ 10) * 2 ^ (((r % 2 ^ 10).toNat : ℝ) / 1024)) := by
  have h2 : (2 : ℝ) = Real.exp (Real.log 2) := (Real.exp_log (by norm_num)).symm
  have hz : (2 : ℝ) ^ (r / 2 ^ 10) = Real.exp (((r / 2 ^ 10 : ℤ) : ℝ) * Real.log 2) := by
    rw [← Real.rpow_intCast, Real.rpow_def_of_pos (by norm_num), mul_comm]
  have hr : (2 : ℝ) ^ (((r % 2 ^ 10).toNat : ℝ) / 1024) =
      Real.exp ((((r % 2 ^ 10).toNat : ℝ) / 1024) * Real.log 2) := by
    rw [Real.rpow_def_of_pos (by norm_num), mul_comm]
  rw [hz, hr, ← Real.exp_add, ← Real.exp_add]
  congr 1
  have hn : (((r % 2 ^ 10).toNat : ℝ)) = ((r % 2 ^ 10 : ℤ) : ℝ) := by
    have : (((r % 2 ^ 10).toNat : ℤ) : ℝ) = ((r % 2 ^ 10 : ℤ) : ℝ) := by
      rw [Int.toNat_of_nonneg (by omega)]
    exact_mod_cast this
  have hd : (r : ℝ) = 2 ^ 10 * ((r / 2 ^ 10 : ℤ) : ℝ) + ((r % 2 ^ 10 : ℤ) : ℝ) := by
    have h := (Int.mul_ediv_add_emod r (2 ^ 10)).symm
    calc (r : ℝ) = ((2 ^ 10 * (r / 2 ^ 10) + r % 2 ^ 10 : ℤ) : ℝ) := by rw [← h]
      _ = _ := by push_cast; ring
  rw [hn, hd]
  ring

/-- `(1+t) e^{-t}` is `1` up to `t²`. -/
theorem one_add_mul_exp_neg {t : ℝ} (ht : |t| ≤ 1) : |(1 + t) * Real.exp (-t) - 1| ≤ t ^ 2 := by
  have h := Real.abs_exp_sub_one_sub_id_le (x := -t) (by rwa [abs_neg])
  have h0 : -t + 1 ≤ Real.exp (-t) := Real.add_one_le_exp _
  rw [abs_le] at *
  have h1 : 0 ≤ 1 + t := by linarith
  have h2 : Real.exp (-t) ≤ 1 - t + t ^ 2 := by nlinarith
  constructor
  · nlinarith [mul_le_mul_of_nonneg_left h0 h1]
  · nlinarith [mul_le_mul_of_nonneg_left h2 h1, sq_nonneg t]

/-- The error of the whole computation from the errors of its parts: `T` is the argument left
after reduction, `E` the relative error of the floating-point factors in front. -/
theorem combine {x f q d E : ℝ} {r : ℤ} {T : ℝ} (hT : T = x - r * (Real.log 2 / 1024))
    (hT1 : |T| ≤ 1) (hq : |q - 2 ^ (((r % 2 ^ 10).toNat : ℝ) / 1024)| ≤ d) (hd : 0 ≤ d)
    (hf : |f - (1 + T)| ≤ E * Real.exp T) (hE : 0 ≤ E) :
    |f * (2 ^ (r / 2 ^ 10) * q) - Real.exp x| ≤
      ((1 + E + T ^ 2) * (1 + d) - 1) * Real.exp x := by
  set p : ℝ := 2 ^ (((r % 2 ^ 10).toNat : ℝ) / 1024) with hp
  set w : ℝ := (2 : ℝ) ^ (r / 2 ^ 10) with hw
  have hp1 : 1 ≤ p := Real.one_le_rpow (by norm_num) (by positivity)
  have hw0 : 0 < w := by positivity
  have hx := exp_split x r
  rw [← hT, ← hp, ← hw] at hx
  set e := Real.exp T with he
  have he0 : 0 < e := Real.exp_pos T
  have h1 : |f - e| ≤ (E + T ^ 2) * e := by
    have h := one_add_mul_exp_neg hT1
    have h' : |(1 + T) - e| ≤ T ^ 2 * e := by
      have : (1 + T) - e = ((1 + T) * Real.exp (-T) - 1) * e := by
        rw [he, sub_mul, mul_assoc, ← Real.exp_add]; simp
      rw [this, abs_mul, abs_of_pos he0]
      gcongr
    calc |f - e| = |(f - (1 + T)) + ((1 + T) - e)| := by congr 1; ring
      _ ≤ |f - (1 + T)| + |(1 + T) - e| := abs_add_le _ _
      _ ≤ _ := by rw [add_mul]; gcongr
  have h2 : |q - p| ≤ d * p := hq.trans (by nlinarith)
  rw [hx]
  have : f * (w * q) - e * (w * p) = w * ((f - e) * (q - p) + (f - e) * p + e * (q - p)) := by ring
  rw [this, abs_mul, abs_of_pos hw0]
  have h3 : |(f - e) * (q - p) + (f - e) * p + e * (q - p)| ≤
      ((E + T ^ 2) * e) * (d * p) + ((E + T ^ 2) * e) * p + e * (d * p) := by
    have a1 : |(f - e) * (q - p)| ≤ ((E + T ^ 2) * e) * (d * p) := by
      rw [abs_mul]; gcongr
    have a2 : |(f - e) * p| ≤ ((E + T ^ 2) * e) * p := by
      rw [abs_mul, abs_of_pos (by linarith : 0 < p)]; gcongr
    have a3 : |e * (q - p)| ≤ e * (d * p) := by
      rw [abs_mul, abs_of_pos he0]; gcongr
    exact (abs_add_le _ _).trans (add_le_add ((abs_add_le _ _).trans (add_le_add a1 a2)) a3)
  calc w * _ ≤ w * _ := mul_le_mul_of_nonneg_left h3 hw0.le
    _ = _ := by ring

/-- Small arguments are not clamped. -/
theorem clamp_small {x : ℝ} (h0 : 0 ≤ rint x) (h1 : x ≤ 1118830592) : clamp (.fin x) = .fin x := by
  have a : rint x ≤ 1118830592 := rint_le (by exact_mod_cast h1)
  have h0' : (0 : ℝ) ≤ rint x := by exact_mod_cast h0
  have := abs_le.1 (rint_near x)
  have hc : cvtss (.fin x) = rint x := cvtss_fin (by linarith) (by linarith)
  unfold clamp
  simp only [hc]
  rw [if_neg]
  rw [Int.emod_eq_of_lt h0 (by omega)]
  unfold f88
  omega

/-- The clamp leaves the interval alone, clamped or not. -/
theorem clamp_inside {x : ℝ} (h0 : -88 ≤ x) (h1 : x ≤ 88) : clamp (.fin x) = .fin x := by
  unfold clamp
  simp only
  split_ifs with h
  · unfold V.minss V.maxss V.lt
    by_cases h2 : x < 88
    · simp only [h2, decide_true, if_true]
      by_cases h3 : -88 < x
      · simp [h3]
      · have : x = -88 := by linarith
        simp [this]
    · have : x = 88 := by linarith
      subst this
      norm_num
  · rfl

/-- Negative arguments above `-1028653056` are clamped to `-88`. -/
theorem clamp_negative {x : ℝ} (h0 : -1028653055 ≤ x) (h1 : x < -88) :
    clamp (.fin x) = .fin (-88) := by
  have a : rint x ≤ -88 := rint_le (by push_cast; linarith)
  have b : -1028653055 ≤ rint x := le_rint (by push_cast; linarith)
  have hc : cvtss (.fin x) = rint x := cvtss_fin (by linarith) (by linarith)
  unfold clamp
  simp only [hc]
  rw [if_pos]
  · unfold V.minss V.maxss V.lt
    have : x < 88 := by linarith
    simp only [this, decide_true, if_true]
    rw [if_neg]
    simp
    linarith
  · unfold f88; omega

/-- Evaluation once the reduced argument is known to select a finite factor. -/
theorem machine_fin {rnd : ℝ → ℝ} {c : ExpVar} {x w : ℝ} {r : ℤ} (hr : reduce rnd c (.fin x) = r)
    (hw : V.ofBits (assemble c r) = .fin w) :
    machine rnd c (.fin x) =
      .fin (rnd (rnd (1 + rnd (x + -rnd (rnd r * c.b rnd))) * w)) := by
  unfold machine
  simp only [hr, hw, V.mul, V.sub, V.neg, V.add]

/-- `logf(2)` lies in a small interval. -/
theorem LogExact.near {c : ExpVar} (h : LogExact c) : LogNear c := by
  unfold LogExact at h
  unfold LogNear
  rw [h]; norm_num

variable {rnd : ℝ → ℝ}

theorem eta : (2⁻¹ : ℝ) ^ 24 < 6 / 10 ^ 8 := by norm_num

theorem omega_small : (2⁻¹ : ℝ) ^ 150 < 1 / 10 ^ 40 := by norm_num

/-- The factor `a` is close to `1024 / log 2`. -/
theorem a_near (h : Rounding rnd) {c : ExpVar} (hl : LogNear c) :
    |c.a rnd - 1024 / Real.log 2| ≤ 1.54 / 10 ^ 4 := by
  obtain ⟨l0, l1⟩ := log2_bounds
  unfold LogNear at hl
  have hl' := abs_le.1 hl
  have e25 : (2⁻¹ : ℝ) ^ 25 < 3 / 10 ^ 8 := by norm_num
  have L0 : 0.6931471 < c.log2 := by linarith
  have he := h.error (1024 / c.log2)
  have hpos : 0 < 1024 / c.log2 := by positivity
  rw [abs_of_pos hpos] at he
  have hup : 1024 / c.log2 ≤ 1477.33 := by
    rw [div_le_iff₀ (by linarith)]; linarith
  have h1 : |1024 / c.log2 - 1024 / Real.log 2| ≤ 6.4 / 10 ^ 5 := by
    have : 1024 / c.log2 - 1024 / Real.log 2 =
        1024 * (Real.log 2 - c.log2) / (c.log2 * Real.log 2) := by
      field_simp
    rw [this, abs_div, abs_mul, abs_sub_comm, abs_of_pos (by positivity : (0:ℝ) < 1024),
      abs_of_pos (by positivity : 0 < c.log2 * Real.log 2), div_le_iff₀ (by positivity)]
    have hm : 0.48 ≤ c.log2 * Real.log 2 := by nlinarith
    calc 1024 * |c.log2 - Real.log 2| ≤ 1024 * 2⁻¹ ^ 25 := by gcongr
      _ ≤ 6.4 / 10 ^ 5 * 0.48 := by norm_num
      _ ≤ _ := by gcongr
  have h2 : |c.a rnd - 1024 / c.log2| ≤ 8.9 / 10 ^ 5 := by
    refine he.trans ?_
    have := mul_le_mul_of_nonneg_left hup (by positivity : (0:ℝ) ≤ 2⁻¹ ^ 24)
    have a1 : (2⁻¹ : ℝ) ^ 24 * 1477.33 + 2⁻¹ ^ 150 ≤ 8.9 / 10 ^ 5 := by norm_num
    linarith
  have := abs_sub_le (c.a rnd) (1024 / c.log2) (1024 / Real.log 2)
  linarith

/-- The factor `b` is close to `log 2 / 1024`. -/
theorem b_near (h : Rounding rnd) {c : ExpVar} (hl : LogNear c) :
    |c.b rnd - Real.log 2 / 1024| ≤ 7 / 10 ^ 11 := by
  obtain ⟨l0, l1⟩ := log2_bounds
  unfold LogNear at hl
  have hl' := abs_le.1 hl
  have e25 : (2⁻¹ : ℝ) ^ 25 < 3 / 10 ^ 8 := by norm_num
  have L0 : 0.6931471 < c.log2 := by linarith
  have he := h.error (c.log2 / 1024)
  rw [abs_of_pos (by linarith : 0 < c.log2 / 1024)] at he
  have h1 : |c.log2 / 1024 - Real.log 2 / 1024| ≤ 2⁻¹ ^ 25 / 1024 := by
    rw [← sub_div, abs_div, abs_of_pos (by positivity : (0:ℝ) < 1024)]
    gcongr
  have h2 : |c.b rnd - c.log2 / 1024| ≤ 2⁻¹ ^ 24 * (0.6931473 / 1024) + 2⁻¹ ^ 150 := by
    refine he.trans ?_
    gcongr
    linarith
  have := abs_sub_le (c.b rnd) (c.log2 / 1024) (Real.log 2 / 1024)
  have a1 : (2⁻¹ : ℝ) ^ 24 * (0.6931473 / 1024) + 2⁻¹ ^ 150 + 2⁻¹ ^ 25 / 1024 ≤ 7 / 10 ^ 11 := by
    norm_num
  linarith

/-- The product with `a`, before it is converted. -/
theorem product_near (h : Rounding rnd) {c : ExpVar} (hl : LogNear c) (x : ℝ) :
    |rnd (x * c.a rnd) - x * (1024 / Real.log 2)| ≤ |x| * (2.5 / 10 ^ 4) + 1 / 10 ^ 40 := by
  obtain ⟨l0, l1⟩ := log2_bounds
  have ha := a_near h hl
  have hup : 1024 / Real.log 2 ≤ 1477.33 := by
    rw [div_le_iff₀ (by linarith)]; linarith
  have hpos : 0 < 1024 / Real.log 2 := by positivity
  have ha' := abs_le.1 ha
  have hav : |c.a rnd| ≤ 1477.34 := by rw [abs_le]; constructor <;> linarith
  have h1 := h.error (x * c.a rnd)
  rw [abs_mul] at h1
  have h2 : |x * c.a rnd - x * (1024 / Real.log 2)| ≤ |x| * (1.54 / 10 ^ 4) := by
    rw [← mul_sub, abs_mul]; gcongr
  have h3 : (2⁻¹ : ℝ) ^ 24 * (|x| * |c.a rnd|) ≤ |x| * (8.9 / 10 ^ 5) := by
    have : |x| * |c.a rnd| ≤ |x| * 1477.34 := by gcongr
    have h4 : (2⁻¹ : ℝ) ^ 24 * (|x| * |c.a rnd|) ≤ 6 / 10 ^ 8 * (|x| * 1477.34) := by
      gcongr; exact eta.le
    have := abs_nonneg x
    linarith
  have := abs_sub_le (rnd (x * c.a rnd)) (x * c.a rnd) (x * (1024 / Real.log 2))
  have := omega_small
  have := abs_nonneg x
  linarith

/-- The reduced argument: `r` is near `x * 1024 / log 2`, and exceeds an integer bound that the
quotient exceeds with some room. -/
theorem reduce_near (h : Rounding rnd) {c : ExpVar} (hl : LogNear c) {x : ℝ} (hx : |x| ≤ 10 ^ 6) :
    ∃ r : ℤ, reduce rnd c (.fin x) = r ∧
      |x * (1024 / Real.log 2) - r| ≤ 1 / 2 + |x| * (2.5 / 10 ^ 4) + 1 / 10 ^ 40 := by
  obtain ⟨l0, l1⟩ := log2_bounds
  have hp := product_near h hl x
  have hup : 1024 / Real.log 2 ≤ 1477.33 := by
    rw [div_le_iff₀ (by linarith)]; linarith
  have hpos : 0 < 1024 / Real.log 2 := by positivity
  have hb : |x * (1024 / Real.log 2)| ≤ 10 ^ 6 * 1477.33 := by
    rw [abs_mul, abs_of_pos hpos]; gcongr
  have hb' := abs_le.1 hb
  have hp' := abs_le.1 hp
  refine ⟨rint (rnd (x * c.a rnd)), ?_, ?_⟩
  · unfold reduce
    simp only [V.mul]
    apply cvtss_fin
    · linarith
    · linarith
  · have h1 := rint_near (rnd (x * c.a rnd))
    have := abs_sub_le (x * (1024 / Real.log 2)) (rnd (x * c.a rnd)) (rint (rnd (x * c.a rnd)))
    rw [abs_sub_comm] at hp
    linarith

/-- In terms of the remainder `x - r log 2 / 1024`. -/
theorem remainder_near {x : ℝ} {r : ℤ} {d : ℝ} (h : |x * (1024 / Real.log 2) - r| ≤ d) :
    |x - r * (Real.log 2 / 1024)| ≤ d * (0.6931471808 / 1024) := by
  obtain ⟨l0, l1⟩ := log2_bounds
  have hd : 0 ≤ d := (abs_nonneg _).trans h
  have hlp : 0 < Real.log 2 := by linarith
  have : x - r * (Real.log 2 / 1024) = (x * (1024 / Real.log 2) - r) * (Real.log 2 / 1024) := by
    field_simp
  rw [this, abs_mul, abs_of_pos (by positivity : 0 < Real.log 2 / 1024)]
  gcongr

/-- Integer bounds for the reduced argument from bounds on `x`. -/
theorem reduce_bounds (h : Rounding rnd) {c : ExpVar} (hl : LogNear c) {x : ℝ} (hx : |x| ≤ 300) :
    ∃ r : ℤ, reduce rnd c (.fin x) = r ∧ |x - r * (Real.log 2 / 1024)| ≤ 1 / 10 ^ 3 := by
  obtain ⟨r, hr, hn⟩ := reduce_near h hl (x := x) (by linarith)
  refine ⟨r, hr, (remainder_near hn).trans ?_⟩
  have : |x| * (2.5 / 10 ^ 4) ≤ 300 * (2.5 / 10 ^ 4) := by gcongr
  have : (1 : ℝ) / 10 ^ 40 ≤ 1 / 10 ^ 10 := by norm_num
  linarith

/-- The factor `1 + t` for arguments of moderate size. -/
theorem factor_near (h : Rounding rnd) {c : ExpVar} (hl : LogNear c) {x : ℝ} {r : ℤ}
    (hx : |x| ≤ 300) (hT : |x - r * (Real.log 2 / 1024)| ≤ 1 / 10 ^ 3) :
    1 / 2 ≤ rnd (1 + rnd (x + -rnd (rnd r * c.b rnd))) ∧
      rnd (1 + rnd (x + -rnd (rnd r * c.b rnd))) ≤ 2 := by
  obtain ⟨l0, l1⟩ := log2_bounds
  have hx' := abs_le.1 hx
  have hT' := abs_le.1 hT
  have hpos : 0 < Real.log 2 / 1024 := by linarith
  have hl6 : (6.7 : ℝ) / 10 ^ 4 ≤ Real.log 2 / 1024 := by linarith
  have r1 : r ≤ 500000 := by
    by_contra hc
    have : ((500000 : ℤ) : ℝ) < r := by exact_mod_cast (by omega : 500000 < r)
    push_cast at this
    nlinarith
  have r0 : -500000 ≤ r := by
    by_contra hc
    have : (r : ℝ) < ((-500000 : ℤ) : ℝ) := by exact_mod_cast (by omega : r < -500000)
    push_cast at this
    nlinarith
  have hrr : rnd (r : ℝ) = r := by
    have := h.exact r 0 (by rw [abs_le]; constructor <;> omega) (by norm_num) (by norm_num)
    simpa using this
  have hrabs : |(r : ℝ)| ≤ 500000 := by
    rw [abs_le]
    constructor
    · have : ((-500000 : ℤ) : ℝ) ≤ r := by exact_mod_cast r0
      push_cast at this; linarith
    · have : (r : ℝ) ≤ (500000 : ℤ) := by exact_mod_cast r1
      push_cast at this; linarith
  rw [hrr]
  have hb := b_near h hl
  have m1 : |r * c.b rnd - r * (Real.log 2 / 1024)| ≤ 1 / 10 ^ 4 := by
    rw [← mul_sub, abs_mul]
    calc |(r : ℝ)| * _ ≤ 500000 * (7 / 10 ^ 11) := by gcongr
      _ ≤ _ := by norm_num
  have m1' := abs_le.1 m1
  have m0 : |r * c.b rnd| ≤ 301 := by
    rw [abs_le]; constructor <;> linarith
  have m2 := abs_le.1 (h.error (r * c.b rnd))
  have e0 := eta
  have o0 := omega_small
  have g1 : (2⁻¹ : ℝ) ^ 24 * |r * c.b rnd| ≤ 6 / 10 ^ 8 * 301 := by gcongr
  set M := rnd (r * c.b rnd)
  have m3 : |x + -M| ≤ 0.01 := by rw [abs_le]; constructor <;> linarith
  have m4 := abs_le.1 (h.error (x + -M))
  have g2 : (2⁻¹ : ℝ) ^ 24 * |x + -M| ≤ 6 / 10 ^ 8 * 0.01 := by gcongr
  have m3' := abs_le.1 m3
  set t := rnd (x + -M)
  have m5 : |1 + t| ≤ 1.1 := by rw [abs_le]; constructor <;> linarith
  have m6 := abs_le.1 (h.error (1 + t))
  have g3 : (2⁻¹ : ℝ) ^ 24 * |1 + t| ≤ 6 / 10 ^ 8 * 1.1 := by gcongr
  constructor <;> linarith

/-- From real bounds to integer bounds on `r`. -/
theorem r_le {x : ℝ} {r n : ℤ} (hT : |x - r * (Real.log 2 / 1024)| ≤ 1 / 10 ^ 3) (hn : 0 ≤ n)
    (hx : x + 1 / 10 ^ 3 < (n + 1) * (0.6931471803 / 1024)) : r ≤ n := by
  obtain ⟨l0, l1⟩ := log2_bounds
  by_contra hc
  have h1 : ((n + 1 : ℤ) : ℝ) ≤ r := by exact_mod_cast (by omega : n + 1 ≤ r)
  push_cast at h1
  have h2 : (0 : ℝ) ≤ n := by exact_mod_cast hn
  have := (abs_le.1 hT).1
  have h3 : ((n : ℝ) + 1) * (0.6931471803 / 1024) ≤ r * (Real.log 2 / 1024) :=
    mul_le_mul h1 (by linarith) (by norm_num) (by linarith)
  linarith

theorem le_r {x : ℝ} {r n : ℤ} (hT : |x - r * (Real.log 2 / 1024)| ≤ 1 / 10 ^ 3) (hn : 0 < n)
    (hx : (n - 1) * (0.6931471808 / 1024) < x - 1 / 10 ^ 3) : n ≤ r := by
  obtain ⟨l0, l1⟩ := log2_bounds
  by_contra hc
  have h1 : (r : ℝ) ≤ ((n - 1 : ℤ) : ℝ) := by exact_mod_cast (by omega : r ≤ n - 1)
  push_cast at h1
  have h2 : (1 : ℝ) ≤ n := by exact_mod_cast hn
  have := (abs_le.1 hT).2
  have h3 : (r : ℝ) * (Real.log 2 / 1024) ≤ ((n : ℝ) - 1) * (Real.log 2 / 1024) :=
    mul_le_mul_of_nonneg_right h1 (by linarith)
  have h4 : ((n : ℝ) - 1) * (Real.log 2 / 1024) ≤ ((n : ℝ) - 1) * (0.6931471808 / 1024) :=
    mul_le_mul_of_nonneg_left (by linarith) (by linarith)
  linarith

/-- The same for negative arguments. -/
theorem neg_le_r {x : ℝ} {r n : ℤ} (hT : |x - r * (Real.log 2 / 1024)| ≤ 1 / 10 ^ 3) (hn : 0 ≤ n)
    (hx : -x + 1 / 10 ^ 3 < (n + 1) * (0.6931471803 / 1024)) : -n ≤ r := by
  have : -r ≤ n := by
    apply r_le (x := -x) _ hn hx
    rw [← abs_neg]
    convert hT using 2
    push_cast; ring
  omega

theorem r_le_neg {x : ℝ} {r n : ℤ} (hT : |x - r * (Real.log 2 / 1024)| ≤ 1 / 10 ^ 3) (hn : 0 < n)
    (hx : (n - 1) * (0.6931471808 / 1024) < -x - 1 / 10 ^ 3) : r ≤ -n := by
  have : n ≤ -r := by
    apply le_r (x := -x) _ hn hx
    rw [← abs_neg]
    convert hT using 2
    push_cast; ring
  omega

theorem magnitude_nonneg (b : BitVec 32) : 0 ≤ F32.magnitude b := by
  unfold F32.magnitude; split_ifs <;> positivity

theorem rnd_zero (h : Rounding rnd) : rnd 0 = 0 := by
  have := h.exact 0 0 (by norm_num) (by norm_num) (by norm_num)
  simpa using this

/-- What follows an argument that is reduced to the indefinite integer: the shift is undefined. -/
theorem not_shift_min : ¬ ShiftDefined (-2 ^ 31) := by decide

theorem assemble_min (c : ExpVar) :
    F32.expo (assemble c (-2 ^ 31)) = 127 ∧ (assemble c (-2 ^ 31)).msb = false := by
  have h1 : (BitVec.ofInt 32 (-2 ^ 31 / 2 ^ 10 + 127) <<< 23) = 0x3f800000#32 := by decide
  have h2 : ((-2 ^ 31 : ℤ) % 2 ^ 10).toNat = 0 := by decide
  have hm : (c.tbl 0).toNat < 2 ^ 23 := by
    unfold ExpVar.tbl
    rw [BitVec.toNat_and]
    exact lt_of_le_of_lt Nat.and_le_right (by decide)
  have ht : (assemble c (-2 ^ 31)).toNat = 127 * 2 ^ 23 + (c.tbl 0).toNat := by
    unfold assemble
    simp only
    rw [h1, h2, BitVec.toNat_or]
    have : (0x3f800000#32).toNat = 127 <<< 23 := by decide
    rw [this, ← Nat.shiftLeft_add_eq_or_of_lt hm, Nat.shiftLeft_eq]
  unfold F32.expo
  rw [BitVec.msb_eq_decide, ht]
  constructor
  · omega
  · simp; omega

end Dist.Exp
