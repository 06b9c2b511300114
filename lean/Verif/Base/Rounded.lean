import Mathlib.Analysis.SpecialFunctions.Log.Base
import Mathlib.Analysis.SpecialFunctions.Gamma.Basic
import Mathlib.Analysis.SpecialFunctions.Sqrt
import Mathlib.Analysis.SpecialFunctions.Pow.Real
import Mathlib.Algebra.Order.Floor.Ring
import Mathlib.Algebra.Ring.Int.Parity
import Mathlib.Data.Int.Log
import Verif.Base.FloatOps

/-!
# Real arithmetic with a rounding after every operation

`RR rnd` is the instance of `FloatOps` in which each operation computes the exact real
result and then applies `rnd`.  `Rounding rnd` collects what the theorems need of the
rounding; `nearest` is rounding to nearest in single precision without overflow, and
satisfies it.
-/

namespace Dist

structure RR (rnd : ℝ → ℝ) where
  val : ℝ

namespace RR

open Classical in
noncomputable instance (rnd : ℝ → ℝ) : FloatOps (RR rnd) where
  add a b := ⟨rnd (a.val + b.val)⟩
  sub a b := ⟨rnd (a.val - b.val)⟩
  mul a b := ⟨rnd (a.val * b.val)⟩
  div a b := ⟨rnd (a.val / b.val)⟩
  neg a := ⟨-a.val⟩
  ofInt n := ⟨rnd n⟩
  lit n d := ⟨rnd ((n : ℝ) / (d : ℝ))⟩
  lt a b := decide (a.val < b.val)
  le a b := decide (a.val ≤ b.val)
  log a := ⟨rnd (Real.log a.val)⟩
  exp a := ⟨rnd (Real.exp a.val)⟩
  pow a b := ⟨rnd (a.val ^ b.val)⟩
  sqrt a := ⟨rnd (Real.sqrt a.val)⟩
  lgamma a := ⟨rnd (Real.log (Real.Gamma a.val))⟩
  lgammaNu a := ⟨rnd (Real.log (Real.Gamma (a.val / 2 + 1 / 2)) - Real.log (Real.Gamma (a.val / 2)))⟩
  logFactorial n := ⟨rnd (Real.log (Nat.factorial n))⟩
  pi := ⟨rnd Real.pi⟩
  logPi := ⟨rnd (Real.log Real.pi)⟩

end RR

/-- What is used of a rounding to single precision. -/
structure Rounding (rnd : ℝ → ℝ) : Prop where
  mono : Monotone rnd
  /-- numbers with at most 24 significant bits are not changed -/
  exact : ∀ (m : ℤ) (e : ℤ), |m| ≤ 2 ^ 24 → -149 ≤ e → e ≤ 103 → rnd (m * 2 ^ e) = m * 2 ^ e
  /-- relative error half an ulp; absolute error `2^-150` among the subnormal numbers -/
  error : ∀ x : ℝ, |rnd x - x| ≤ 2⁻¹ ^ 24 * |x| + 2⁻¹ ^ 150

/-- Without rounding. -/
theorem Rounding.id : Rounding (fun x => x) where
  mono := fun _ _ h => h
  exact := fun _ _ _ _ _ => rfl
  error := fun x => by simp; positivity

/-- Exponent of the last bit of a single-precision number next to `x`. -/
noncomputable def quantum (x : ℝ) : ℤ := max (Int.log 2 |x| - 23) (-149)

/-- The nearest integer, ties to even. -/
noncomputable def roundEven (x : ℝ) : ℤ :=
  if x - ⌊x⌋ < 1 / 2 ∨ x - ⌊x⌋ = 1 / 2 ∧ Even ⌊x⌋ then ⌊x⌋ else ⌊x⌋ + 1

namespace roundEven

theorem cases (x : ℝ) : (roundEven x = ⌊x⌋ ∧ x ≤ ⌊x⌋ + 1 / 2) ∨
    (roundEven x = ⌊x⌋ + 1 ∧ (⌊x⌋ : ℝ) + 1 / 2 ≤ x) := by
  unfold roundEven
  split_ifs with h
  · left
    refine ⟨rfl, ?_⟩
    rcases h with h | ⟨h, -⟩ <;> linarith
  · right
    refine ⟨rfl, ?_⟩
    push Not at h
    linarith [h.1]

theorem abs_sub (x : ℝ) : |x - roundEven x| ≤ 1 / 2 := by
  have h1 := Int.floor_le x
  have h2 := Int.lt_floor_add_one x
  rw [abs_le]
  rcases cases x with ⟨h, h3⟩ | ⟨h, h3⟩ <;> rw [h] <;> push_cast <;> constructor <;> linarith

theorem intCast (n : ℤ) : roundEven n = n := by
  unfold roundEven
  rw [Int.floor_intCast, if_pos (Or.inl (by simp))]

@[simp] theorem zero : roundEven 0 = 0 := by simpa using intCast 0

theorem mono : Monotone roundEven := by
  intro x y h
  rcases (Int.floor_mono h).lt_or_eq with hf | hf
  · have h1 : roundEven x ≤ ⌊x⌋ + 1 := by rcases cases x with ⟨h, -⟩ | ⟨h, -⟩ <;> omega
    have h2 : ⌊y⌋ ≤ roundEven y := by rcases cases y with ⟨h, -⟩ | ⟨h, -⟩ <;> omega
    omega
  · unfold roundEven
    rw [← hf]
    split_ifs with h1 h2 h2
    · exact le_rfl
    · omega
    · exfalso
      apply h1
      rcases h2 with h2 | ⟨h2, h3⟩
      · left; linarith
      · rcases lt_or_eq_of_le (show x - ⌊x⌋ ≤ 1 / 2 by linarith) with h4 | h4
        · exact Or.inl h4
        · exact Or.inr ⟨h4, h3⟩
    · exact le_rfl

theorem le_int {x : ℝ} {n : ℤ} (h : x ≤ n) : roundEven x ≤ n := by
  rw [← intCast n]; exact mono h

theorem int_le {x : ℝ} {n : ℤ} (h : (n : ℝ) ≤ x) : n ≤ roundEven x := by
  rw [← intCast n]; exact mono h

theorem eq_of {x : ℝ} {n : ℤ} (h : |x - n| < 1 / 2) : roundEven x = n := by
  have h1 := abs_sub x
  have h2 : |(roundEven x : ℝ) - n| < 1 := by
    calc |(roundEven x : ℝ) - n| = |(x - n) - (x - roundEven x)| := by congr 1; ring
      _ ≤ |x - n| + |x - roundEven x| := _root_.abs_sub _ _
      _ < _ := by linarith
  have h3 : |roundEven x - n| < 1 := by
    have : ((|roundEven x - n| : ℤ) : ℝ) < ((1 : ℤ) : ℝ) := by push_cast; exact h2
    exact_mod_cast this
  have := Int.abs_lt_one_iff.1 h3
  omega

end roundEven

/-- Rounding to nearest, ties to even, in single precision (without overflow). -/
noncomputable def nearest (x : ℝ) : ℝ := roundEven (x / 2 ^ quantum x) * 2 ^ quantum x

namespace nearest

theorem quantum_neg (x : ℝ) : quantum (-x) = quantum x := by simp [quantum]

theorem error (x : ℝ) : |nearest x - x| ≤ 2⁻¹ ^ 24 * |x| + 2⁻¹ ^ 150 := by
  by_cases hx : x = 0
  · subst hx; simp [nearest]
  unfold nearest
  have hq : (0 : ℝ) < 2 ^ quantum x := by positivity
  have h1 : |(roundEven (x / 2 ^ quantum x) : ℝ) * 2 ^ quantum x - x| ≤ 1 / 2 * 2 ^ quantum x := by
    have h := roundEven.abs_sub (x / 2 ^ quantum x)
    rw [abs_sub_comm] at h
    calc |(roundEven (x / 2 ^ quantum x) : ℝ) * 2 ^ quantum x - x|
        = |(roundEven (x / 2 ^ quantum x) : ℝ) - x / 2 ^ quantum x| * 2 ^ quantum x := by
          rw [← abs_of_pos hq, ← abs_mul, abs_of_pos hq, sub_mul, div_mul_cancel₀ _ hq.ne']
      _ ≤ _ := by gcongr
  refine h1.trans ?_
  unfold quantum
  rcases le_total (Int.log 2 |x| - 23) (-149) with h | h
  · rw [max_eq_right h]
    have : (1 / 2 : ℝ) * 2 ^ (-149 : ℤ) = 2⁻¹ ^ 150 := by
      rw [zpow_neg, ← zpow_natCast]; norm_num
    rw [this]
    have : 0 ≤ (2⁻¹ : ℝ) ^ 24 * |x| := by positivity
    linarith
  · rw [max_eq_left h]
    have h2 := Int.zpow_log_le_self (b := 2) (r := |x|) (by norm_num) (abs_pos.mpr hx)
    push_cast at h2
    have : (1 / 2 : ℝ) * 2 ^ (Int.log 2 |x| - 23) = 2⁻¹ ^ 24 * 2 ^ Int.log 2 |x| := by
      rw [zpow_sub₀ (by norm_num)]
      norm_num
      ring
    rw [this]
    have : (0 : ℝ) ≤ 2⁻¹ ^ 150 := by positivity
    have : (2⁻¹ : ℝ) ^ 24 * 2 ^ Int.log 2 |x| ≤ 2⁻¹ ^ 24 * |x| := by gcongr
    linarith

theorem exact_quantum {x : ℝ} {n : ℤ} (h : x = n * 2 ^ quantum x) : nearest x = x := by
  have hq : (0 : ℝ) < 2 ^ quantum x := by positivity
  unfold nearest
  have : x / 2 ^ quantum x = n := by rw [div_eq_iff hq.ne', ← h]
  rw [this, roundEven.intCast, ← h]

theorem log_lt {x : ℝ} {k : ℤ} (hx : x ≠ 0) (h : |x| < 2 ^ k) : Int.log 2 |x| < k := by
  by_contra hk
  have h2 := Int.zpow_log_le_self (b := 2) (r := |x|) (by norm_num) (abs_pos.mpr hx)
  push_cast at h2
  have h3 : (2 : ℝ) ^ k ≤ 2 ^ Int.log 2 |x| := zpow_le_zpow_right₀ (by norm_num) (by omega)
  linarith

theorem exact_of_le {m e : ℤ} (hm : |m| ≤ 2 ^ 24) (he : -149 ≤ e) :
    nearest ((m : ℝ) * 2 ^ e) = (m : ℝ) * 2 ^ e := by
  by_cases hm0 : m = 0
  · subst hm0; simp [nearest]
  have hx : (m : ℝ) * 2 ^ e ≠ 0 := by positivity
  have habs : |(m : ℝ) * 2 ^ e| = (|m| : ℤ) * 2 ^ e := by
    rw [abs_mul, abs_of_pos (by positivity : (0 : ℝ) < 2 ^ e), Int.cast_abs]
  rcases eq_or_lt_of_le hm with heq | hlt
  · -- the power of two `2^24 * 2^e`
    have hlog : Int.log 2 |(m : ℝ) * 2 ^ e| = e + 24 := by
      rw [habs, heq]
      have : (((2 : ℤ) ^ 24 : ℤ) : ℝ) * 2 ^ e = ((2 : ℕ) : ℝ) ^ (e + 24) := by
        push_cast
        rw [zpow_add₀ (by norm_num)]
        norm_num; ring
      rw [this, Int.log_zpow (by norm_num)]
    have hq : quantum ((m : ℝ) * 2 ^ e) = e + 1 := by
      unfold quantum; rw [hlog]; omega
    have h2 : ∃ n, m = 2 * n := by
      rcases abs_eq (by norm_num : (0 : ℤ) ≤ 2 ^ 24) |>.mp heq with h | h
      · exact ⟨2 ^ 23, by rw [h]; norm_num⟩
      · exact ⟨-2 ^ 23, by rw [h]; norm_num⟩
    obtain ⟨n, rfl⟩ := h2
    apply exact_quantum (n := n)
    rw [hq, zpow_add₀ (by norm_num)]
    push_cast; ring
  · have hq : quantum ((m : ℝ) * 2 ^ e) ≤ e := by
      unfold quantum
      refine max_le ?_ he
      have : Int.log 2 |(m : ℝ) * 2 ^ e| < e + 24 := by
        apply log_lt hx
        rw [habs, zpow_add₀ (by norm_num)]
        have : ((|m| : ℤ) : ℝ) < 2 ^ 24 := by exact_mod_cast hlt
        calc ((|m| : ℤ) : ℝ) * 2 ^ e < 2 ^ 24 * 2 ^ e := by gcongr
          _ = _ := by rw [mul_comm]; norm_cast
      omega
    obtain ⟨k, hk⟩ := Int.eq_ofNat_of_zero_le (sub_nonneg.mpr hq)
    apply exact_quantum (n := m * 2 ^ k)
    have : e = quantum ((m : ℝ) * 2 ^ e) + k := by omega
    conv_lhs => rw [this, zpow_add₀ (by norm_num), zpow_natCast]
    push_cast; ring

theorem neg_le_of_nonneg {x : ℝ} (h : 0 ≤ x) : 0 ≤ nearest x := by
  unfold nearest
  have hq : (0 : ℝ) < 2 ^ quantum x := by positivity
  have : (0 : ℤ) ≤ roundEven (x / 2 ^ quantum x) := by
    refine roundEven.int_le ?_
    push_cast; positivity
  have : (0 : ℝ) ≤ (roundEven (x / 2 ^ quantum x) : ℤ) := by exact_mod_cast this
  positivity

theorem nonpos_of_nonpos {x : ℝ} (h : x ≤ 0) : nearest x ≤ 0 := by
  unfold nearest
  have hq : (0 : ℝ) < 2 ^ quantum x := by positivity
  have : roundEven (x / 2 ^ quantum x) ≤ (0 : ℤ) := by
    refine roundEven.le_int ?_
    push_cast
    exact div_nonpos_of_nonpos_of_nonneg h hq.le
  have : ((roundEven (x / 2 ^ quantum x) : ℤ) : ℝ) ≤ 0 := by exact_mod_cast this
  exact mul_nonpos_of_nonpos_of_nonneg this hq.le

theorem same_quantum {x y : ℝ} (h : x ≤ y) (hq : quantum x = quantum y) :
    nearest x ≤ nearest y := by
  unfold nearest
  rw [hq]
  have hp : (0 : ℝ) < 2 ^ quantum y := by positivity
  have : roundEven (x / 2 ^ quantum y) ≤ roundEven (y / 2 ^ quantum y) := by
    apply roundEven.mono
    gcongr
  have : ((roundEven (x / 2 ^ quantum y) : ℤ) : ℝ) ≤ (roundEven (y / 2 ^ quantum y) : ℤ) := by
    exact_mod_cast this
  gcongr

theorem mono_pos {x y : ℝ} (hx : 0 < x) (h : x ≤ y) : nearest x ≤ nearest y := by
  have hy : 0 < y := hx.trans_le h
  have hlog : Int.log 2 |x| ≤ Int.log 2 |y| := by
    rw [abs_of_pos hx, abs_of_pos hy]; exact Int.log_mono_right hx h
  by_cases hq : quantum x = quantum y
  · exact same_quantum h hq
  -- the power of two `2^(log y)` lies between them and is not changed
  have hlt : Int.log 2 |x| < Int.log 2 |y| ∧ -149 < Int.log 2 |y| - 23 := by
    unfold quantum at hq; omega
  have hqx : quantum x + 24 ≤ Int.log 2 |y| := by unfold quantum; omega
  have hqy : quantum y + 23 = Int.log 2 |y| := by unfold quantum; omega
  have hylow := Int.zpow_log_le_self (b := 2) (r := y) (by norm_num) hy
  have hxlt : x < 2 ^ (quantum x + 24) := by
    have h1 := Int.lt_zpow_succ_log_self (b := 2) (by norm_num) x
    push_cast at h1
    refine h1.trans_le (zpow_le_zpow_right₀ (by norm_num) ?_)
    unfold quantum; rw [abs_of_pos hx]; omega
  push_cast at hylow
  have hpx : (0 : ℝ) < 2 ^ quantum x := by positivity
  have hpy : (0 : ℝ) < 2 ^ quantum y := by positivity
  have h1 : nearest x ≤ 2 ^ (quantum x + 24) := by
    unfold nearest
    have : roundEven (x / 2 ^ quantum x) ≤ 2 ^ 24 := by
      refine roundEven.le_int ?_
      have : x / 2 ^ quantum x < 2 ^ 24 := by
        rw [div_lt_iff₀ hpx]
        calc x < 2 ^ (quantum x + 24) := hxlt
          _ = 2 ^ 24 * 2 ^ quantum x := by rw [zpow_add₀ (by norm_num), mul_comm]; norm_cast
      push_cast; linarith
    have : ((roundEven (x / 2 ^ quantum x) : ℤ) : ℝ) ≤ 2 ^ 24 := by exact_mod_cast this
    calc ((roundEven (x / 2 ^ quantum x) : ℤ) : ℝ) * 2 ^ quantum x ≤ 2 ^ 24 * 2 ^ quantum x := by gcongr
      _ = _ := by rw [zpow_add₀ (by norm_num), mul_comm]; norm_cast
  have h2 : (2 : ℝ) ^ (quantum y + 23) ≤ nearest y := by
    unfold nearest
    have : 2 ^ 23 ≤ roundEven (y / 2 ^ quantum y) := by
      refine roundEven.int_le ?_
      have : 2 ^ 23 ≤ y / 2 ^ quantum y := by
        rw [le_div_iff₀ hpy]
        calc (2 : ℝ) ^ 23 * 2 ^ quantum y = 2 ^ (quantum y + 23) := by
              rw [zpow_add₀ (by norm_num), mul_comm]; norm_cast
          _ = 2 ^ Int.log 2 y := by rw [hqy, abs_of_pos hy]
          _ ≤ y := hylow
      push_cast; linarith
    have : (2 : ℝ) ^ 23 ≤ ((roundEven (y / 2 ^ quantum y) : ℤ) : ℝ) := by exact_mod_cast this
    calc (2 : ℝ) ^ (quantum y + 23) = 2 ^ 23 * 2 ^ quantum y := by
          rw [zpow_add₀ (by norm_num), mul_comm]; norm_cast
      _ ≤ _ := by gcongr
  refine h1.trans (le_trans ?_ h2)
  exact zpow_le_zpow_right₀ (by norm_num) (by omega)

/-- The same argument with the roles of the bounds exchanged. -/
theorem mono_neg {x y : ℝ} (hy : y < 0) (h : x ≤ y) : nearest x ≤ nearest y := by
  have hx : x < 0 := h.trans_lt hy
  have hlog : Int.log 2 |y| ≤ Int.log 2 |x| := by
    rw [abs_of_neg hx, abs_of_neg hy]; exact Int.log_mono_right (by linarith) (by linarith)
  by_cases hq : quantum x = quantum y
  · exact same_quantum h hq
  have hlt : Int.log 2 |y| < Int.log 2 |x| ∧ -149 < Int.log 2 |x| - 23 := by
    unfold quantum at hq; omega
  have hqy : quantum y + 24 ≤ Int.log 2 |x| := by unfold quantum; omega
  have hqx : quantum x + 23 = Int.log 2 |x| := by unfold quantum; omega
  have hxlow := Int.zpow_log_le_self (b := 2) (r := |x|) (by norm_num) (abs_pos.mpr hx.ne)
  have hylt : |y| < 2 ^ (quantum y + 24) := by
    have h1 := Int.lt_zpow_succ_log_self (b := 2) (by norm_num) |y|
    push_cast at h1
    refine h1.trans_le (zpow_le_zpow_right₀ (by norm_num) ?_)
    unfold quantum; omega
  push_cast at hxlow
  rw [abs_of_neg hx] at hxlow
  rw [abs_of_neg hy] at hylt
  have hpx : (0 : ℝ) < 2 ^ quantum x := by positivity
  have hpy : (0 : ℝ) < 2 ^ quantum y := by positivity
  have h1 : nearest x ≤ -2 ^ (quantum x + 23) := by
    unfold nearest
    have : roundEven (x / 2 ^ quantum x) ≤ -2 ^ 23 := by
      refine roundEven.le_int ?_
      have : x / 2 ^ quantum x ≤ -2 ^ 23 := by
        rw [div_le_iff₀ hpx]
        have : (2 : ℝ) ^ 23 * 2 ^ quantum x = 2 ^ (quantum x + 23) := by
          rw [zpow_add₀ (by norm_num), mul_comm]; norm_cast
        rw [neg_mul, this, hqx, abs_of_neg hx]
        linarith
      push_cast; linarith
    have : ((roundEven (x / 2 ^ quantum x) : ℤ) : ℝ) ≤ -2 ^ 23 := by exact_mod_cast this
    calc ((roundEven (x / 2 ^ quantum x) : ℤ) : ℝ) * 2 ^ quantum x
        ≤ -2 ^ 23 * 2 ^ quantum x := by gcongr
      _ = _ := by rw [zpow_add₀ (by norm_num), neg_mul, mul_comm]; norm_cast
  have h2 : -(2 : ℝ) ^ (quantum y + 24) ≤ nearest y := by
    unfold nearest
    have : -2 ^ 24 ≤ roundEven (y / 2 ^ quantum y) := by
      refine roundEven.int_le ?_
      have : -2 ^ 24 ≤ y / 2 ^ quantum y := by
        rw [le_div_iff₀ hpy]
        have : (2 : ℝ) ^ 24 * 2 ^ quantum y = 2 ^ (quantum y + 24) := by
          rw [zpow_add₀ (by norm_num), mul_comm]; norm_cast
        rw [neg_mul, this]
        linarith
      push_cast; linarith
    have : -(2 : ℝ) ^ 24 ≤ ((roundEven (y / 2 ^ quantum y) : ℤ) : ℝ) := by exact_mod_cast this
    calc -(2 : ℝ) ^ (quantum y + 24) = -2 ^ 24 * 2 ^ quantum y := by
          rw [zpow_add₀ (by norm_num), neg_mul, mul_comm]; norm_cast
      _ ≤ _ := by gcongr
  refine h1.trans (le_trans ?_ h2)
  apply neg_le_neg
  exact zpow_le_zpow_right₀ (by norm_num) (by omega)

theorem monotone : Monotone nearest := by
  intro x y h
  rcases lt_or_ge 0 x with hx | hx
  · exact mono_pos hx h
  · rcases lt_or_ge y 0 with hy | hy
    · exact mono_neg hy h
    · exact (nonpos_of_nonpos hx).trans (neg_le_of_nonneg hy)

theorem rounding : Rounding nearest where
  mono := monotone
  exact := fun _ _ hm he _ => exact_of_le hm he
  error := error

end nearest

end Dist
