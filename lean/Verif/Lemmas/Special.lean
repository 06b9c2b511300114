import Verif.Model.Special
import Mathlib.Data.Nat.Log
import Mathlib.Data.Nat.Bitwise
import Mathlib.Algebra.Order.Field.Power
import Mathlib.Tactic.FieldSimp
import Mathlib.Tactic.Ring

/-! Bit fields of single-precision patterns as used by the table-driven functions. -/

namespace Dist.Special

open F32

theorem expField (b : BitVec 32) :
    (BitVec.sshiftRight b 23 &&& 255#32).toInt = (expo b : Int) := by
  have h : (BitVec.sshiftRight b 23 &&& 255#32).toNat = expo b := by
    rw [BitVec.toNat_and]
    have h255 : (255#32).toNat = 2 ^ 8 - 1 := by rfl
    rw [h255, Nat.and_two_pow_sub_one_eq_mod]
    unfold expo
    apply Nat.eq_of_testBit_eq
    intro i
    rw [show (256 : ℕ) = 2 ^ 8 from rfl, Nat.testBit_mod_two_pow, Nat.testBit_mod_two_pow,
      Nat.testBit_div_two_pow, BitVec.testBit_toNat, BitVec.testBit_toNat,
      BitVec.getLsbD_sshiftRight]
    by_cases hi : i < 8
    · have h1 : ¬ 32 ≤ i := by omega
      have h2 : 23 + i < 32 := by omega
      simp [hi, h1, Nat.add_comm]
      intro h9
      omega
    · simp [hi]
  rw [BitVec.toInt_eq_toNat_of_lt, h]
  rw [h]
  have := expo_lt b
  omega

theorem manField (b : BitVec 32) (n : Nat) :
    ((b &&& 0x7FFFFF#32) >>> n).toNat = man b / 2 ^ n := by
  rw [BitVec.toNat_ushiftRight, BitVec.toNat_and, Nat.shiftRight_eq_div_pow]
  have h : (0x7FFFFF#32).toNat = 2 ^ 23 - 1 := by rfl
  rw [h, Nat.and_two_pow_sub_one_eq_mod]
  rfl

theorem shiftInt (b : BitVec 32) (n : Nat) :
    (BitVec.sshiftRight b n).toInt = b.toInt / 2 ^ n := by
  rw [BitVec.toInt_sshiftRight, Int.shiftRight_eq_div_pow]
  norm_cast

theorem toInt_nonneg {b : BitVec 32} (h : b.msb = false) : b.toInt = (b.toNat : Int) := by
  rw [BitVec.msb_eq_decide, decide_eq_false_iff_not] at h
  exact BitVec.toInt_eq_toNat_of_lt (by omega)

theorem toNat_nonneg {b : BitVec 32} (h : b.msb = false) :
    b.toNat = expo b * 2 ^ 23 + man b := by
  have := toNat_eq b
  rw [h] at this
  simpa using this

theorem shiftNat {b : BitVec 32} (h : b.msb = false) (n : Nat) :
    (BitVec.sshiftRight b n).toNat = b.toNat / 2 ^ n := by
  rw [BitVec.sshiftRight_eq_of_msb_false h, BitVec.toNat_ushiftRight, Nat.shiftRight_eq_div_pow]

theorem length_logTable256 : logTable256.length = 256 := by decide +kernel
theorem length_lgammaCoeff5 : lgammaCoeff5.length = 198 := by decide +kernel
theorem length_logFactorialTable : logFactorialTable.length = 64 := by decide +kernel
theorem length_lgammaNuCoeff3 : lgammaNuCoeff3.length = 72 := by decide +kernel

theorem logTable256_correct : ∀ t : Fin 256, t.val ≠ 0 →
    logTable256[t.val]? = some ((Nat.log2 t.val : ℕ) : Int) := by decide +kernel

theorem getAt_logTable {t : Nat} (h0 : t ≠ 0) (h : t < 256) :
    getAt logTable256 t = .ok ((Nat.log2 t : ℕ) : Int) :=
  getAt_eq_ok.mpr (logTable256_correct ⟨t, h⟩ h0)

theorem log2_div (m k : Nat) (h : m / 2 ^ k ≠ 0) : Nat.log2 (m / 2 ^ k) + k = Nat.log2 m := by
  have hm : m ≠ 0 := by rintro rfl; simp at h
  have h1 := Nat.log2_self_le h
  have h2 := Nat.lt_log2_self (n := m / 2 ^ k)
  symm
  rw [Nat.log2_eq_iff hm]
  constructor
  · rw [pow_add]
    exact (Nat.mul_le_mul_right _ h1).trans (Nat.div_mul_le_self _ _)
  · have h3 : m < 2 ^ k * (m / 2 ^ k + 1) := Nat.lt_mul_div_succ m (by positivity)
    calc m < 2 ^ k * (m / 2 ^ k + 1) := h3
      _ ≤ 2 ^ k * 2 ^ (Nat.log2 (m / 2 ^ k) + 1) := Nat.mul_le_mul_left _ h2
      _ = _ := by rw [← pow_add]; congr 1; omega

/-- On a non-negative pattern the subnormal branches all compute `log2(man) - 149`. -/
theorem intLog2_subnormal {b : BitVec 32} (hs : b.msb = false) (he : expo b = 0)
    (hm : man b ≠ 0) : intLog2 b = .ok ((Nat.log2 (man b) : ℕ) - 149) := by
  have hn : b.toNat = man b := by have := toNat_nonneg hs; rw [he] at this; simpa using this
  have hlt := man_lt b
  unfold intLog2
  simp only
  have hc : (BitVec.sshiftRight b 23).toInt = 0 := by
    rw [shiftInt, toInt_nonneg hs, hn]
    norm_num at hlt ⊢
    omega
  rw [if_neg (by simpa using hc), shiftNat hs, shiftNat hs, hn]
  have hlt' : man b < 8388608 := by simpa using hlt
  split_ifs with h1 h2
  · rw [getAt_logTable h1 (by norm_num; omega)]
    simp only [Res.ok_bind, Res.pure_eq, Res.ok.injEq]
    have := log2_div _ _ h1
    omega
  · have h1' : man b / 65536 = 0 := by simpa using h1
    rw [getAt_logTable h2 (by norm_num; omega)]
    simp only [Res.ok_bind, Res.pure_eq, Res.ok.injEq]
    have := log2_div _ _ h2
    omega
  · have h2' : man b / 256 = 0 := by simpa using h2
    rw [toInt_nonneg hs, hn, getAtInt, if_pos (by omega), Int.toNat_natCast,
      getAt_logTable hm (by omega)]
    simp

theorem intLog2_normal {b : BitVec 32} (hs : b.msb = false) (he : expo b ≠ 0) :
    intLog2 b = .ok ((expo b : Int) - 127) := by
  unfold intLog2
  simp only
  have hlt : man b < 8388608 := by simpa using man_lt b
  have hc : (BitVec.sshiftRight b 23).toInt = expo b := by
    rw [shiftInt, toInt_nonneg hs, toNat_nonneg hs]
    norm_num
    omega
  rw [if_pos (by rw [hc]; exact_mod_cast he), hc]

theorem two_zpow_natSub (a : Nat) (k : Nat) :
    (2 : ℚ) ^ ((a : Int) - (k : Int)) = 2 ^ a / 2 ^ k := by
  rw [zpow_sub₀ (by norm_num), zpow_natCast, zpow_natCast]

theorem intLog2_floor {b : BitVec 32} {q : ℚ} (hv : val b = .fin q) (hq : 0 < q) :
    ∃ c : Int, intLog2 b = .ok c ∧ (2 : ℚ) ^ c ≤ q ∧ q < 2 ^ (c + 1) := by
  unfold val at hv
  have h255 : expo b ≠ 255 := by
    intro h; rw [if_pos h] at hv; split_ifs at hv
  rw [if_neg h255] at hv
  injection hv with hv
  have hmag : 0 ≤ magnitude b := by unfold magnitude; split_ifs <;> positivity
  have hs : b.msb = false := by
    cases h : b.msb with
    | false => rfl
    | true => rw [h] at hv; simp at hv; linarith
  rw [hs] at hv
  simp only [Bool.false_eq_true, if_false] at hv
  subst hv
  have hm := man_lt b
  by_cases he : expo b = 0
  · have hmag' : magnitude b = (man b : ℚ) / 2 ^ 149 := by unfold magnitude; rw [if_pos he]
    rw [hmag'] at hq ⊢
    have hm0 : man b ≠ 0 := by rintro h; rw [h] at hq; simp at hq
    refine ⟨_, intLog2_subnormal hs he hm0, ?_, ?_⟩
    · rw [show (149 : Int) = ((149 : ℕ) : Int) from rfl, two_zpow_natSub]
      gcongr
      exact_mod_cast Nat.log2_self_le hm0
    · rw [show ((Nat.log2 (man b) : ℕ) : Int) - 149 + 1
        = ((Nat.log2 (man b) + 1 : ℕ) : Int) - ((149 : ℕ) : Int) by push_cast; ring,
        two_zpow_natSub]
      gcongr
      exact_mod_cast Nat.lt_log2_self
  · have hmag' : magnitude b = ((2 ^ 23 + man b : ℕ) : ℚ) * 2 ^ expo b / 2 ^ 150 := by
      unfold magnitude; rw [if_neg he]
    rw [hmag']
    refine ⟨_, intLog2_normal hs he, ?_, ?_⟩
    · rw [show (127 : Int) = ((127 : ℕ) : Int) from rfl, two_zpow_natSub,
        div_le_div_iff₀ (by positivity) (by positivity)]
      have : (2 : ℚ) ^ 23 ≤ ((2 ^ 23 + man b : ℕ) : ℚ) := by
        push_cast; linarith [(Nat.cast_nonneg (man b) : (0 : ℚ) ≤ (man b : ℚ))]
      calc (2 : ℚ) ^ expo b * 2 ^ 150 = 2 ^ 23 * 2 ^ expo b * 2 ^ 127 := by ring
        _ ≤ _ := by gcongr
    · rw [show (expo b : Int) - 127 + 1 = ((expo b + 1 : ℕ) : Int) - ((127 : ℕ) : Int) by
          push_cast; ring, two_zpow_natSub, div_lt_div_iff₀ (by positivity) (by positivity)]
      have : ((2 ^ 23 + man b : ℕ) : ℚ) < 2 ^ 24 := by
        have : 2 ^ 23 + man b < 2 ^ 24 := by omega
        exact_mod_cast this
      calc ((2 ^ 23 + man b : ℕ) : ℚ) * 2 ^ expo b * 2 ^ 127
          < 2 ^ 24 * 2 ^ expo b * 2 ^ 127 := by gcongr
        _ = _ := by ring

/-- A non-NaN pattern between two bounds is a finite number between them. -/
theorem val_between {b : BitVec 32} {lo hi : ℚ} (hn : ¬ IsNaN b)
    (h : ((val b).lt (.fin lo) || F32.Val.le (.fin hi) (val b)) = false) :
    ∃ q, val b = .fin q ∧ lo ≤ q ∧ q < hi := by
  rw [Bool.or_eq_false_iff] at h
  obtain ⟨h1, h2⟩ := h
  cases hv : val b with
  | nan => exact absurd (val_nan.mp hv) hn
  | inf s =>
    rw [hv] at h1 h2
    simp [Val.lt, Val.le] at h1 h2
    rw [h1] at h2
    cases h2
  | fin q =>
    rw [hv] at h1 h2
    simp [Val.lt, Val.le] at h1 h2
    exact ⟨q, rfl, h1, h2⟩

theorem zpow_two_lt_iff {a c : Int} : (2 : ℚ) ^ a < 2 ^ c ↔ a < c :=
  zpow_lt_zpow_iff_right₀ (by norm_num)

theorem getAtInt_of {α : Type} {l : List α} {i : Int} (h0 : 0 ≤ i) (h : i < l.length) :
    ∃ a, getAtInt l i = .ok a := by
  unfold getAtInt
  rw [if_pos h0]
  have : i.toNat < l.length := by omega
  exact ⟨_, getAt_of this⟩

theorem getAtInt_ub {α : Type} {l : List α} {i : Int} (h : i < 0 ∨ (l.length : Int) ≤ i) :
    getAtInt l i = .ub := by
  unfold getAtInt
  split_ifs with h0
  · exact getAt_of_ge (by omega)
  · rfl

end Dist.Special
