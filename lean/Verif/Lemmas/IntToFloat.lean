import Mathlib.Tactic.Ring
import Mathlib.Tactic.FieldSimp
import Mathlib.Tactic.Positivity
import Verif.Base.Float32

/-! # The conversion of an unsigned integer to a float -/

namespace Dist.F32

/-- Putting the significand together. -/
theorem val_pack {e m : ℕ} (he : e < 32) (h1 : 2 ^ 23 ≤ m) (h2 : m ≤ 2 ^ 24) :
    val (BitVec.ofNat 32 ((e + 127) * 2 ^ 23 + (m - 2 ^ 23))) = .fin ((m : ℚ) * 2 ^ e / 2 ^ 23) := by
  obtain ⟨k, rfl⟩ := Nat.exists_eq_add_of_le h1
  set b := BitVec.ofNat 32 ((e + 127) * 2 ^ 23 + (2 ^ 23 + k - 2 ^ 23)) with hb
  have hn : b.toNat = (e + 127) * 2 ^ 23 + k := by
    rw [hb, BitVec.toNat_ofNat]
    norm_num at h2 ⊢
    omega
  have hs : b.msb = false := by
    rw [BitVec.msb_eq_decide, hn]
    norm_num at h2 ⊢
    omega
  by_cases hk : k < 2 ^ 23
  · have hx : expo b = e + 127 := by
      unfold expo; rw [hn]; norm_num at hk ⊢; omega
    have hm : man b = k := by
      unfold man; rw [hn]; norm_num at hk ⊢; omega
    rw [val_posNormal ⟨hs, by omega, by omega⟩, hx, hm]
    refine congrArg Val.fin ?_
    push_cast
    rw [pow_add]
    ring
  · have hk : k = 2 ^ 23 := by norm_num at h2 hk ⊢; omega
    have hx : expo b = e + 128 := by
      unfold expo; rw [hn]; norm_num at hk ⊢; omega
    have hm : man b = 0 := by
      unfold man; rw [hn]; norm_num at hk ⊢; omega
    rw [val_posNormal ⟨hs, by omega, by omega⟩, hx, hm, hk]
    refine congrArg Val.fin ?_
    push_cast
    rw [pow_add]
    ring

/-- The conversion is within half a unit in the last place. -/
theorem val_ofNat {n : ℕ} (h0 : n ≠ 0) (h : n < 2 ^ 32) :
    ∃ q : ℚ, val (ofNat n) = .fin q ∧ |q - n| ≤ n / 2 ^ 24 ∧ |q - n| ≤ 128 := by
  unfold ofNat
  rw [if_neg h0]
  simp only
  set e := Nat.log2 n with he
  have he32 : e < 32 := (Nat.log2_lt h0).mpr h
  have hlt : n < 2 ^ (e + 1) := Nat.lt_log2_self
  have hle : 2 ^ e ≤ n := Nat.log2_self_le h0
  by_cases h1 : e ≤ 23
  · rw [if_pos h1]
    have e2 : 2 ^ e * 2 ^ (23 - e) = 2 ^ 23 := by rw [← pow_add]; congr 1; omega
    have hm1 : 2 ^ 23 ≤ n * 2 ^ (23 - e) := by
      rw [← e2]; exact Nat.mul_le_mul_right _ hle
    have hm2 : n * 2 ^ (23 - e) ≤ 2 ^ 24 :=
      calc n * 2 ^ (23 - e) ≤ 2 ^ (e + 1) * 2 ^ (23 - e) := Nat.mul_le_mul_right _ hlt.le
        _ = 2 ^ 24 := by rw [← pow_add]; congr 1; omega
    have e3 : ((n * 2 ^ (23 - e) : ℕ) : ℚ) * 2 ^ e / 2 ^ 23 = n := by
      have : ((2 : ℚ) ^ e * 2 ^ (23 - e)) = 2 ^ 23 := by exact_mod_cast e2
      push_cast
      rw [div_eq_iff (by positivity), ← this]
      ring
    refine ⟨_, val_pack he32 hm1 hm2, ?_⟩
    rw [e3, sub_self, abs_zero]
    exact ⟨by positivity, by norm_num⟩
  · rw [if_neg h1]
    obtain ⟨d, hd⟩ : ∃ d, e = 23 + (d + 1) := ⟨e - 24, by omega⟩
    have ed : e - 23 = d + 1 := by omega
    simp only [ed]
    set Q := n / 2 ^ (d + 1) with hQ
    set r := n % 2 ^ (d + 1) with hr
    have hn : n = 2 ^ (d + 1) * Q + r := (Nat.div_add_mod n _).symm
    have hrlt : r < 2 ^ (d + 1) := Nat.mod_lt _ (by positivity)
    have hQ1 : 2 ^ 23 ≤ Q := by
      rw [hQ, Nat.le_div_iff_mul_le (by positivity), ← pow_add, ← hd]; exact hle
    have hQ2 : Q < 2 ^ 24 := by
      rw [hQ, Nat.div_lt_iff_lt_mul (by positivity), ← pow_add]
      refine lt_of_lt_of_le hlt (le_of_eq ?_)
      congr 1; omega
    have key : ∀ m : ℕ, 2 ^ 23 ≤ m → m ≤ 2 ^ 24 →
        |((m : ℚ) - Q) * 2 ^ (d + 1) - r| ≤ 2 ^ d →
        ∃ q : ℚ, val (BitVec.ofNat 32 ((e + 127) * 2 ^ 23 + (m - 2 ^ 23))) = .fin q ∧
          |q - n| ≤ n / 2 ^ 24 ∧ |q - n| ≤ 128 := by
      intro m hm1 hm2 hm
      refine ⟨_, val_pack he32 hm1 hm2, ?_⟩
      have ev : (m : ℚ) * 2 ^ e / 2 ^ 23 - n = ((m : ℚ) - Q) * 2 ^ (d + 1) - r := by
        have : (n : ℚ) = 2 ^ (d + 1) * Q + r := by exact_mod_cast hn
        rw [this, hd, pow_add]
        ring
      rw [ev]
      constructor
      · refine hm.trans ?_
        rw [le_div_iff₀ (by positivity), ← pow_add]
        have : (2 : ℚ) ^ e ≤ n := by exact_mod_cast hle
        refine le_trans (le_of_eq ?_) this
        congr 1; omega
      · refine hm.trans ?_
        calc (2 : ℚ) ^ d ≤ 2 ^ 7 := pow_le_pow_right₀ (by norm_num) (by omega)
          _ = 128 := by norm_num
    have hp : (2 : ℚ) ^ (d + 1) = 2 * 2 ^ d := by rw [pow_succ]; ring
    have hr0 : (0 : ℚ) ≤ r := by positivity
    have hrq : (r : ℚ) < 2 * 2 ^ d := by rw [← hp]; exact_mod_cast hrlt
    split_ifs with h2
    · refine key Q hQ1 hQ2.le ?_
      have : 2 * r ≤ 2 * 2 ^ d := by
        rw [pow_succ] at h2; omega
      have : (r : ℚ) ≤ 2 ^ d := by
        have : r ≤ 2 ^ d := by omega
        exact_mod_cast this
      rw [sub_self, zero_mul, zero_sub, abs_neg, abs_of_nonneg hr0]
      exact this
    · refine key (Q + 1) (by omega) (by omega) ?_
      have : 2 ^ d ≤ r := by
        rw [pow_succ] at h2
        push Not at h2
        omega
      have : (2 : ℚ) ^ d ≤ r := by exact_mod_cast this
      push_cast
      rw [hp, abs_le]
      constructor <;> linarith

end Dist.F32
