import Verif.Lemmas.SingleWelford
import Verif.Spec.Spread
import Mathlib.Tactic.Linarith
import Mathlib.Tactic.FieldSimp

/-! # The error of the running mean and variance in single precision -/

namespace Dist

namespace Spec

theorem sum_sq_sub (vs : List ℝ) (a : ℝ) :
    (vs.map fun v => (v - a) ^ 2).sum = (vs.map fun v => v ^ 2).sum - 2 * a * vs.sum + vs.length * a ^ 2 := by
  induction vs with
  | nil => simp
  | cons v vs ih =>
    simp only [List.map_cons, List.sum_cons, List.length_cons, ih]
    push_cast
    ring

/-- Adding one value, by the recurrence of Welford. -/
theorem spread_append (vs : List ℝ) (v : ℝ) :
    spread (vs ++ [v]) = spread vs + (v - vs.sum / vs.length) * (v - (vs ++ [v]).sum / (vs ++ [v]).length) := by
  unfold spread
  rw [sum_sq_sub, sum_sq_sub]
  simp only [List.map_append, List.map_cons, List.map_nil, List.sum_append, List.sum_cons, List.sum_nil,
    List.length_append, List.length_cons, List.length_nil, zero_add, add_zero]
  push_cast
  rcases Nat.eq_zero_or_pos vs.length with h | h
  · have : vs = [] := List.length_eq_zero_iff.1 h
    subst this
    simp
    ring
  · have h0 : (0 : ℝ) < vs.length := by exact_mod_cast h
    have h1 : (0 : ℝ) < (vs.length : ℝ) + 1 := by linarith
    field_simp
    ring

end Spec

namespace Single

/-- A rounding error of a number of size at most `A`. -/
theorem err {x A : ℝ} (h : |x| ≤ A) : |nearest x - x| ≤ A / 2 ^ 24 + 1 / 2 ^ 150 := by
  have := nearest.error x
  have e : (2⁻¹ : ℝ) ^ 24 * |x| ≤ A / 2 ^ 24 := by
    rw [inv_pow, div_eq_inv_mul]; gcongr
  have e2 : (2⁻¹ : ℝ) ^ 150 = 1 / 2 ^ 150 := by rw [inv_pow, one_div]
  rw [e2] at this
  linarith

/-- The error of one update of the mean. -/
theorem mean_error {m v B : ℝ} {n : ℕ} (hm : nearest m = m) (hv : nearest v = v) (hmB : |m| ≤ B) (hvB : |v| ≤ B)
    (hB : 1 / 2 ^ 50 ≤ B) (hn : 2 ≤ n) (hn' : n ≤ 2 ^ 24) :
    (n : ℝ) * |nearest (m + nearest (nearest (v - m) / nearest (n : ℝ))) - (m + (v - m) / n)| ≤
      B / 2 ^ 24 * (n + 5) := by
  have hn2 : (2 : ℝ) ≤ n := by exact_mod_cast hn
  have hn24 : (n : ℝ) ≤ 2 ^ 24 := by exact_mod_cast hn'
  have hnn : nearest (n : ℝ) = n := by
    have := nearest.int (m := (n : ℤ)) (by rw [abs_of_nonneg (by positivity)]; exact_mod_cast hn')
    exact_mod_cast this
  rw [hnn]
  have h0 : (0 : ℝ) < n := by linarith
  have hB0 : 0 < B := lt_of_lt_of_le (by positivity) hB
  obtain ⟨w, hw⟩ : ∃ w : ℝ, w = 1 / 2 ^ 150 := ⟨_, rfl⟩
  have hwB : w * 2 ^ 100 ≤ B := by rw [hw]; refine le_trans (by norm_num) hB
  have hw0 : 0 < w := by rw [hw]; positivity
  have hvm : |v - m| ≤ 2 * B := by
    rw [abs_le] at *
    constructor <;> linarith [hmB.1, hmB.2, hvB.1, hvB.2]
  have e1 := err hvm
  set d := nearest (v - m)
  rw [← hw] at e1
  have hd : |d| ≤ 2 * B + (2 * B / 2 ^ 24 + w) := by
    have := abs_add_le (d - (v - m)) (v - m)
    rw [sub_add_cancel] at this
    linarith
  have hdn : |d / n| ≤ (2 * B + (2 * B / 2 ^ 24 + w)) / n := by
    rw [abs_div, abs_of_pos h0]; gcongr
  have e2 := err hdn
  rw [← hw] at e2
  set q := nearest (d / n)
  -- the sum lies between the mean and the value
  have hmq : |m + q| ≤ B := by
    rcases le_total m v with h | h
    · obtain ⟨p1, p2⟩ := part_le hm hv h hn2
      rw [abs_le] at *
      constructor <;> linarith [hmB.1, hmB.2, hvB.1, hvB.2]
    · obtain ⟨p1, p2⟩ := part_le (m := -m) (v := -v) (c := (n : ℝ)) (by rw [nearest.neg, hm])
        (by rw [nearest.neg, hv]) (neg_le_neg h) hn2
      rw [show -v - -m = -(v - m) by ring, nearest.neg, neg_div, nearest.neg] at p1 p2
      have p1 : 0 ≤ -q := p1
      have p2 : -q ≤ -(v - m) := p2
      rw [abs_le] at *
      constructor <;> linarith [hmB.1, hmB.2, hvB.1, hvB.2]
  have e3 := err hmq
  rw [← hw] at e3
  set m' := nearest (m + q)
  have t : |m' - (m + (v - m) / n)| ≤ |m' - (m + q)| + (|q - d / n| + |d / n - (v - m) / n|) := by
    refine (abs_sub_le _ (m + q) _).trans ?_
    rw [show m + q - (m + (v - m) / n) = q - (v - m) / n by ring]
    have := abs_sub_le q (d / n) ((v - m) / n)
    linarith
  have e4 : |d / n - (v - m) / n| ≤ (2 * B / 2 ^ 24 + w) / n := by
    rw [← sub_div, abs_div, abs_of_pos h0]; gcongr
  have tot : |m' - (m + (v - m) / n)| ≤ B / 2 ^ 24 + w + ((2 * B + (2 * B / 2 ^ 24 + w)) / n / 2 ^ 24 + w +
      (2 * B / 2 ^ 24 + w) / n) := by linarith
  have : (n : ℝ) * |m' - (m + (v - m) / n)| ≤ n * (B / 2 ^ 24 + w + ((2 * B + (2 * B / 2 ^ 24 + w)) / n / 2 ^ 24 + w +
      (2 * B / 2 ^ 24 + w) / n)) := by gcongr
  refine this.trans ?_
  have ex : (n : ℝ) * (B / 2 ^ 24 + w + ((2 * B + (2 * B / 2 ^ 24 + w)) / n / 2 ^ 24 + w +
      (2 * B / 2 ^ 24 + w) / n)) = n * (B / 2 ^ 24) + 2 * n * w + ((2 * B + (2 * B / 2 ^ 24 + w)) / 2 ^ 24 +
      (2 * B / 2 ^ 24 + w)) := by
    field_simp
    ring
  rw [ex]
  have hnw : (n : ℝ) * w ≤ 2 ^ 24 * w := by gcongr
  norm_num at hwB hnw ⊢
  linarith

/-- The error of one update of the sum of squares. -/
theorem spread_error {m m' v c μ μ' S B E E' F : ℝ} {n : ℕ} (hmB : |m| ≤ B) (hm'B : |m'| ≤ B) (hvB : |v| ≤ B)
    (hμB : |μ| ≤ B) (hB : 1 / 2 ^ 50 ≤ B) (hn' : (n : ℝ) ≤ 2 ^ 20) (hn : (1 : ℝ) ≤ n)
    (hE : |m - μ| ≤ E) (hE' : |m' - μ'| ≤ E') (hc0 : 0 ≤ c) (hc : c ≤ 5 * B ^ 2 * (n - 1)) (hF : |c - S| ≤ F)
    (hp0 : 0 ≤ nearest (nearest (v - m) * nearest (v - m'))) :
    nearest (c + nearest (nearest (v - m) * nearest (v - m'))) ≤ 5 * B ^ 2 * n ∧
    |nearest (c + nearest (nearest (v - m) * nearest (v - m'))) - (S + (v - μ) * (v - μ'))| ≤
      F + B * (2.01 * E + 2 * E') + B ^ 2 / 2 ^ 24 * (5.01 * n + 13) := by
  have hB0 : 0 < B := lt_of_lt_of_le (by positivity) hB
  obtain ⟨w, hw⟩ : ∃ w : ℝ, w = 1 / 2 ^ 150 := ⟨_, rfl⟩
  have hw0 : 0 < w := by rw [hw]; positivity
  have hwB : w * 2 ^ 100 ≤ B := by rw [hw]; refine le_trans (by norm_num) hB
  have hwBB : w * 2 ^ 50 ≤ B ^ 2 := by
    have : (1 / 2 ^ 50) ^ 2 ≤ B ^ 2 := by gcongr
    rw [hw]; refine le_trans (by norm_num) this
  have two : ∀ x : ℝ, |x| ≤ B → |v - x| ≤ 2 * B := by
    intro x hx
    rw [abs_le] at *
    constructor <;> linarith [hx.1, hx.2, hvB.1, hvB.2]
  have e1 := err (two m hmB)
  have e2 := err (two m' hm'B)
  rw [← hw] at e1 e2
  set d := nearest (v - m)
  set e := nearest (v - m')
  have hdl : |d| ≤ 2.001 * B := by
    have := abs_add_le (d - (v - m)) (v - m)
    rw [sub_add_cancel] at this
    have := two m hmB
    norm_num at hwB e1 ⊢
    linarith
  have hel : |e| ≤ 2.001 * B := by
    have := abs_add_le (e - (v - m')) (v - m')
    rw [sub_add_cancel] at this
    have := two m' hm'B
    norm_num at hwB e2 ⊢
    linarith
  have hde : |d * e| ≤ 4.01 * B ^ 2 := by
    rw [abs_mul]
    calc |d| * |e| ≤ 2.001 * B * (2.001 * B) := mul_le_mul hdl hel (abs_nonneg _) (by positivity)
      _ ≤ 4.01 * B ^ 2 := by nlinarith [sq_nonneg B]
  have e3 := err hde
  rw [← hw] at e3
  set p := nearest (d * e)
  have hp : p ≤ 4.02 * B ^ 2 := by
    have h1 := (abs_le.1 e3).2
    have h2 := (abs_le.1 hde).2
    norm_num at hwBB h1 ⊢
    linarith
  have hBn : 0 ≤ B ^ 2 * ((2 : ℝ) ^ 20 - n) := mul_nonneg (by positivity) (by linarith)
  have hBn1 : 0 ≤ B ^ 2 * ((n : ℝ) - 1) := mul_nonneg (by positivity) (by linarith)
  have hcp : |c + p| ≤ 5 * B ^ 2 * n - 0.98 * B ^ 2 := by
    rw [abs_of_nonneg (by linarith)]
    nlinarith
  have e4 := err hcp
  rw [← hw] at e4
  set c' := nearest (c + p)
  constructor
  · have h1 := (abs_le.1 e4).2
    have h2 := (abs_le.1 hcp).2
    norm_num at hwBB h1 hBn ⊢
    nlinarith
  · have a1 : |d - (v - μ)| ≤ 2 * B / 2 ^ 24 + w + E := by
      have := abs_sub_le d (v - m) (v - μ)
      rw [show v - m - (v - μ) = -(m - μ) by ring, abs_neg] at this
      linarith
    have a2 : |e - (v - μ')| ≤ 2 * B / 2 ^ 24 + w + E' := by
      have := abs_sub_le e (v - m') (v - μ')
      rw [show v - m' - (v - μ') = -(m' - μ') by ring, abs_neg] at this
      linarith
    have hE0 : 0 ≤ E := (abs_nonneg _).trans hE
    have hE0' : 0 ≤ E' := (abs_nonneg _).trans hE'
    have a3 : |d * e - (v - μ) * (v - μ')| ≤ (2 * B / 2 ^ 24 + w + E) * (2.001 * B) +
        2 * B * (2 * B / 2 ^ 24 + w + E') := by
      rw [show d * e - (v - μ) * (v - μ') = (d - (v - μ)) * e + (v - μ) * (e - (v - μ')) by ring]
      refine (abs_add_le _ _).trans ?_
      rw [abs_mul, abs_mul]
      refine add_le_add (mul_le_mul a1 hel (abs_nonneg _) (by positivity)) ?_
      exact mul_le_mul (two μ hμB) a2 (abs_nonneg _) (by positivity)
    have key : |c' - (S + (v - μ) * (v - μ'))| ≤ |c' - (c + p)| + |p - d * e| +
        |d * e - (v - μ) * (v - μ')| + |c - S| := by
      rw [show c' - (S + (v - μ) * (v - μ')) = (c' - (c + p)) + (p - d * e) + (d * e - (v - μ) * (v - μ')) +
        (c - S) by ring]
      refine (abs_add_le _ _).trans ?_
      gcongr
      refine (abs_add_le _ _).trans ?_
      gcongr
      exact abs_add_le _ _
    have hwBe : w * B * 2 ^ 100 ≤ B ^ 2 := by
      calc w * B * 2 ^ 100 = w * 2 ^ 100 * B := by ring
        _ ≤ B * B := by gcongr
        _ = B ^ 2 := by ring
    have hBE : 0 ≤ B * E := by positivity
    norm_num at hwBB hwBe hBn key a3 e3 e4 ⊢
    nlinarith

end Single

end Dist
