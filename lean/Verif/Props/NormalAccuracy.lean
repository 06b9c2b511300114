import Verif.Props.NormalStatistics
import Verif.Lemmas.WelfordAccuracy

/-!
# C88 (accuracy): how far the statistics of a normal group are from those of its data

The group of `NormalStatistics`, filled by `add_value` in single precision, against the exact mean
and the exact spread of the same values.
-/

namespace Dist

namespace NICH

variable {lib : Libm}

theorem mean_abs_le (vs : List ℝ) {B : ℝ} (hB : 0 ≤ B) (hb : ∀ v ∈ vs, |v| ≤ B) :
    |vs.sum / vs.length| ≤ B := by
  have h : |vs.sum| ≤ vs.length * B := by
    induction vs with
    | nil => simp
    | cons v vs ih =>
      rw [List.sum_cons, List.length_cons]
      have := abs_add_le v vs.sum
      have h1 := hb v (by simp)
      have h2 := ih fun w hw => hb w (by simp [hw])
      push_cast
      linarith
  rcases Nat.eq_zero_or_pos vs.length with h0 | h0
  · rw [h0]; simpa using hB
  · have h0 : (0 : ℝ) < vs.length := by exact_mod_cast h0
    rw [abs_div, abs_of_pos h0, div_le_iff₀ h0]
    linarith

/-- **C88 (accuracy).** After up to a million (`2^20`) values of size at most `B`, the mean is within
`(n + 11) B / 2^25` of the exact mean, and the accumulated variance within
`(4 n^2 + 40 n) B^2 / 2^24` of the exact sum of squared distances. -/
theorem C88_accurate (B : ℝ) (hB : 1 / 2 ^ 50 ≤ B) (vs : List ℝ) (hs : ∀ v ∈ vs, nearest v = v)
    (hb : ∀ v ∈ vs, |v| ≤ B) (hlen : vs.length ≤ 2 ^ 20) :
    ∃ g, filled lib vs = .ok g ∧
      |g.mean.val - vs.sum / vs.length| ≤ (vs.length + 11) * B / 2 ^ 25 ∧
      |g.countTimesVariance.val - Spec.spread vs| ≤
        (4 * vs.length ^ 2 + 40 * vs.length) * B ^ 2 / 2 ^ 24 := by
  have hB0 : 0 < B := lt_of_lt_of_le (by positivity) hB
  suffices h : ∃ g, filled lib vs = .ok g ∧ g.Sound ∧ g.count = vs.length ∧ |g.mean.val| ≤ B ∧
      g.countTimesVariance.val ≤ 5 * B ^ 2 * vs.length ∧
      |g.mean.val - vs.sum / vs.length| ≤ (vs.length + 11) * B / 2 ^ 25 ∧
      |g.countTimesVariance.val - Spec.spread vs| ≤
        (4 * vs.length ^ 2 + 40 * vs.length) * B ^ 2 / 2 ^ 24 by
    obtain ⟨g, h1, -, -, -, -, h2, h3⟩ := h
    exact ⟨g, h1, h2, h3⟩
  induction vs using List.reverseRecOn with
  | nil =>
    have h : nearest (((0 : ℤ) : ℝ) / ((1 : ℕ) : ℝ)) = 0 := by
      rw [Int.cast_zero, zero_div, Factor.nearest_zero]
    refine ⟨Group.init, rfl, Group.sound_init, rfl, ?_, ?_, ?_, ?_⟩
    · simp only [Group.init, Single.val_lit, h, abs_zero]; exact hB0.le
    · simp only [Group.init, Single.val_lit, h]; positivity
    · simp only [Group.init, Single.val_lit, h]; simp; positivity
    · simp only [Group.init, Single.val_lit, h]; simp [Spec.spread]
  | append_singleton vs v ih =>
    have hl : vs.length + 1 ≤ 2 ^ 20 := by simpa using hlen
    have hbs : ∀ w ∈ vs, |w| ≤ B := fun w hw => hb w (List.mem_append_left _ hw)
    obtain ⟨g, hg, hS, hc, hm, hcv, hE, hF⟩ := ih (fun w hw => hs w (List.mem_append_left _ hw)) hbs (by omega)
    have hv := hs v (by simp)
    have hvB := hb v (by simp)
    have hlt : g.count + 1 < 2 ^ 31 := by rw [hc]; omega
    have hadd := Group.addValue_single hS.count hlt v
    obtain ⟨s1, s2, s3, s4⟩ := Group.mean_step hS hv
    obtain ⟨hS', hc', -, -, -, -⟩ := hS.add hv hadd
    have hfill := filled_append (lib := lib) vs v
    rw [hg, Res.ok_bind, hadd] at hfill
    have ecount : ((g.count + 1 : ℤ) : ℝ) = ((vs.length + 1 : ℕ) : ℝ) := by rw [hc]; push_cast; rfl
    set m' := nearest (g.mean.val + nearest (nearest (v - g.mean.val) / nearest ((g.count + 1 : ℤ) : ℝ))) with hm'
    have hm'B : |m'| ≤ B := by
      rw [abs_le] at hm hvB ⊢
      exact ⟨(le_min hm.1 hvB.1).trans s1, s2.trans (max_le hm.2 hvB.2)⟩
    have hlen' : ((vs ++ [v]).length : ℝ) = vs.length + 1 := by simp
    have hsum' : (vs ++ [v]).sum = vs.sum + v := by simp
    -- the mean
    have hE' : |m' - (vs ++ [v]).sum / (vs ++ [v]).length| ≤ ((vs ++ [v]).length + 11) * B / 2 ^ 25 := by
      rw [hlen', hsum']
      rcases Nat.eq_zero_or_pos vs.length with h0 | h0
      · have he : vs = [] := List.length_eq_zero_iff.1 h0
        rw [s3 (by rw [hc, h0]; rfl), he]
        simp
        positivity
      · have step := Single.mean_error (n := vs.length + 1) hS.mean hv hm hvB hB (by omega) (by omega)
        rw [← ecount, ← hm', ecount] at step
        have hn1 : (1 : ℝ) ≤ vs.length := by exact_mod_cast h0
        push_cast at step
        generalize (vs.length : ℝ) = n at *
        have hn0 : 0 < n := by linarith
        have hn0' : 0 < n + 1 := by linarith
        have key : (n + 1) * (m' - (vs.sum + v) / (n + 1)) =
            (n + 1) * (m' - (g.mean.val + (v - g.mean.val) / (n + 1))) + n * (g.mean.val - vs.sum / n) := by
          field_simp
          ring
        have tri : (n + 1) * |m' - (vs.sum + v) / (n + 1)| ≤
            (n + 1) * |m' - (g.mean.val + (v - g.mean.val) / (n + 1))| + n * |g.mean.val - vs.sum / n| := by
          rw [← abs_of_pos hn0', ← abs_mul, abs_of_pos hn0', key]
          refine (abs_add_le _ _).trans ?_
          rw [abs_mul, abs_mul, abs_of_pos hn0, abs_of_pos hn0']
        have h2 : n * |g.mean.val - vs.sum / n| ≤ n * ((n + 11) * B / 2 ^ 25) := by gcongr
        have h3 : (n + 1) * |m' - (vs.sum + v) / (n + 1)| ≤ (n + 1) * ((n + 1 + 11) * B / 2 ^ 25) := by
          refine (tri.trans (add_le_add step h2)).trans (le_of_eq_of_le ?_ le_rfl)
          ring
        exact le_of_mul_le_mul_left h3 hn0'
    have hn20 : (((vs.length + 1 : ℕ)) : ℝ) ≤ 2 ^ 20 := by exact_mod_cast hl
    obtain ⟨c1, c2⟩ := Single.spread_error (n := vs.length + 1) (v := v) (m' := m')
      (c := g.countTimesVariance.val) (S := Spec.spread vs) hm hm'B hvB (mean_abs_le vs hB0.le hbs) hB hn20
      (by push_cast; linarith [Nat.cast_nonneg (α := ℝ) vs.length]) hE hE' hS.nonneg
      (by push_cast; rw [add_sub_cancel_right]; exact hcv) hF (Group.nearest_mul_nonneg s4)
    refine ⟨_, hfill, hS', ?_, hm'B, ?_, hE', ?_⟩
    · rw [hc', hc]; simp
    · rw [hlen']; push_cast at c1; exact c1
    · rw [Spec.spread_append]
      refine c2.trans ?_
      rw [hlen']
      push_cast
      have hn0 : (0 : ℝ) ≤ vs.length := Nat.cast_nonneg _
      generalize (vs.length : ℝ) = n at hn0 ⊢
      have hBn : 0 ≤ B ^ 2 * n := by positivity
      have hBB : 0 ≤ B ^ 2 := by positivity
      have : (4 * (n + 1) ^ 2 + 40 * (n + 1)) * B ^ 2 / 2 ^ 24 -
          ((4 * n ^ 2 + 40 * n) * B ^ 2 / 2 ^ 24 + B * (2.01 * ((n + 11) * B / 2 ^ 25) +
            2 * ((n + 1 + 11) * B / 2 ^ 25)) + B ^ 2 / 2 ^ 24 * (5.01 * (n + 1) + 13)) =
          (B ^ 2 * n * (8 - 7.015) + B ^ 2 * (44 - 41.065)) / 2 ^ 24 := by
        ring
      have : 0 ≤ (B ^ 2 * n * (8 - 7.015) + B ^ 2 * (44 - 41.065)) / 2 ^ 24 := by
        apply div_nonneg _ (by norm_num)
        have := mul_nonneg hBn (by norm_num : (0 : ℝ) ≤ 8 - 7.015)
        have := mul_nonneg hBB (by norm_num : (0 : ℝ) ≤ 44 - 41.065)
        linarith
      linarith

/-- Three readings around a thousand. -/
example : ∃ g, filled lib [1000, 1001, 1003.5] = .ok g ∧
    |g.mean.val - 1001.5| ≤ 1 / 2048 ∧ |g.countTimesVariance.val - 6.5| ≤ 10 := by
  obtain ⟨g, h1, h2, h3⟩ := C88_accurate (lib := lib) 1004 (by norm_num) [1000, 1001, 1003.5] (by
    intro v hv
    simp only [List.mem_cons, List.not_mem_nil, or_false] at hv
    rcases hv with rfl | rfl | rfl
    · exact Single.near_eq 1000 0 (by norm_num) (by norm_num) (by norm_num)
    · exact Single.near_eq 1001 0 (by norm_num) (by norm_num) (by norm_num)
    · exact Single.near_eq 2007 (-1) (by norm_num) (by norm_num) (by norm_num)) (by
    intro v hv
    simp only [List.mem_cons, List.not_mem_nil, or_false] at hv
    rcases hv with rfl | rfl | rfl <;> norm_num [abs_le]) (by norm_num)
  refine ⟨g, h1, ?_, ?_⟩
  · have e : ([1000, 1001, 1003.5] : List ℝ).sum / (([1000, 1001, 1003.5] : List ℝ).length : ℝ) = 1001.5 := by
      norm_num
    rw [e] at h2
    refine h2.trans ?_
    norm_num
  · have e : Spec.spread [1000, 1001, 1003.5] = 6.5 := by unfold Spec.spread; norm_num
    rw [e] at h3
    refine h3.trans ?_
    norm_num

end NICH

end Dist
