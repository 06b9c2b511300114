import Verif.Lemmas.SingleNich

/-! # The running mean and variance of the normal model in single precision -/

namespace Dist

open FloatOps FloatNotation

namespace nearest

theorem quantum_of {x : ℝ} {e : ℤ} (h1 : (2 : ℝ) ^ (e + 23) ≤ x) (h2 : x < 2 ^ (e + 24))
    (he : -149 ≤ e) : quantum x = e := by
  have hx : 0 < x := lt_of_lt_of_le (by positivity) h1
  have : Int.log 2 |x| = e + 23 := by
    rw [abs_of_pos hx]
    apply le_antisymm
    · have := log_lt (k := e + 24) hx.ne' (by rwa [abs_of_pos hx])
      rw [abs_of_pos hx] at this; omega
    · exact (Int.zpow_le_iff_le_log (by norm_num) hx).1 (by exact_mod_cast h1)
  unfold quantum
  rw [this]
  omega

/-- Rounding a number whose exponent is known. -/
theorem eval {x : ℝ} (m e : ℤ) (h1 : (2 : ℝ) ^ (e + 23) ≤ x) (h2 : x < 2 ^ (e + 24))
    (he : -149 ≤ e) (hm : |x / 2 ^ e - m| < 1 / 2) : nearest x = m * 2 ^ e := by
  unfold nearest
  rw [quantum_of h1 h2 he, roundEven.eq_of hm]

/-- A tie goes to the even neighbour: downwards. -/
theorem eval_tie_down {x : ℝ} (m e : ℤ) (h1 : (2 : ℝ) ^ (e + 23) ≤ x) (h2 : x < 2 ^ (e + 24))
    (he : -149 ≤ e) (hm : x / 2 ^ e = m + 1 / 2) (hv : Even m) : nearest x = m * 2 ^ e := by
  unfold nearest
  rw [quantum_of h1 h2 he, hm]
  have hf : ⌊(m : ℝ) + 1 / 2⌋ = m := by
    rw [Int.floor_eq_iff]; constructor <;> linarith
  have : roundEven ((m : ℝ) + 1 / 2) = m := by
    unfold roundEven
    rw [hf, if_pos (Or.inr ⟨by ring, hv⟩)]
  rw [this]

/-- A tie goes to the even neighbour: upwards. -/
theorem eval_tie_up {x : ℝ} (m e : ℤ) (h1 : (2 : ℝ) ^ (e + 23) ≤ x) (h2 : x < 2 ^ (e + 24))
    (he : -149 ≤ e) (hm : x / 2 ^ e = m - 1 / 2) (hv : Even m) : nearest x = m * 2 ^ e := by
  unfold nearest
  rw [quantum_of h1 h2 he, hm]
  have hf : ⌊(m : ℝ) - 1 / 2⌋ = m - 1 := by
    rw [Int.floor_eq_iff]; push_cast; constructor <;> linarith
  have : roundEven ((m : ℝ) - 1 / 2) = m := by
    unfold roundEven
    rw [hf, if_neg]
    · ring
    · push_cast
      rintro (h | ⟨-, h⟩)
      · linarith
      · rw [Int.even_sub] at h
        simp [hv] at h
  rw [this]

/-- A rounded number is a multiple of the smallest positive one. -/
theorem multiple (x : ℝ) : ∃ k : ℤ, nearest x = k * 2 ^ (-149 : ℤ) := by
  have hq : -149 ≤ quantum x := by unfold quantum; omega
  obtain ⟨j, hj⟩ := Int.eq_ofNat_of_zero_le (show 0 ≤ quantum x + 149 by omega)
  refine ⟨roundEven (x / 2 ^ quantum x) * 2 ^ j, ?_⟩
  unfold nearest
  rw [show quantum x = (j : ℤ) + (-149) by omega, zpow_add₀ (by norm_num), ← mul_assoc]
  push_cast
  norm_cast

theorem le_of_le {x y : ℝ} (hy : nearest y = y) (h : x ≤ y) : nearest x ≤ y := by
  rw [← hy]; exact monotone h

theorem ge_of_ge {x y : ℝ} (hy : nearest y = y) (h : y ≤ x) : y ≤ nearest x := by
  rw [← hy]; exact monotone h

theorem neg (x : ℝ) : nearest (-x) = -nearest x := by
  have key : ∀ y : ℝ, roundEven (-y) = -roundEven y := by
    intro y
    rcases eq_or_ne y ⌊y⌋ with h | h
    · rw [h, roundEven.intCast]
      have := roundEven.intCast (-⌊y⌋)
      push_cast at this
      exact this
    · have hf : ⌊-y⌋ = -⌊y⌋ - 1 := by
        have h1 := Int.floor_le y
        have h2 := Int.lt_floor_add_one y
        have h3 : (⌊y⌋ : ℝ) < y := lt_of_le_of_ne h1 (Ne.symm h)
        rw [Int.floor_eq_iff]; push_cast; constructor <;> linarith
      unfold roundEven
      rw [hf]
      push_cast
      have e : ∀ n : ℤ, Even (-n - 1) ↔ ¬ Even n := by
        intro n
        rw [Int.even_sub, even_neg]
        simp
      have e := e ⌊y⌋
      by_cases h5 : y - ⌊y⌋ < 1 / 2
      · rw [if_neg, if_pos (Or.inl h5)]
        · ring
        · rintro (h6 | ⟨h6, -⟩) <;> linarith
      · by_cases h7 : y - ⌊y⌋ = 1 / 2
        · by_cases h8 : Even ⌊y⌋
          · rw [if_neg, if_pos (Or.inr ⟨h7, h8⟩)]
            · ring
            · rintro (h6 | ⟨-, h6⟩)
              · linarith
              · exact e.1 h6 h8
          · rw [if_pos (Or.inr ⟨by linarith, e.2 h8⟩), if_neg]
            · ring
            · rintro (h6 | ⟨-, h6⟩)
              · exact h5 h6
              · exact h8 h6
        · have h9 : 1 / 2 < y - ⌊y⌋ := lt_of_le_of_ne (not_lt.1 h5) (Ne.symm h7)
          rw [if_pos (Or.inl (by linarith)), if_neg]
          · ring
          · rintro (h6 | ⟨h6, -⟩) <;> linarith
  unfold nearest
  rw [quantum_neg, neg_div, key]
  push_cast
  ring

end nearest

namespace Single

/-- Part of the way from one number to a larger one, computed in single precision, is at most the
whole way, if the part is at most one half. -/
theorem part_le {m v c : ℝ} (hm : nearest m = m) (hv : nearest v = v) (h : m ≤ v) (hc : 2 ≤ c) :
    0 ≤ nearest (nearest (v - m) / c) ∧ nearest (nearest (v - m) / c) ≤ v - m := by
  have hd : 0 ≤ v - m := sub_nonneg.2 h
  have hn : 0 ≤ nearest (v - m) := nearest.neg_le_of_nonneg hd
  have hc0 : 0 < c := by linarith
  refine ⟨nearest.neg_le_of_nonneg (by positivity), ?_⟩
  rcases lt_or_ge (v - m) (2 ^ (-125 : ℤ)) with hs | hs
  · -- the difference is exact
    obtain ⟨k, hk⟩ := nearest.multiple v
    obtain ⟨l, hl⟩ := nearest.multiple m
    rw [hv] at hk
    rw [hm] at hl
    have e : v - m = ((k - l : ℤ) : ℝ) * 2 ^ (-149 : ℤ) := by push_cast; rw [hk, hl]; ring
    have hkl : |k - l| ≤ 2 ^ 24 := by
      have h0 : (0 : ℝ) ≤ ((k - l : ℤ) : ℝ) := by
        by_contra hneg
        push Not at hneg
        have : v - m < 0 := by
          rw [e]; exact mul_neg_of_neg_of_pos hneg (by positivity)
        linarith
      have h1 : ((k - l : ℤ) : ℝ) ≤ 2 ^ 24 := by
        by_contra hbig
        push Not at hbig
        have : (2 : ℝ) ^ (-125 : ℤ) < v - m := by
          rw [e]
          calc (2 : ℝ) ^ (-125 : ℤ) = 2 ^ 24 * 2 ^ (-149 : ℤ) := by norm_num
            _ < _ := by gcongr
        linarith
      rw [abs_of_nonneg (by exact_mod_cast h0)]
      exact_mod_cast h1
    have ex : nearest (v - m) = v - m := by
      rw [e]; exact nearest.exact_of_le hkl (by norm_num)
    rw [ex]
    exact nearest.le_of_le ex (div_le_self hd (by linarith))
  · have b1 := (abs_le.1 (nearest.error (v - m))).2
    rw [abs_of_nonneg hd] at b1
    have b2 : nearest (nearest (v - m) / c) ≤ nearest (nearest (v - m) / 2) :=
      nearest.monotone (by gcongr)
    have b3 := (abs_le.1 (nearest.error (nearest (v - m) / 2))).2
    rw [abs_of_nonneg (by positivity)] at b3
    have t : (2⁻¹ : ℝ) ^ 150 ≤ (v - m) / 2 ^ 24 := by
      rw [le_div_iff₀ (by positivity)]
      refine le_trans ?_ hs
      norm_num
    generalize hw : (2⁻¹ : ℝ) ^ 150 = w at *
    norm_num at b1 b3 t
    linarith

/-- The new mean lies between the old one and the value: below. -/
theorem mean_between {m v c : ℝ} (hm : nearest m = m) (hv : nearest v = v) (h : m ≤ v) (hc : 2 ≤ c) :
    m ≤ nearest (m + nearest (nearest (v - m) / c)) ∧ nearest (m + nearest (nearest (v - m) / c)) ≤ v := by
  obtain ⟨h1, h2⟩ := part_le hm hv h hc
  exact ⟨nearest.ge_of_ge hm (by linarith), nearest.le_of_le hv (by linarith)⟩

/-- The new mean lies between the old one and the value: above. -/
theorem mean_between' {m v c : ℝ} (hm : nearest m = m) (hv : nearest v = v) (h : v ≤ m) (hc : 2 ≤ c) :
    v ≤ nearest (m + nearest (nearest (v - m) / c)) ∧ nearest (m + nearest (nearest (v - m) / c)) ≤ m := by
  have := mean_between (m := -m) (v := -v) (c := c) (by rw [nearest.neg, hm]) (by rw [nearest.neg, hv])
    (neg_le_neg h) hc
  rw [show -v - -m = -(v - m) by ring, nearest.neg, neg_div, nearest.neg,
    show -m + -nearest (nearest (v - m) / c) = -(m + nearest (nearest (v - m) / c)) by ring,
    nearest.neg] at this
  constructor <;> linarith [this.1, this.2]

theorem ofInt_ge_two {n : ℤ} (h : 2 ≤ n) : 2 ≤ nearest (n : ℝ) :=
  nearest.ge_of_ge (near_eq 2 0 (by norm_num) (by norm_num) (by norm_num)) (by exact_mod_cast h)

theorem nearest_one : nearest 1 = 1 := near_eq 1 0 (by norm_num) (by norm_num) (by norm_num)

/-- Beyond `2^26` times the square of the largest value, the sum of squares no longer grows. -/
theorem absorb {k : ℤ} (hk : -70 ≤ k) : nearest ((2 : ℝ) ^ (2 * k + 26) + 2 ^ (2 * k + 2)) = 2 ^ (2 * k + 26) := by
  have := nearest.eval_tie_down (x := (2 : ℝ) ^ (2 * k + 26) + 2 ^ (2 * k + 2)) (2 ^ 23) (2 * k + 3)
    ?_ ?_ (by omega) ?_ (by decide)
  · rw [this]
    push_cast
    rw [show 2 * k + 26 = 23 + (2 * k + 3) by ring, zpow_add₀ (by norm_num) 23]
    norm_cast
  · rw [show 2 * k + 3 + 23 = 2 * k + 26 by ring]
    have : (0 : ℝ) < 2 ^ (2 * k + 2) := by positivity
    linarith
  · rw [show 2 * k + 3 + 24 = 2 * k + 26 + 1 by ring, zpow_add₀ (by norm_num) (2 * k + 26) 1]
    have : (2 : ℝ) ^ (2 * k + 2) < 2 ^ (2 * k + 26) := zpow_lt_zpow_right₀ (by norm_num) (by omega)
    norm_num
    linarith
  · rw [add_div, ← zpow_sub₀ (by norm_num), ← zpow_sub₀ (by norm_num)]
    rw [show 2 * k + 26 - (2 * k + 3) = 23 by ring, show 2 * k + 2 - (2 * k + 3) = -1 by ring]
    norm_num

end Single

end Dist

namespace Dist

open FloatOps FloatNotation

namespace NICH.Group

variable {lib : Libm}

/-- What holds of the statistics of a group built by adding and merging. -/
structure Sound (g : Group (Single lib)) : Prop where
  count : 0 ≤ g.count
  mean : nearest g.mean.val = g.mean.val
  ctv : nearest g.countTimesVariance.val = g.countTimesVariance.val
  nonneg : 0 ≤ g.countTimesVariance.val
  empty : g.count = 0 → g.mean.val = 0

theorem sound_init : Sound (init : Group (Single lib)) := by
  have h : nearest (((0 : ℤ) : ℝ) / ((1 : ℕ) : ℝ)) = 0 := by
    rw [Int.cast_zero, zero_div, Factor.nearest_zero]
  refine ⟨le_refl _, ?_, ?_, ?_, fun _ => ?_⟩ <;>
    simp only [init, Single.val_lit, h, Factor.nearest_zero, le_refl]

theorem addValue_single {g : Group (Single lib)} (h0 : 0 ≤ g.count) (h : g.count + 1 < 2 ^ 31) (v : ℝ) :
    g.addValue ⟨v⟩ = .ok ⟨g.count + 1,
      ⟨nearest (g.mean.val + nearest (nearest (v - g.mean.val) / nearest ((g.count + 1 : ℤ) : ℝ)))⟩,
      ⟨nearest (g.countTimesVariance.val + nearest (nearest (v - g.mean.val) * nearest (v -
        nearest (g.mean.val + nearest (nearest (v - g.mean.val) / nearest ((g.count + 1 : ℤ) : ℝ))))))⟩⟩ := by
  unfold addValue
  rw [i32_of (by unfold InInt32 int32Min int32Max; omega)]
  rfl

/-- The new mean. -/
theorem mean_step {g : Group (Single lib)} (hg : g.Sound) {v : ℝ} (hv : nearest v = v) :
    let m := nearest (g.mean.val + nearest (nearest (v - g.mean.val) / nearest ((g.count + 1 : ℤ) : ℝ)))
    min g.mean.val v ≤ m ∧ m ≤ max g.mean.val v ∧ (g.count = 0 → m = v) ∧
      0 ≤ (v - g.mean.val) * (v - m) := by
  intro m
  rcases eq_or_lt_of_le hg.count with h | h
  · have e : m = v := by
      have hm := hg.empty h.symm
      show nearest (g.mean.val + nearest (nearest (v - g.mean.val) / nearest ((g.count + 1 : ℤ) : ℝ))) = v
      rw [hm, ← h]
      simp only [sub_zero, zero_add, Int.cast_one, Single.nearest_one, div_one, hv]
    rw [e]
    exact ⟨min_le_right _ _, le_max_right _ _, fun _ => rfl, by rw [sub_self, mul_zero]⟩
  · have hc := Single.ofInt_ge_two (n := g.count + 1) (by omega)
    rcases le_total g.mean.val v with hle | hle
    · obtain ⟨h1, h2⟩ := Single.mean_between hg.mean hv hle hc
      refine ⟨(min_le_left _ _).trans h1, h2.trans (le_max_right _ _), fun h' => by omega, ?_⟩
      exact mul_nonneg (by linarith) (sub_nonneg.2 h2)
    · obtain ⟨h1, h2⟩ := Single.mean_between' hg.mean hv hle hc
      refine ⟨(min_le_right _ _).trans h1, h2.trans (le_max_left _ _), fun h' => by omega, ?_⟩
      exact mul_nonneg_of_nonpos_of_nonpos (by linarith) (by linarith : v - m ≤ 0)

theorem nearest_mul_nonneg {a b : ℝ} (h : 0 ≤ a * b) : 0 ≤ nearest (nearest a * nearest b) := by
  apply nearest.neg_le_of_nonneg
  rcases lt_trichotomy a 0 with ha | ha | ha
  · have hb : b ≤ 0 := by
      by_contra hb
      push Not at hb
      have := mul_neg_of_neg_of_pos ha hb
      linarith
    exact mul_nonneg_of_nonpos_of_nonpos (nearest.nonpos_of_nonpos ha.le) (nearest.nonpos_of_nonpos hb)
  · rw [ha, Factor.nearest_zero, zero_mul]
  · have hb : 0 ≤ b := by
      by_contra hb
      push Not at hb
      have := mul_neg_of_pos_of_neg ha hb
      linarith
    exact mul_nonneg (nearest.neg_le_of_nonneg ha.le) (nearest.neg_le_of_nonneg hb)

/-- Adding a value. -/
theorem Sound.add {g g' : Group (Single lib)} (hg : g.Sound) {v : ℝ} (hv : nearest v = v)
    (h : g.addValue ⟨v⟩ = .ok g') :
    g'.Sound ∧ g'.count = g.count + 1 ∧ g.countTimesVariance.val ≤ g'.countTimesVariance.val ∧
      min g.mean.val v ≤ g'.mean.val ∧ g'.mean.val ≤ max g.mean.val v ∧ (g.count = 0 → g'.mean.val = v) := by
  have hlt : g.count + 1 < 2 ^ 31 := by
    unfold addValue at h
    rw [Res.bind_eq_ok] at h
    obtain ⟨c, hc, -⟩ := h
    have := (i32_eq_ok.1 hc).1
    unfold InInt32 int32Min int32Max at this
    omega
  rw [addValue_single hg.count hlt] at h
  injection h with h
  subst h
  obtain ⟨h1, h2, h3, h4⟩ := mean_step hg hv
  have hp := nearest_mul_nonneg h4
  have hge := nearest.ge_of_ge hg.ctv (le_add_of_nonneg_right hp)
  have := hg.count
  refine ⟨⟨by show 0 ≤ g.count + 1; omega, nearest.idem _, nearest.idem _, hg.nonneg.trans hge,
    fun h => ?_⟩, rfl, hge, h1, h2, h3⟩
  have : g.count + 1 = 0 := h
  omega

theorem Sound.add_ok {g : Group (Single lib)} (hg : g.Sound) (v : ℝ) (h : g.count + 1 < 2 ^ 31) :
    ∃ g', g.addValue ⟨v⟩ = .ok g' := ⟨_, addValue_single hg.count h v⟩

/-- The sum of squares stays below `2^26` times the square of the largest value. -/
theorem Sound.add_le {g g' : Group (Single lib)} (hg : g.Sound) {k : ℤ} (hk : -70 ≤ k) {v : ℝ}
    (hv : nearest v = v) (hv' : |v| ≤ 2 ^ k) (hm : |g.mean.val| ≤ 2 ^ k)
    (hc : g.countTimesVariance.val ≤ 2 ^ (2 * k + 26)) (h : g.addValue ⟨v⟩ = .ok g') :
    |g'.mean.val| ≤ 2 ^ k ∧ g'.countTimesVariance.val ≤ 2 ^ (2 * k + 26) := by
  obtain ⟨-, -, -, m1, m2, -⟩ := hg.add hv h
  have hm' : |g'.mean.val| ≤ 2 ^ k := by
    rw [abs_le] at hv' hm ⊢
    exact ⟨(le_min hm.1 hv'.1).trans m1, m2.trans (max_le hm.2 hv'.2)⟩
  refine ⟨hm', ?_⟩
  have hlt : g.count + 1 < 2 ^ 31 := by
    unfold addValue at h
    rw [Res.bind_eq_ok] at h
    obtain ⟨c, hc, -⟩ := h
    have := (i32_eq_ok.1 hc).1
    unfold InInt32 int32Min int32Max at this
    omega
  rw [addValue_single hg.count hlt] at h
  injection h with h
  subst h
  simp only at hm' ⊢
  set m := nearest (g.mean.val + nearest (nearest (v - g.mean.val) / nearest ((g.count + 1 : ℤ) : ℝ)))
  have e1 : nearest ((2 : ℝ) ^ (k + 1)) = 2 ^ (k + 1) :=
    Single.near_eq 1 (k + 1) (by push_cast; ring) (by norm_num) (by omega)
  have e2 : nearest ((2 : ℝ) ^ (2 * k + 2)) = 2 ^ (2 * k + 2) :=
    Single.near_eq 1 (2 * k + 2) (by push_cast; ring) (by norm_num) (by omega)
  have e3 : (2 : ℝ) ^ (k + 1) = 2 ^ k + 2 ^ k := by rw [zpow_add₀ (by norm_num)]; ring
  have e4 : (2 : ℝ) ^ (k + 1) * 2 ^ (k + 1) = 2 ^ (2 * k + 2) := by
    rw [← zpow_add₀ (by norm_num)]; congr 1; ring
  have bd : ∀ a : ℝ, |a| ≤ 2 ^ k → |nearest (v - a)| ≤ 2 ^ (k + 1) := by
    intro a ha
    rw [abs_le] at ha hv' ⊢
    constructor
    · have := nearest.ge_of_ge (x := v - a) (y := -2 ^ (k + 1)) (by rw [nearest.neg, e1]) (by rw [e3]; linarith)
      exact this
    · exact nearest.le_of_le e1 (by rw [e3]; linarith)
  have hp : nearest (nearest (v - g.mean.val) * nearest (v - m)) ≤ 2 ^ (2 * k + 2) := by
    apply nearest.le_of_le e2
    rw [← e4]
    refine (le_abs_self _).trans ?_
    rw [abs_mul]
    exact mul_le_mul (bd _ hm) (bd _ hm') (abs_nonneg _) (by positivity)
  rw [← Single.absorb hk]
  exact nearest.monotone (add_le_add hc hp)

/-- Merging. -/
theorem merge_single {g s g' : Group (Single lib)} (h : g.merge s = .ok g') :
    let n := g.count + s.count
    let part := nearest (nearest (s.count : ℝ) / nearest (n : ℝ))
    let d := nearest (s.mean.val - g.mean.val)
    g' = ⟨n, ⟨nearest (g.mean.val + nearest (part * d))⟩,
      ⟨nearest (g.countTimesVariance.val + nearest (s.countTimesVariance.val +
        nearest (nearest (nearest (g.count : ℝ) * part) * nearest (d * d))))⟩⟩ := by
  unfold merge at h
  rw [Res.bind_eq_ok] at h
  obtain ⟨c, hc, h⟩ := h
  obtain ⟨-, rfl⟩ := i32_eq_ok.1 hc
  have h : Res.ok _ = Res.ok g' := h
  injection h with h
  exact h.symm

theorem Sound.merge {g s g' : Group (Single lib)} (hg : g.Sound) (hs : s.Sound)
    (hn : 0 < g.count + s.count) (h : g.merge s = .ok g') :
    g'.Sound ∧ g'.count = g.count + s.count ∧ g.countTimesVariance.val ≤ g'.countTimesVariance.val ∧
      s.countTimesVariance.val ≤ g'.countTimesVariance.val := by
  have e := merge_single h
  simp only at e
  subst e
  have hn0 : ∀ k : ℤ, 0 ≤ k → 0 ≤ nearest (k : ℝ) := fun k hk =>
    nearest.neg_le_of_nonneg (by exact_mod_cast hk)
  have hpart : 0 ≤ nearest (nearest (s.count : ℝ) / nearest ((g.count + s.count : ℤ) : ℝ)) :=
    nearest.neg_le_of_nonneg (div_nonneg (hn0 _ hs.count) (hn0 _ hn.le))
  have hcr : 0 ≤ nearest (nearest (nearest (g.count : ℝ) *
      nearest (nearest (s.count : ℝ) / nearest ((g.count + s.count : ℤ) : ℝ))) *
      nearest (nearest (s.mean.val - g.mean.val) * nearest (s.mean.val - g.mean.val))) :=
    nearest.neg_le_of_nonneg (mul_nonneg (nearest.neg_le_of_nonneg (mul_nonneg (hn0 _ hg.count) hpart))
      (nearest.neg_le_of_nonneg (mul_self_nonneg _)))
  have h1 := nearest.ge_of_ge hs.ctv (le_add_of_nonneg_right hcr)
  have h2 := nearest.ge_of_ge hg.ctv (le_add_of_nonneg_right (hs.nonneg.trans h1))
  have h3 := nearest.ge_of_ge (nearest.idem _) (le_add_of_nonneg_left hg.nonneg (a := nearest (s.countTimesVariance.val + nearest (nearest (nearest (g.count : ℝ) *
      nearest (nearest (s.count : ℝ) / nearest ((g.count + s.count : ℤ) : ℝ))) *
      nearest (nearest (s.mean.val - g.mean.val) * nearest (s.mean.val - g.mean.val))))))
  refine ⟨⟨hn.le, nearest.idem _, nearest.idem _, hg.nonneg.trans h2, fun h => absurd h hn.ne'⟩, rfl, h2,
    h1.trans h3⟩

end NICH.Group

end Dist
