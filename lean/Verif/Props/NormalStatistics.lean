import Verif.Lemmas.SingleWelford
import Verif.Spec.Spread
import Mathlib.Tactic.Linarith
import Mathlib.Tactic.NormNum

/-!
# C88: the statistics of a group of the normal model in single precision

`add_value`, `remove_value` and `merge` of `NormalInverseChiSq` with every operation rounded to the
nearest single-precision number.  `nearest v = v` says that `v` is such a number.
-/

namespace Dist

open FloatOps FloatNotation

namespace NICH

variable {lib : Libm}

/-- A new group to which the values are added one by one. -/
noncomputable def filled (lib : Libm) (vs : List ℝ) : Res (Group (Single lib)) :=
  (vs.map Single.mk).foldlM Group.addValue Group.init

/-- A group reached from empty ones by adding single-precision values and merging. -/
inductive Built : Group (Single lib) → Prop
  | init : Built Group.init
  | add {g g' : Group (Single lib)} {v : ℝ} : Built g → nearest v = v → g.addValue ⟨v⟩ = .ok g' → Built g'
  | merge {g s g' : Group (Single lib)} : Built g → Built s → 0 < g.count + s.count →
      g.merge s = .ok g' → Built g'

theorem filled_append (vs : List ℝ) (v : ℝ) :
    filled lib (vs ++ [v]) = filled lib vs >>= fun g => g.addValue ⟨v⟩ := by
  unfold filled
  rw [List.map_append, List.foldlM_append]
  congr 1
  funext g
  show ((g.addValue ⟨v⟩).bind fun g' => pure g') = _
  cases g.addValue ⟨v⟩ <;> rfl

theorem filled_spec (vs : List ℝ) (hs : ∀ v ∈ vs, nearest v = v) (hlen : vs.length < 2 ^ 31) :
    ∃ g, filled lib vs = .ok g ∧ g.Sound ∧ g.count = vs.length ∧ Built g ∧
      (vs ≠ [] → ∀ lo hi, (∀ v ∈ vs, lo ≤ v ∧ v ≤ hi) → lo ≤ g.mean.val ∧ g.mean.val ≤ hi) := by
  induction vs using List.reverseRecOn with
  | nil => exact ⟨Group.init, rfl, Group.sound_init, rfl, .init, fun h => absurd rfl h⟩
  | append_singleton vs v ih =>
    have hl : vs.length + 1 < 2 ^ 31 := by simpa using hlen
    obtain ⟨g, hg, hS, hc, hB, hm⟩ := ih (fun w hw => hs w (List.mem_append_left _ hw)) (by omega)
    have hv := hs v (by simp)
    obtain ⟨g', h'⟩ := hS.add_ok v (by rw [hc]; exact_mod_cast hl)
    obtain ⟨hS', hc', -, m1, m2, m3⟩ := hS.add hv h'
    refine ⟨g', ?_, hS', ?_, .add hB hv h', fun _ lo hi hb => ?_⟩
    · rw [filled_append, hg]; exact h'
    · rw [hc', hc]; simp
    · have bv := hb v (by simp)
      rcases eq_or_ne vs [] with he | he
      · subst he
        rw [m3 (by rw [hc]; rfl)]
        exact bv
      · obtain ⟨b1, b2⟩ := hm he lo hi fun w hw => hb w (List.mem_append_left _ hw)
        exact ⟨(le_min b1 bv.1).trans m1, m2.trans (max_le b2 bv.2)⟩

/-- **C88 (adding).** However many values are added, the count is right, the accumulated variance
is not negative, and the mean is not outside the range of the values. -/
theorem C88_add (vs : List ℝ) (hs : ∀ v ∈ vs, nearest v = v) (hlen : vs.length < 2 ^ 31) :
    ∃ g, filled lib vs = .ok g ∧ g.count = vs.length ∧ 0 ≤ g.countTimesVariance.val ∧
      (vs ≠ [] → ∀ lo hi, (∀ v ∈ vs, lo ≤ v ∧ v ≤ hi) → lo ≤ g.mean.val ∧ g.mean.val ≤ hi) := by
  obtain ⟨g, h1, h2, h3, -, h4⟩ := filled_spec (lib := lib) vs hs hlen
  exact ⟨g, h1, h3, h2.nonneg, h4⟩

/-- **C88 (growing).** Adding more values never decreases the accumulated variance. -/
theorem C88_grows (vs ws : List ℝ) (hs : ∀ v ∈ vs ++ ws, nearest v = v) (hlen : (vs ++ ws).length < 2 ^ 31) :
    ∃ g g', filled lib vs = .ok g ∧ filled lib (vs ++ ws) = .ok g' ∧
      g.countTimesVariance.val ≤ g'.countTimesVariance.val := by
  induction ws using List.reverseRecOn with
  | nil =>
    obtain ⟨g, h, -⟩ := filled_spec (lib := lib) vs (fun v hv => hs v (by simpa using hv)) (by simpa using hlen)
    exact ⟨g, g, h, by simpa using h, le_refl _⟩
  | append_singleton ws w ih =>
    rw [← List.append_assoc] at hs hlen ⊢
    have hl : (vs ++ ws).length + 1 < 2 ^ 31 := by
      rw [List.length_append] at hlen; simpa using hlen
    obtain ⟨g, g1, e1, e2, hle⟩ := ih (fun v hv => hs v (List.mem_append_left _ hv)) (by omega)
    obtain ⟨g1', e2', hS, hc, -⟩ := filled_spec (lib := lib) (vs ++ ws)
      (fun v hv => hs v (List.mem_append_left _ hv)) (by omega)
    rw [e2] at e2'
    injection e2' with e2'
    subst e2'
    obtain ⟨g', h'⟩ := hS.add_ok w (by rw [hc]; exact_mod_cast hl)
    obtain ⟨-, -, hge, -⟩ := hS.add (hs w (by simp)) h'
    exact ⟨g, g', e1, by rw [filled_append, e2]; exact h', hle.trans hge⟩

/-- **C88 (bounded).** The accumulated variance of values of size at most `2^k` never exceeds
`2^26 * (2^k)^2`, however many values are added.  In particular nothing overflows. -/
theorem C88_bounded (k : ℤ) (hk : -70 ≤ k) (vs : List ℝ) (hs : ∀ v ∈ vs, nearest v = v)
    (hb : ∀ v ∈ vs, |v| ≤ 2 ^ k) (hlen : vs.length < 2 ^ 31) :
    ∃ g, filled lib vs = .ok g ∧ g.countTimesVariance.val ≤ 2 ^ (2 * k + 26) := by
  suffices h : ∃ g, filled lib vs = .ok g ∧ g.Sound ∧ g.count = vs.length ∧ |g.mean.val| ≤ 2 ^ k ∧
      g.countTimesVariance.val ≤ 2 ^ (2 * k + 26) by
    obtain ⟨g, h1, -, -, -, h2⟩ := h
    exact ⟨g, h1, h2⟩
  induction vs using List.reverseRecOn with
  | nil =>
    have h : nearest (((0 : ℤ) : ℝ) / ((1 : ℕ) : ℝ)) = 0 := by
      rw [Int.cast_zero, zero_div, Factor.nearest_zero]
    refine ⟨Group.init, rfl, Group.sound_init, rfl, ?_, ?_⟩
    · simp only [Group.init, Single.val_lit, h, abs_zero]; positivity
    · simp only [Group.init, Single.val_lit, h]; positivity
  | append_singleton vs v ih =>
    have hl : vs.length + 1 < 2 ^ 31 := by simpa using hlen
    obtain ⟨g, hg, hS, hc, hm, hB⟩ := ih (fun w hw => hs w (List.mem_append_left _ hw))
      (fun w hw => hb w (List.mem_append_left _ hw)) (by omega)
    have hv := hs v (by simp)
    obtain ⟨g', h'⟩ := hS.add_ok v (by rw [hc]; exact_mod_cast hl)
    obtain ⟨hS', hc', -⟩ := hS.add hv h'
    obtain ⟨b1, b2⟩ := hS.add_le hk hv (hb v (by simp)) hm hB h'
    exact ⟨g', by rw [filled_append, hg]; exact h', hS', by rw [hc', hc]; simp, b1, b2⟩

theorem alternating_facts (m : ℕ) : (Spec.alternating m).length = 2 * m ∧ (Spec.alternating m).sum = 0 ∧
    (∀ v ∈ Spec.alternating m, v = 1 ∨ v = -1) := by
  induction m with
  | zero => simp [Spec.alternating]
  | succ m ih =>
    have e : Spec.alternating (m + 1) = 1 :: -1 :: Spec.alternating m := by
      simp [Spec.alternating, List.replicate_succ]
    obtain ⟨h1, h2, h3⟩ := ih
    rw [e]
    refine ⟨by simp [h1]; ring, by simp [h2], ?_⟩
    intro v hv
    simp only [List.mem_cons] at hv
    rcases hv with h | h | h
    · exact .inl h
    · exact .inr h
    · exact h3 v h

theorem alternating_spread (m : ℕ) : Spec.spread (Spec.alternating m) = 2 * m := by
  obtain ⟨h1, h2, h3⟩ := alternating_facts m
  unfold Spec.spread
  rw [h2, zero_div]
  have : (Spec.alternating m).map (fun v => (v - 0) ^ 2) = List.replicate (2 * m) 1 := by
    rw [← h1]
    refine List.eq_replicate_iff.2 ⟨by simp, ?_⟩
    intro b hb
    obtain ⟨v, hv, rfl⟩ := List.mem_map.1 hb
    rcases h3 v hv with h | h <;> rw [h] <;> norm_num
  rw [this]
  simp

/-- **C88 (finding).** The accumulated variance stops growing: of `2 m` values one and minus one
in turns, whose variance is one, it is at most `2^26`, however large `m` is. -/
theorem C88_stalls (m : ℕ) (hm : 2 * m < 2 ^ 31) :
    Spec.spread (Spec.alternating m) = 2 * m ∧
      ∃ g, filled lib (Spec.alternating m) = .ok g ∧ g.count = 2 * m ∧ g.countTimesVariance.val ≤ 2 ^ 26 := by
  obtain ⟨h1, -, h3⟩ := alternating_facts m
  have hs : ∀ v ∈ Spec.alternating m, nearest v = v := by
    intro v hv
    rcases h3 v hv with h | h <;> rw [h]
    · exact Single.nearest_one
    · rw [nearest.neg, Single.nearest_one]
  obtain ⟨g, e, hb⟩ := C88_bounded (lib := lib) 0 (by norm_num) (Spec.alternating m) hs (by
    intro v hv
    rcases h3 v hv with h | h <;> rw [h] <;> norm_num) (by omega)
  obtain ⟨g', e', hc, -⟩ := C88_add (lib := lib) (Spec.alternating m) hs (by omega)
  rw [e] at e'
  injection e' with e'
  subst e'
  refine ⟨alternating_spread m, g, e, by rw [hc, h1]; push_cast; ring, ?_⟩
  norm_num at hb ⊢
  exact hb

theorem Built.sound {g : Group (Single lib)} (h : Built g) : g.Sound := by
  induction h with
  | init => exact Group.sound_init
  | add _ hv h ih => exact (ih.add hv h).1
  | merge _ _ hn h ih ih' => exact (ih.merge ih' hn h).1

theorem Built.spread_zero {g : Group (Single lib)} (h : Built g) (h0 : g.count = 0) :
    g.countTimesVariance.val = 0 := by
  cases h with
  | init =>
    show nearest (((0 : ℤ) : ℝ) / ((1 : ℕ) : ℝ)) = 0
    rw [Int.cast_zero, zero_div, Factor.nearest_zero]
  | add hg hv h =>
    have := (hg.sound.add hv h).2.1
    have := hg.sound.count
    omega
  | merge hg hs hn h =>
    have := (hg.sound.merge hs.sound hn h).2.1
    omega

/-- **C88 (merging).** The accumulated variance of a merged group is at least that of each part. -/
theorem C88_merge {g s g' : Group (Single lib)} (hg : Built g) (hs : Built s) (hn : 0 < g.count + s.count)
    (h : g.merge s = .ok g') :
    g'.count = g.count + s.count ∧ 0 ≤ g'.countTimesVariance.val ∧
      g.countTimesVariance.val ≤ g'.countTimesVariance.val ∧
      s.countTimesVariance.val ≤ g'.countTimesVariance.val := by
  obtain ⟨h1, h2, h3, h4⟩ := hg.sound.merge hs.sound hn h
  exact ⟨h2, h1.nonneg, h3, h4⟩

/-- **C88 (merging into an empty group).** It copies the source exactly; an empty source changes
nothing. -/
theorem C88_merge_empty {g s g' : Group (Single lib)} (hg : Built g) (hs : Built s)
    (hn : 0 < g.count + s.count) (h : g.merge s = .ok g') :
    (g.count = 0 → g' = s) ∧ (s.count = 0 → g' = g) := by
  have hz := hg.spread_zero
  have hz' := hs.spread_zero
  have hg := hg.sound
  have hs := hs.sound
  have e := Group.merge_single h
  simp only at e
  subst e
  constructor
  · intro h0
    have hz := hz h0
    have hm := hg.empty h0
    have hp : 0 < nearest (s.count : ℝ) := lt_of_lt_of_le one_pos
      (nearest.ge_of_ge Single.nearest_one (by exact_mod_cast (by omega : 1 ≤ s.count)))
    obtain ⟨sc, ⟨sm⟩, ⟨sv⟩⟩ := s
    simp only [h0, hm, hz, zero_add, Int.cast_zero, Factor.nearest_zero, zero_mul, add_zero, sub_zero] at hp hs ⊢
    rw [div_self hp.ne', Single.nearest_one, one_mul]
    have h1 := hs.mean
    have h2 := hs.ctv
    simp only at h1 h2
    rw [h1, h1, h1, h2, h2]
  · intro h0
    have hzs := hz' h0
    obtain ⟨gc, ⟨gm⟩, ⟨gv⟩⟩ := g
    have h1 := hg.mean
    have h2 := hg.ctv
    simp only at h1 h2
    simp only [h0, hzs, add_zero, Int.cast_zero, Factor.nearest_zero, zero_mul, zero_div, mul_zero, h1, h2]

/-- **C88 (posterior).** With a prior that is neither tiny nor huge, the posterior variance of a
group built by adding and merging is positive, and so are the other posterior parameters. -/
theorem C88_posterior (sh : Shared (Single lib)) {g : Group (Single lib)} (hg : Built g)
    (hcount : g.count < 2 ^ 31) (hk : 0 < sh.kappa.val) (hk' : nearest sh.kappa.val = sh.kappa.val)
    (hn : 1 / 2 ^ 40 ≤ sh.nu.val) (hn' : sh.nu.val ≤ 2 ^ 40) (hs : 1 / 2 ^ 40 ≤ sh.sigmasq.val) :
    0 < (sh.plusGroup g).kappa.val ∧ 0 < (sh.plusGroup g).nu.val ∧ 0 < (sh.plusGroup g).sigmasq.val := by
  have hS := hg.sound
  have hc0 : 0 ≤ nearest (g.count : ℝ) := nearest.neg_le_of_nonneg (by exact_mod_cast hS.count)
  have p40 : nearest ((1 : ℝ) / 2 ^ 40) = 1 / 2 ^ 40 :=
    Single.near_eq 1 (-40) (by norm_num) (by norm_num) (by norm_num)
  have hc1 : nearest (g.count : ℝ) ≤ 2 ^ 31 := nearest.le_of_le
    (Single.near_eq 1 31 (by norm_num) (by norm_num) (by norm_num)) (by exact_mod_cast hcount.le)
  have k1 : 0 < nearest (sh.kappa.val + nearest (g.count : ℝ)) :=
    lt_of_lt_of_le hk (nearest.ge_of_ge hk' (by linarith))
  have n1 : 1 / 2 ^ 40 ≤ nearest (sh.nu.val + nearest (g.count : ℝ)) := nearest.ge_of_ge p40 (by linarith)
  have n2 : nearest (sh.nu.val + nearest (g.count : ℝ)) ≤ 2 ^ 41 := nearest.le_of_le
    (Single.near_eq 1 41 (by norm_num) (by norm_num) (by norm_num)) (by
      calc sh.nu.val + nearest (g.count : ℝ) ≤ 2 ^ 40 + 2 ^ 31 := add_le_add hn' hc1
        _ ≤ 2 ^ 41 := by norm_num)
  have n0 : 0 < nearest (sh.nu.val + nearest (g.count : ℝ)) := lt_of_lt_of_le (by positivity) n1
  refine ⟨k1, n0, ?_⟩
  have h1 : nearest (((1 : ℤ) : ℝ) / ((1 : ℕ) : ℝ)) = 1 := by
    rw [show (((1 : ℤ) : ℝ) / ((1 : ℕ) : ℝ)) = 1 by norm_num, Single.nearest_one]
  simp only [Shared.plusGroup, Single.val_add, Single.val_sub, Single.val_mul, Single.val_div,
    Single.val_ofInt, Single.val_lit, h1]
  have a1 : 1 / 2 ^ 41 ≤ nearest (1 / nearest (sh.nu.val + nearest (g.count : ℝ))) :=
    nearest.ge_of_ge (Single.near_eq 1 (-41) (by norm_num) (by norm_num) (by norm_num))
      (one_div_le_one_div_of_le n0 n2)
  have p80 : nearest ((1 : ℝ) / 2 ^ 80) = 1 / 2 ^ 80 :=
    Single.near_eq 1 (-80) (by norm_num) (by norm_num) (by norm_num)
  have b1 : 1 / 2 ^ 80 ≤ nearest (sh.nu.val * sh.sigmasq.val) := nearest.ge_of_ge p80 (by
    calc (1 : ℝ) / 2 ^ 80 = 1 / 2 ^ 40 * (1 / 2 ^ 40) := by norm_num
      _ ≤ _ := mul_le_mul hn hs (by positivity) (by linarith [hn, (by positivity : (0 : ℝ) < 1 / 2 ^ 40)]))
  have b2 : 1 / 2 ^ 80 ≤ nearest (nearest (sh.nu.val * sh.sigmasq.val) + g.countTimesVariance.val) :=
    nearest.ge_of_ge p80 (by linarith [hS.nonneg])
  set d := nearest (sh.mu.val - g.mean.val)
  have hw : 0 ≤ nearest (nearest (g.count : ℝ) * sh.kappa.val) :=
    nearest.neg_le_of_nonneg (mul_nonneg hc0 hk.le)
  have c1 : 0 ≤ nearest (nearest (nearest (nearest (g.count : ℝ) * sh.kappa.val) * d) * d) := by
    apply nearest.neg_le_of_nonneg
    rcases le_total 0 d with hd | hd
    · exact mul_nonneg (nearest.neg_le_of_nonneg (mul_nonneg hw hd)) hd
    · exact mul_nonneg_of_nonpos_of_nonpos (nearest.nonpos_of_nonpos (mul_nonpos_of_nonneg_of_nonpos hw hd)) hd
  have c2 := nearest.neg_le_of_nonneg (div_nonneg c1 k1.le)
  have b3 := nearest.ge_of_ge p80 (b2.trans (le_add_of_nonneg_right c2))
  refine lt_of_lt_of_le (by positivity : (0 : ℝ) < 1 / 2 ^ 121) ?_
  apply nearest.ge_of_ge (Single.near_eq 1 (-121) (by norm_num) (by norm_num) (by norm_num))
  calc (1 : ℝ) / 2 ^ 121 = 1 / 2 ^ 41 * (1 / 2 ^ 80) := by norm_num
    _ ≤ _ := mul_le_mul a1 b3 (by positivity) (le_trans (by positivity) a1)

/-- A group of equal values. -/
theorem filled_equal (n : ℕ) {v : ℝ} (hv : nearest v = v) (hn : 0 < n) (hlt : n < 2 ^ 31) :
    filled lib (List.replicate n v) = .ok ⟨n, ⟨v⟩, ⟨0⟩⟩ := by
  induction n with
  | zero => omega
  | succ n ih =>
    rw [List.replicate_succ', filled_append]
    rcases Nat.eq_zero_or_pos n with h | h
    · subst h
      have h0 : nearest (((0 : ℤ) : ℝ) / ((1 : ℕ) : ℝ)) = 0 := by
        rw [Int.cast_zero, zero_div, Factor.nearest_zero]
      have f0 : filled lib (List.replicate 0 v) = .ok Group.init := rfl
      rw [f0]
      rw [Res.ok_bind, Group.addValue_single (by simp [Group.init]) (by simp [Group.init])]
      simp only [Group.init, Single.val_lit, h0, sub_zero, hv, zero_add, Int.cast_one, Single.nearest_one,
        div_one, sub_self, Factor.nearest_zero, mul_zero]
      rfl
    · rw [ih h (by omega)]
      rw [Res.ok_bind, Group.addValue_single (by simp) (by show (n : ℤ) + 1 < 2 ^ 31; exact_mod_cast hlt)]
      simp only [sub_self, Factor.nearest_zero, zero_div, add_zero, hv, mul_zero]
      rfl

/-- **C88 (finding).** Removing can make the accumulated variance negative, and with it the
posterior variance: after adding 11184814 four times and removing it twice, the accumulated
variance is minus one. -/
theorem C88_remove_negative :
    ∃ g : Group (Single lib),
      (do
        let g ← filled lib [11184814, 11184814, 11184814, 11184814]
        let g ← g.removeValue ⟨11184814⟩
        g.removeValue ⟨11184814⟩) = Res.ok g ∧
      g.count = 2 ∧ g.mean.val = 11184813 ∧ g.countTimesVariance.val = -1 ∧
      (Shared.plusGroup ⟨⟨11184813⟩, ⟨1⟩, ⟨1 / 2⟩, ⟨1⟩⟩ g).sigmasq.val < 0 := by
  have hx : nearest 11184814 = 11184814 := Single.near_eq 11184814 0 (by norm_num) (by norm_num) (by norm_num)
  have hy : nearest 11184813 = 11184813 := Single.near_eq 11184813 0 (by norm_num) (by norm_num) (by norm_num)
  have h1 : nearest 1 = 1 := Single.nearest_one
  have h2 : nearest 2 = 2 := Single.near_eq 2 0 (by norm_num) (by norm_num) (by norm_num)
  have h3 : nearest 3 = 3 := Single.near_eq 3 0 (by norm_num) (by norm_num) (by norm_num)
  have h4 : nearest 4 = 4 := Single.near_eq 4 0 (by norm_num) (by norm_num) (by norm_num)
  have hl0 : nearest (((0 : ℤ) : ℝ) / ((1 : ℕ) : ℝ)) = 0 := by
    rw [Int.cast_zero, zero_div, Factor.nearest_zero]
  have r1 : nearest 44739256 = 44739256 := Single.near_eq 11184814 2 (by norm_num) (by norm_num) (by norm_num)
  have r2 : nearest 33554442 = 33554440 := by
    rw [nearest.eval_tie_down 8388610 2 (by norm_num) (by norm_num) (by norm_num) (by norm_num) (by decide)]
    norm_num
  have r3 : nearest (33554440 / 3) = 11184813 := by
    rw [nearest.eval 11184813 0 (by norm_num) (by norm_num) (by norm_num) (by norm_num [abs_lt])]
    norm_num
  have r4 : nearest 33554439 = 33554440 := by
    rw [nearest.eval 8388610 2 (by norm_num) (by norm_num) (by norm_num) (by norm_num [abs_lt])]
    norm_num
  have r5 : nearest 22369626 = 22369626 := Single.near_eq 11184813 1 (by norm_num) (by norm_num) (by norm_num)
  have f := filled_equal (lib := lib) 4 hx (by norm_num) (by norm_num)
  have s1 : Group.removeValue (⟨((4 : ℕ) : ℤ), ⟨11184814⟩, ⟨0⟩⟩ : Group (Single lib)) ⟨11184814⟩ =
      .ok ⟨3, ⟨11184813⟩, ⟨0⟩⟩ := by
    have e : (⟨(3 : ℤ), ⟨nearest (nearest (nearest (11184814 * nearest ((4 : ℕ) : ℤ)) - 11184814) / nearest ((3 : ℤ) : ℝ))⟩,
        ⟨nearest (0 - nearest (nearest (11184814 - 11184814) * nearest (11184814 -
          nearest (nearest (nearest (11184814 * nearest ((4 : ℕ) : ℤ)) - 11184814) / nearest ((3 : ℤ) : ℝ)))))⟩⟩ :
        Group (Single lib)) = ⟨3, ⟨11184813⟩, ⟨0⟩⟩ := by
      push_cast
      norm_num [h4, h3, r1, r2, r3, Factor.nearest_zero]
    rw [← e]
    rfl
  have s2 : Group.removeValue (⟨3, ⟨11184813⟩, ⟨0⟩⟩ : Group (Single lib)) ⟨11184814⟩ =
      .ok ⟨2, ⟨11184813⟩, ⟨-1⟩⟩ := by
    have e : (⟨(2 : ℤ), ⟨nearest (nearest (nearest (11184813 * nearest ((3 : ℤ) : ℝ)) - 11184814) / nearest ((2 : ℤ) : ℝ))⟩,
        ⟨nearest (0 - nearest (nearest (11184814 - 11184813) * nearest (11184814 -
          nearest (nearest (nearest (11184813 * nearest ((3 : ℤ) : ℝ)) - 11184814) / nearest ((2 : ℤ) : ℝ)))))⟩⟩ :
        Group (Single lib)) = ⟨2, ⟨11184813⟩, ⟨-1⟩⟩ := by
      push_cast
      norm_num [h2, h3, r4, r5, h1, hy, nearest.neg]
    rw [← e]
    rfl
  refine ⟨⟨2, ⟨11184813⟩, ⟨-1⟩⟩, ?_, rfl, rfl, rfl, ?_⟩
  · have f' : filled lib [11184814, 11184814, 11184814, 11184814] = .ok ⟨((4 : ℕ) : ℤ), ⟨11184814⟩, ⟨0⟩⟩ := f
    rw [f']
    rw [Res.ok_bind, s1]
    exact s2
  · have hl1 : nearest (((1 : ℤ) : ℝ) / ((1 : ℕ) : ℝ)) = 1 := by
      rw [show (((1 : ℤ) : ℝ) / ((1 : ℕ) : ℝ)) = 1 by norm_num, h1]
    have hh : nearest (1 / 2) = 1 / 2 := Single.near_eq 1 (-1) (by norm_num) (by norm_num) (by norm_num)
    simp only [Shared.plusGroup, Single.val_add, Single.val_sub, Single.val_mul, Single.val_div,
      Single.val_ofInt, Single.val_lit, hl1]
    have e0 : nearest ((2 : ℤ) : ℝ) = 2 := by push_cast; exact h2
    rw [e0, sub_self, Factor.nearest_zero, mul_zero, Factor.nearest_zero,
      zero_div, Factor.nearest_zero, add_zero, one_mul, hh, show (1 / 2 + -1 : ℝ) = -(1 / 2) by norm_num,
      nearest.neg, hh, nearest.neg, hh, show (1 + 2 : ℝ) = 3 by norm_num, h3, mul_neg, nearest.neg]
    have q : (1 : ℝ) / 4 ≤ nearest (1 / 3) := nearest.ge_of_ge
      (Single.near_eq 1 (-2) (by norm_num) (by norm_num) (by norm_num)) (by norm_num)
    have q' : (1 : ℝ) / 8 ≤ nearest (nearest (1 / 3) * (1 / 2)) := nearest.ge_of_ge
      (Single.near_eq 1 (-3) (by norm_num) (by norm_num) (by norm_num)) (by linarith)
    linarith

/-- **C88 (finding).** Merging can put the mean outside the range of the values: `2^25` values
8388609 merged into a group of the one value -1/2 have a mean of 8388610. -/
theorem C88_merge_overshoots :
    ∃ g s g' : Group (Single lib), filled lib [-(1 / 2)] = .ok g ∧
      filled lib (List.replicate (2 ^ 25) 8388609) = .ok s ∧ g.merge s = .ok g' ∧
      g'.count = 2 ^ 25 + 1 ∧ g'.mean.val = 8388610 := by
  have hh : nearest (1 / 2) = 1 / 2 := Single.near_eq 1 (-1) (by norm_num) (by norm_num) (by norm_num)
  have hm : nearest (-(1 / 2)) = -(1 / 2) := by rw [nearest.neg, hh]
  have hx : nearest 8388609 = 8388609 := Single.near_eq 8388609 0 (by norm_num) (by norm_num) (by norm_num)
  have hy : nearest 8388610 = 8388610 := Single.near_eq 8388610 0 (by norm_num) (by norm_num) (by norm_num)
  have r1 : nearest (16777219 / 2) = 8388610 := by
    rw [nearest.eval_tie_up 8388610 0 (by norm_num) (by norm_num) (by norm_num) (by norm_num) (by decide)]
    norm_num
  have r2 : nearest 33554433 = 33554432 := by
    rw [nearest.eval 8388608 2 (by norm_num) (by norm_num) (by norm_num) (by norm_num [abs_lt])]
    norm_num
  have r3 : nearest 33554432 = 33554432 := Single.near_eq 1 25 (by norm_num) (by norm_num) (by norm_num)
  have f1 := filled_equal (lib := lib) 1 hm (by norm_num) (by norm_num)
  have f2 := filled_equal (lib := lib) (2 ^ 25) hx (by norm_num) (by norm_num)
  have hok : ∃ g', Group.merge (⟨((1 : ℕ) : ℤ), ⟨-(1 / 2)⟩, ⟨0⟩⟩ : Group (Single lib))
      ⟨((2 ^ 25 : ℕ) : ℤ), ⟨8388609⟩, ⟨0⟩⟩ = .ok g' := by
    unfold Group.merge
    rw [i32_of (by unfold InInt32 int32Min int32Max; norm_num)]
    exact ⟨_, rfl⟩
  obtain ⟨g', h'⟩ := hok
  refine ⟨_, _, g', f1, f2, h', ?_⟩
  have e := Group.merge_single h'
  simp only at e
  subst e
  refine ⟨by norm_num, ?_⟩
  push_cast
  norm_num [r1, r2, r3, hy, Single.nearest_one]

/-! Concrete cases -/

example : ∃ g, filled lib [1, 2, 4] = .ok g ∧ g.count = 3 ∧ 0 ≤ g.countTimesVariance.val ∧
    1 ≤ g.mean.val ∧ g.mean.val ≤ 4 := by
  obtain ⟨g, h1, h2, h3, h4⟩ := C88_add (lib := lib) [1, 2, 4] (by
    intro v hv
    simp only [List.mem_cons, List.not_mem_nil, or_false] at hv
    rcases hv with rfl | rfl | rfl
    · exact Single.nearest_one
    · exact Single.near_eq 2 0 (by norm_num) (by norm_num) (by norm_num)
    · exact Single.near_eq 4 0 (by norm_num) (by norm_num) (by norm_num)) (by norm_num)
  obtain ⟨h5, h6⟩ := h4 (by simp) 1 4 (by
    intro v hv
    simp only [List.mem_cons, List.not_mem_nil, or_false] at hv
    rcases hv with rfl | rfl | rfl <;> norm_num)
  exact ⟨g, h1, h2, h3, h5, h6⟩

/-- Of `2^30` values the accumulated variance is at most a sixteenth of what it should be. -/
example : ∃ g, filled lib (Spec.alternating (2 ^ 29)) = .ok g ∧
    16 * g.countTimesVariance.val ≤ Spec.spread (Spec.alternating (2 ^ 29)) := by
  obtain ⟨h1, g, h2, -, h3⟩ := C88_stalls (lib := lib) (2 ^ 29) (by norm_num)
  refine ⟨g, h2, ?_⟩
  rw [h1]
  push_cast
  linarith

/-- A group of two copies of one value merged into a group of one. -/
example : ∃ g s g' : Group (Single lib), Built g ∧ Built s ∧ 0 < g.count + s.count ∧ g.merge s = .ok g' := by
  obtain ⟨g, -, hS, hc, hB, -⟩ := filled_spec (lib := lib) [1] (by simp [Single.nearest_one]) (by norm_num)
  obtain ⟨s, -, hS', hc', hB', -⟩ := filled_spec (lib := lib) [1, 1] (by simp [Single.nearest_one]) (by norm_num)
  simp only [List.length_cons, List.length_nil] at hc hc'
  have hok : ∃ g', g.merge s = .ok g' := by
    unfold Group.merge
    rw [i32_of (by unfold InInt32 int32Min int32Max; omega)]
    exact ⟨_, rfl⟩
  obtain ⟨g', h⟩ := hok
  exact ⟨g, s, g', hB, hB', by omega, h⟩

/-- The prior of the examples of the library. -/
example : ∃ g : Group (Single lib), Built g ∧ g.count = 2 ∧
    0 < (Shared.plusGroup ⟨⟨0⟩, ⟨1⟩, ⟨1⟩, ⟨1⟩⟩ g).sigmasq.val := by
  obtain ⟨g, -, -, hc, hB, -⟩ := filled_spec (lib := lib) [1, 1] (by simp [Single.nearest_one]) (by norm_num)
  simp only [List.length_cons, List.length_nil] at hc
  exact ⟨g, hB, by omega, (C88_posterior ⟨⟨0⟩, ⟨1⟩, ⟨1⟩, ⟨1⟩⟩ hB (by omega) (by norm_num)
    Single.nearest_one (by norm_num) (by norm_num) (by norm_num)).2.2⟩

end NICH

end Dist
