import Verif.Props.SingleScores
import Verif.Spec.SingleGibbs

/-! # The law of an index drawn from scores in single precision -/

namespace Dist

open Spec FloatOps FloatNotation MeasureTheory Single

variable {lib : Libm} {σ : Type} [MeasurableSpace σ]

namespace Single

theorem ratio_near {E l e r k : ℝ} (hE1 : 1 ≤ E) (he : 0 ≤ e) (hk0 : 0 ≤ k) (hk : k ≤ 2 ^ 20)
    (hl : |l - e| ≤ 26 / 10 ^ 6 * e + 1 / 2 ^ 124)
    (hr : |r * E - 1| ≤ 38 / 10 ^ 6 + 7 / 5 * (k / 2 ^ 22)) :
    |l * r - e / E| ≤ (80 / 10 ^ 6 + k / 2 ^ 21) * (e / E) + 1 / 2 ^ 120 := by
  set p := e / E with hp
  have hE : 0 < E := by linarith
  have hp0 : 0 ≤ p := by positivity
  set b := 7 / 5 * (k / 2 ^ 22) with hb
  have hb0 : 0 ≤ b := by positivity
  have hb1 : b ≤ 7 / 20 := by
    have : k / 2 ^ 22 ≤ 2 ^ 20 / 2 ^ 22 := by gcongr
    rw [hb]; linarith
  have hbk : b ≤ k / 2 ^ 21 := by
    have : 0 ≤ k / 2 ^ 22 := by positivity
    have : k / 2 ^ 21 = 2 * (k / 2 ^ 22) := by ring
    rw [this, hb]; linarith
  have hr' := abs_le.1 hr
  have hrE : |r * E| ≤ 1.36 := by rw [abs_le]; constructor <;> linarith [hr'.1, hr'.2]
  obtain ⟨t, ht⟩ : ∃ t : ℝ, t = 1 / 2 ^ 124 := ⟨_, rfl⟩
  have ht0 : 0 < t := by rw [ht]; positivity
  rw [← ht] at hl
  have hE' : |1 / E| ≤ 1 := by
    rw [abs_of_pos (by positivity)]; rw [div_le_one hE]; exact hE1
  have e3 : (1 : ℝ) / 2 ^ 120 = 16 * t := by rw [ht]; norm_num
  have key : |l * r - p| ≤ 1.36 * (26 / 10 ^ 6 * p + t) + (38 / 10 ^ 6 + b) * p := by
    have e1 : l * r - p = (l - e) * (1 / E) * (r * E) + p * (r * E - 1) := by
      rw [hp]; field_simp; ring
    rw [e1]
    refine (abs_add_le _ _).trans (add_le_add ?_ ?_)
    · rw [abs_mul, mul_comm (1.36 : ℝ)]
      apply mul_le_mul _ hrE (abs_nonneg _) (by positivity)
      rw [abs_mul, abs_of_pos (by positivity : 0 < 1 / E)]
      calc |l - e| * (1 / E) ≤ (26 / 10 ^ 6 * e + t) * (1 / E) := by gcongr
        _ = 26 / 10 ^ 6 * p + t * (1 / E) := by rw [hp]; ring
        _ ≤ 26 / 10 ^ 6 * p + t * 1 := by
          have := (abs_le.1 hE').2
          gcongr
        _ = _ := by ring
    · rw [abs_mul, abs_of_nonneg hp0, mul_comm]
      gcongr
  have h3 : b * p ≤ k / 2 ^ 21 * p := by gcongr
  rw [e3]
  clear_value b p
  clear e3 ht
  linarith

theorem likelihoodLoop_ge (n : ℕ) : ∀ (ls : List ℝ) (i : ℕ) (t : ℝ), i + ls.length = n → ls ≠ [] →
    i ≤ likelihoodLoop n (ls.map (Single.mk (lib := lib))) i ⟨t⟩
  | [], _, _, _, h => absurd rfl h
  | l :: ls, i, t, hn, _ => by
    simp only [List.map_cons, likelihoodLoop]
    split_ifs
    · exact le_rfl
    · rcases List.eq_nil_or_concat ls with rfl | ⟨a, b, rfl⟩
      · simp only [List.map_nil, likelihoodLoop]
        simp at hn; omega
      · have := likelihoodLoop_ge n (a.concat b) (i + 1) (nearest (t - l))
          (by simp at hn ⊢; omega) (by simp)
        exact le_trans (Nat.le_succ i) this

theorem likelihoodLoop_mono (n : ℕ) : ∀ (ls : List ℝ) (i : ℕ), i + ls.length = n →
    Monotone fun t : ℝ => likelihoodLoop n (ls.map (Single.mk (lib := lib))) i ⟨t⟩
  | [], _, _ => fun _ _ _ => le_rfl
  | l :: ls, i, hn => by
    intro t₁ t₂ ht
    simp only [List.map_cons, likelihoodLoop, sub_mk, zero_mk, le_mk]
    have hm : nearest (t₁ - l) ≤ nearest (t₂ - l) := nearest.monotone (by linarith)
    by_cases h2 : nearest (t₂ - l) ≤ 0
    · rw [if_pos h2, if_pos (hm.trans h2)]
    · rw [if_neg h2]
      split_ifs with h1
      · rcases List.eq_nil_or_concat ls with rfl | ⟨a, b, rfl⟩
        · simp only [List.map_nil, likelihoodLoop]
          simp at hn; omega
        · exact (Nat.le_succ i).trans (likelihoodLoop_ge n _ (i + 1) _ (by simp at hn ⊢; omega) (by simp))
      · exact likelihoodLoop_mono n ls (i + 1) (by simp at hn ⊢; omega) hm

/-- The index drawn as a function of the ideal draw. -/
noncomputable def pick (lib : Libm) (ls : List ℝ) (T : ℝ) (ρ : ℝ → ℝ) (v : ℝ) : ℕ :=
  likelihoodLoop ls.length (ls.map (Single.mk (lib := lib))) 0 ⟨nearest (T * ρ v)⟩

theorem pick_measurable {ls : List ℝ} {T : ℝ} {ρ : ℝ → ℝ} (hρ : Measurable ρ) :
    Measurable (pick lib ls T ρ) := by
  have h1 : Measurable fun t : ℝ => likelihoodLoop ls.length (ls.map (Single.mk (lib := lib))) 0 ⟨t⟩ :=
    (likelihoodLoop_mono ls.length ls 0 (by simp)).measurable
  have h2 : Measurable nearest := nearest.monotone.measurable
  exact h1.comp (h2.comp (measurable_const.mul hρ))

/-- Where the ideal draw lies when an index is picked. -/
theorem pick_near {ls : List ℝ} (hne : ls ≠ []) (hnn : ∀ l ∈ ls, 0 ≤ l) (hn : ls.length ≤ 2 ^ 20)
    (hT1 : 1 / 2 ≤ sumf ls) {ρ : ℝ → ℝ} (h01 : ∀ v, 0 ≤ ρ v ∧ ρ v ≤ 1) {v : ℝ} :
    pick lib ls (sumf ls) ρ v < ls.length ∧ (0 ≤ v → v < 1 → |ρ v - v| ≤ 1 / 2 ^ 23 →
      cum ls (pick lib ls (sumf ls) ρ v) / sumf ls - 3 * ls.length / 2 ^ 23 ≤ v ∧
      v ≤ cum ls (pick lib ls (sumf ls) ρ v + 1) / sumf ls + 3 * ls.length / 2 ^ 23) := by
  have hsing : nearest (sumf ls) = sumf ls := by
    rcases List.eq_nil_or_concat ls with rfl | ⟨xs, a, rfl⟩
    · exact absurd rfl hne
    · rw [List.concat_eq_append, sumf_concat, nearest.idem]
  have hsum := sumf_near hnn hn
  set T := sumf ls with hT
  have hT0 : 0 < T := by linarith
  have hu := h01 v
  have ht0 : nearest (T * ρ v) ≤ T := by
    rw [← hsing]
    exact nearest.monotone (by nlinarith)
  obtain ⟨j, hj, hloop, hlo, hup⟩ := likelihoodLoop_mk (lib := lib) ls.length (B := T)
    (η := T / 2 ^ 23) le_rfl hT1 ls 0 (nearest (T * ρ v)) hne hnn (nearest.idem _) ht0 (by simp)
  have hpick : pick lib ls T ρ v = j := by rw [pick, hloop, Nat.zero_add]
  rw [hpick]
  refine ⟨hj, fun v0 v1 hv => ?_⟩
  have hterr : |nearest (T * ρ v) - T * ρ v| ≤ T / 2 ^ 23 := by
    have h := nearest.error (T * ρ v)
    have hTu0 : 0 ≤ T * ρ v := mul_nonneg hT0.le hu.1
    have hTu : T * ρ v ≤ T := by nlinarith
    rw [abs_of_nonneg hTu0] at h
    refine h.trans ?_
    have h1 : (2⁻¹ : ℝ) ^ 24 * (T * ρ v) ≤ 2⁻¹ ^ 24 * T := by gcongr
    have h2 : (2⁻¹ : ℝ) ^ 150 ≤ 2⁻¹ ^ 24 * T := by
      calc (2⁻¹ : ℝ) ^ 150 ≤ 2⁻¹ ^ 24 * (1 / 2) := by norm_num
        _ ≤ _ := by gcongr
    have h3 : T / 2 ^ 23 = 2⁻¹ ^ 24 * T + 2⁻¹ ^ 24 * T := by ring
    rw [h3]
    linarith
  have hjk : ((j : ℝ) + 1) ≤ ls.length := by exact_mod_cast hj
  have hj0 : (0 : ℝ) ≤ j := by positivity
  have hk1 : (ls.length : ℝ) ≤ 2 ^ 20 := by exact_mod_cast hn
  have hTv : |T * ρ v - T * v| ≤ T / 2 ^ 23 := by
    rw [← mul_sub, abs_mul, abs_of_pos hT0]
    calc T * |ρ v - v| ≤ T * (1 / 2 ^ 23) := by gcongr
      _ = _ := by ring
  have hterr' := abs_le.1 hterr
  have hTv' := abs_le.1 hTv
  obtain ⟨q, hq⟩ : ∃ q : ℝ, q = T / 2 ^ 23 := ⟨_, rfl⟩
  have hq0 : 0 < q := by rw [hq]; positivity
  rw [← hq] at hlo hup hterr' hTv'
  have eT : T * (3 * ls.length / 2 ^ 23) = 3 * ls.length * q := by rw [hq]; ring
  constructor
  · rw [sub_le_iff_le_add, div_le_iff₀ hT0]
    have : (v + 3 * ls.length / 2 ^ 23) * T = T * v + 3 * ls.length * q := by rw [← eT]; ring
    rw [this]
    rcases hlo with rfl | hlo
    · rw [cum_zero]; positivity
    · nlinarith [hterr'.2, hTv'.2]
  · rw [← sub_le_iff_le_add, le_div_iff₀ hT0]
    have : (v - 3 * ls.length / 2 ^ 23) * T = T * v - 3 * ls.length * q := by rw [← eT]; ring
    rw [this]
    rcases hup with hup | hup
    · nlinarith [hterr'.1, hTv'.1]
    · rw [hup, cum_length]
      have hs0 : 0 ≤ ls.sum := List.sum_nonneg hnn
      have h := (abs_le.1 hsum).2
      have hTv1 : T * v ≤ T := by nlinarith
      -- `ls.sum ≤ 2 * T`
      have hlow := (abs_le.1 hsum).1
      have a1 : (ls.length : ℝ) / 2 ^ 23 ≤ 1 / 8 := by
        calc (ls.length : ℝ) / 2 ^ 23 ≤ 2 ^ 20 / 2 ^ 23 := by gcongr
          _ = _ := by norm_num
      have a2 : (ls.length : ℝ) / 2 ^ 149 ≤ 1 / 2 ^ 126 * (ls.length / 2 ^ 23) := by
        apply le_of_eq; ring
      have a3 : (1 : ℝ) / 2 ^ 126 * (ls.length / 2 ^ 23) ≤ 1 / 4 * (ls.length / 2 ^ 23) := by
        gcongr; norm_num
      have a4 : ls.sum ≤ 5 / 4 * T := by
        have : (ls.length : ℝ) / 2 ^ 23 * ls.sum ≤ 1 / 8 * ls.sum := by gcongr
        linarith
      have a5 : (ls.length : ℝ) / 2 ^ 23 * ls.sum ≤ ls.length / 2 ^ 23 * (5 / 4 * T) := by gcongr
      have a6 : (ls.length : ℝ) / 2 ^ 23 * (5 / 4 * T) = 5 / 4 * (ls.length * q) := by rw [hq]; ring
      have a7 : (1 : ℝ) / 4 * (ls.length / 2 ^ 23) ≤ 1 / 2 * (ls.length * q) := by
        have : (1 : ℝ) / 2 * (ls.length * q) = 1 / 2 * T * (ls.length / 2 ^ 23) := by rw [hq]; ring
        rw [this]
        gcongr
        linarith
      have a8 : 0 ≤ ls.length * q := by positivity
      linarith

/-- The measure of the draws on which an index is picked. -/
theorem pick_law {ls : List ℝ} (hne : ls ≠ []) (hnn : ∀ l ∈ ls, 0 ≤ l) (hn : ls.length ≤ 2 ^ 20)
    (hT1 : 1 / 2 ≤ sumf ls) {ρ : ℝ → ℝ} (h01 : ∀ v, 0 ≤ ρ v ∧ ρ v ≤ 1)
    (hv : ∀ v, 0 ≤ v → v < 1 → |ρ v - v| ≤ 1 / 2 ^ 23) (p : ℕ) (hp : p < ls.length) :
    |(volume.restrict (Set.Ico (0 : ℝ) 1)).real {v | pick lib ls (sumf ls) ρ v = p} -
      ls[p] / sumf ls| ≤ 6 * ls.length / 2 ^ 23 := by
  have hsum := sumf_near hnn hn
  have key := fun v => pick_near (lib := lib) hne hnn hn hT1 h01 (v := v)
  set T := sumf ls with hT
  have hT0 : 0 < T := by linarith
  have hk1 : (ls.length : ℝ) ≤ 2 ^ 20 := by exact_mod_cast hn
  set e : ℝ := 3 * ls.length / 2 ^ 23 with he
  have he0 : 0 ≤ e := by positivity
  have e6 : 6 * (ls.length : ℝ) / 2 ^ 23 = 2 * e := by rw [he]; ring
  have hsucc : cum ls (p + 1) / T = cum ls p / T + ls[p] / T := by
    rw [cum_succ hp, add_div]
  have hmono : ∀ {a b : ℕ}, a ≤ b → cum ls a / T ≤ cum ls b / T := fun h =>
    div_le_div_of_nonneg_right (cum_mono hnn h) hT0.le
  have hlast : cum ls (p + 1) / T ≤ 1 + e := by
    have h1 : cum ls (p + 1) ≤ ls.sum := by rw [← cum_length]; exact cum_mono hnn hp
    rw [div_le_iff₀ hT0]
    have hlow := (abs_le.1 hsum).1
    have hs0 : 0 ≤ ls.sum := List.sum_nonneg hnn
    have a1 : (ls.length : ℝ) / 2 ^ 23 ≤ 1 / 8 := by
      calc (ls.length : ℝ) / 2 ^ 23 ≤ 2 ^ 20 / 2 ^ 23 := by gcongr
        _ = _ := by norm_num
    have a2 : (ls.length : ℝ) / 2 ^ 149 ≤ 1 / 2 ^ 126 * (ls.length / 2 ^ 23) := by
      apply le_of_eq; ring
    have a3 : (1 : ℝ) / 2 ^ 126 * (ls.length / 2 ^ 23) ≤ 1 / 4 * (ls.length / 2 ^ 23) := by
      gcongr; norm_num
    have a4 : ls.sum ≤ 5 / 4 * T := by
      have : (ls.length : ℝ) / 2 ^ 23 * ls.sum ≤ 1 / 8 * ls.sum := by gcongr
      linarith
    have a5 : (ls.length : ℝ) / 2 ^ 23 * ls.sum ≤ ls.length / 2 ^ 23 * (5 / 4 * T) := by gcongr
    have a6 : e * T = 3 * (ls.length / 2 ^ 23 * T) := by rw [he]; ring
    have a7 : (1 : ℝ) / 4 * (ls.length / 2 ^ 23) ≤ 1 / 2 * (ls.length / 2 ^ 23 * T) := by
      have : (0 : ℝ) ≤ ls.length / 2 ^ 23 := by positivity
      nlinarith
    have a8 : 0 ≤ ls.length / 2 ^ 23 * T := by positivity
    nlinarith
  have hl0 : 0 ≤ ls[p] / T := div_nonneg (hnn _ (List.getElem_mem hp)) hT0.le
  have hp0 : 0 ≤ cum ls p / T := by
    have := hmono (Nat.zero_le p)
    rwa [cum_zero, zero_div] at this
  rw [e6]
  have hsub1 : {v | pick lib ls T ρ v = p} ∩ Set.Ico 0 1 ⊆
      Set.Icc (cum ls p / T - e) (cum ls (p + 1) / T + e) := by
    rintro v ⟨rfl, h0, h1⟩
    exact (key v).2 h0 h1 (hv v h0 h1)
  have hsub2 : Set.Ioo (cum ls p / T + e) (cum ls (p + 1) / T - e) ⊆
      {v | pick lib ls T ρ v = p} ∩ Set.Ico 0 1 := by
    rintro v ⟨h1, h2⟩
    have v0 : 0 ≤ v := by linarith
    have v1 : v < 1 := by linarith
    refine ⟨?_, v0, v1⟩
    have := (key v).2 v0 v1 (hv v v0 v1)
    rcases lt_trichotomy (pick lib ls T ρ v) p with h | h | h
    · have := hmono (show pick lib ls T ρ v + 1 ≤ p from h)
      linarith
    · exact h
    · have := hmono (show p + 1 ≤ pick lib ls T ρ v from h)
      linarith
  have hreal : (volume.restrict (Set.Ico (0 : ℝ) 1)).real {v | pick lib ls T ρ v = p} =
      volume.real ({v | pick lib ls T ρ v = p} ∩ Set.Ico 0 1) := by
    simp only [Measure.real]
    rw [Measure.restrict_apply' measurableSet_Ico]
  rw [hreal, abs_le]
  have up : volume.real ({v | pick lib ls T ρ v = p} ∩ Set.Ico 0 1) ≤
      volume.real (Set.Icc (cum ls p / T - e) (cum ls (p + 1) / T + e)) :=
    measureReal_mono hsub1 (by rw [Real.volume_Icc]; exact ENNReal.ofReal_ne_top)
  have lo : volume.real (Set.Ioo (cum ls p / T + e) (cum ls (p + 1) / T - e)) ≤
      volume.real ({v | pick lib ls T ρ v = p} ∩ Set.Ico 0 1) :=
    measureReal_mono hsub2 (ne_top_of_le_ne_top (by rw [Real.volume_Ico]; exact ENNReal.ofReal_ne_top)
      (measure_mono Set.inter_subset_right))
  simp only [Measure.real, Real.volume_Icc, Real.volume_Ioo] at up lo ⊢
  have lo' : cum ls (p + 1) / T - e - (cum ls p / T + e) ≤ _ := (by
    rw [ENNReal.toReal_ofReal']; exact le_max_left _ _ : _ ≤ (ENNReal.ofReal
      (cum ls (p + 1) / T - e - (cum ls p / T + e))).toReal).trans lo
  rw [ENNReal.toReal_ofReal (by linarith)] at up
  constructor <;> linarith

end Single

/-- Sampling from scores in single precision. -/
theorem sampleFromScores_near (hl : LogNear lib.expVar) (hp : PowAccurate lib.expVar)
    (I : IdealRng σ) (rng : Rng (Single lib) σ) (hr : NearUniform I rng) {N : Nat}
    (hN : N ≤ 2 ^ 20) :
    NearSoftmaxDraw N (80 / 10 ^ 6 + N / 2 ^ 21) (N / 2 ^ 20) I.P
      fun l s => sampleFromScores rng s l := by
  have := I.prob
  obtain ⟨ρ, hρ, h01, hv, hu⟩ := hr
  intro x hne hxN hs
  have hn : x.length ≤ 2 ^ 20 := hxN.trans hN
  obtain ⟨m, hm, htop, -, e⟩ := scoresToLikelihoods_mk (lib := lib) x hne
  have L := liks hl hp hm htop hn hs
  have hk1 : (x.length : ℝ) ≤ 2 ^ 20 := by exact_mod_cast hn
  have hk0 : (0 : ℝ) ≤ x.length := by positivity
  have hk2 : (1 : ℝ) ≤ x.length := by exact_mod_cast List.length_pos_iff.2 hne
  have hkN : (x.length : ℝ) ≤ N := by exact_mod_cast hxN
  obtain ⟨-, hr, hT⟩ := recip_near L.one_le L.sum_le hk1 L.total
  have hE := L.one_le
  set ls := x.map fun y => expf lib (nearest (y - m)) with hls
  have hlen : ls.length = x.length := by simp [hls]
  have hlne : ls ≠ [] := by simpa [hls] using hne
  have hnn : ∀ l ∈ ls, 0 ≤ l := by
    intro z hz
    obtain ⟨w, hw, rfl⟩ := List.mem_map.mp hz
    exact L.nonneg w hw
  have hT1 : 1 / 2 ≤ sumf ls := by linarith
  have hdraw : ∀ s, sampleFromScores rng s (x.map (Single.mk (lib := lib))) =
      .ok (pick lib ls (sumf ls) ρ (I.unif s).1, (I.unif s).2) := by
    intro s
    have h0 : 0 < (ls.map (Single.mk (lib := lib))).length := by
      simpa using List.length_pos_iff.2 hlne
    rw [sampleFromScores, sampleFromScoresOverwrite, e, Res.ok_bind]
    simp only
    rw [sampleFromLikelihoods, distAssert0_of h0, Res.ok_bind, hu]
    simp only [List.length_map, mul_mk, pick]
    rfl
  have hlt : ∀ v, pick lib ls (sumf ls) ρ v < x.length := fun v => by
    have := (pick_near (lib := lib) hlne hnn (by omega) hT1 h01 (v := v)).1
    omega
  have hmeas : ∀ p : ℕ, MeasurableSet {v | pick lib ls (sumf ls) ρ v = p} := fun p =>
    (pick_measurable hρ) (measurableSet_singleton p)
  refine ⟨fun s => ⟨_, _, hdraw s, hlt _⟩,
    fun p => (volume.restrict (Set.Ico (0 : ℝ) 1)).real {v | pick lib ls (sumf ls) ρ v = p.1},
    fun p => measureReal_nonneg, ?_, ?_, ?_⟩
  · have hfin : IsFiniteMeasure (volume.restrict (Set.Ico (0 : ℝ) 1)) := by
      constructor; simp
    rw [← measureReal_iUnion_fintype]
    · have : (⋃ p : Fin x.length, {v | pick lib ls (sumf ls) ρ v = p.1}) = Set.univ := by
        ext v
        simp only [Set.mem_iUnion, Set.mem_setOf_eq, Set.mem_univ, iff_true]
        exact ⟨⟨_, hlt v⟩, rfl⟩
      rw [this]
      simp [Measure.real]
    · intro p q hpq
      simp only [Function.onFun, Set.disjoint_left, Set.mem_setOf_eq]
      intro v h1 h2
      exact hpq (Fin.ext (h1.symm.trans h2))
    · intro p
      exact hmeas p
  · intro p
    have h1 := pick_law (lib := lib) hlne hnn (by omega) hT1 h01 hv p.1 (by rw [hlen]; exact p.2)
    have h2 := ratio_near hE (Real.exp_pos _).le hk0 hk1 (L.each x[p] (List.getElem_mem p.2)) hr
    rw [Fin.getElem_fin, softmax_shift x m, ← Fin.getElem_fin]
    set q := Real.exp (x[p] - m) / (x.map fun y => Real.exp (y - m)).sum with hq
    have hq0 : 0 ≤ q := div_nonneg (Real.exp_pos _).le (by linarith)
    have e1 : ls[p.1]'(by rw [hlen]; exact p.2) / sumf ls =
        expf lib (nearest (x[p] - m)) * (1 / sumf ls) := by
      simp only [hls, List.getElem_map, Fin.getElem_fin]
      ring
    rw [e1, hlen] at h1
    have h3 : 6 * (x.length : ℝ) / 2 ^ 23 + 1 / 2 ^ 120 ≤ N / 2 ^ 20 := by
      have a : 6 * (x.length : ℝ) / 2 ^ 23 ≤ 6 * N / 2 ^ 23 := by gcongr
      have b : (1 : ℝ) / 2 ^ 120 ≤ 2 * (N / 2 ^ 23) := by
        calc (1 : ℝ) / 2 ^ 120 ≤ 2 * (1 / 2 ^ 23) := by norm_num
          _ ≤ _ := by gcongr; linarith
      have c : (N : ℝ) / 2 ^ 20 = 6 * N / 2 ^ 23 + 2 * (N / 2 ^ 23) := by ring
      linarith
    have h4 : (80 / 10 ^ 6 + (x.length : ℝ) / 2 ^ 21) * q ≤ (80 / 10 ^ 6 + N / 2 ^ 21) * q := by
      gcongr
    refine (abs_sub_le _ (expf lib (nearest (x[p] - m)) * (1 / sumf ls)) _).trans ?_
    linarith
  · intro p B hB
    have hset : {s | ∃ s' ∈ B, sampleFromScores rng s (x.map (Single.mk (lib := lib))) = .ok (p.1, s')} =
        I.unif ⁻¹' ({v | pick lib ls (sumf ls) ρ v = p.1} ×ˢ B) := by
      ext s
      simp only [Set.mem_setOf_eq, Set.mem_preimage, Set.mem_prod, hdraw, Res.ok.injEq,
        Prod.mk.injEq]
      constructor
      · rintro ⟨s', hs', h1, rfl⟩
        exact ⟨h1, hs'⟩
      · rintro ⟨h1, h2⟩
        exact ⟨_, h2, h1, rfl⟩
    simp only
    rw [hset]
    have hm2 := (hmeas p.1).prod hB
    refine ⟨I.unif_meas hm2, ?_⟩
    have hlaw : I.P.map I.unif = _ := I.unif_law
    rw [Measure.real, ← Measure.map_apply I.unif_meas hm2, hlaw, Measure.prod_prod,
      ENNReal.toReal_mul]
    rfl

end Dist
