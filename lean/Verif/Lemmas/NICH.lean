import Verif.Base.XR
import Verif.Model.NICH
import Verif.Lemmas.Features
import Verif.Lemmas.PYScores

/-! # Lemmas about Normal-Inverse-ChiSq groups in exact arithmetic -/

namespace Dist

open Spec FloatOps FloatNotation

namespace NICH

/-- The group operations on exact values. -/
noncomputable def opsReal : GroupOps (Group XR) ℝ :=
  ⟨Group.init, fun g v => g.addValue (.fin v), fun g v => g.removeValue (.fin v)⟩

/-- A group with exact statistics. -/
noncomputable def mk (n : Int) (m c : ℝ) : Group XR := ⟨n, .fin m, .fin c⟩

theorem add_eq (n : Int) (hn : 0 ≤ n) (hn' : n < 2147483647) (m c v : ℝ) :
    (mk n m c).addValue (.fin v) =
      .ok (mk (n + 1) (m + (v - m) / (n + 1)) (c + (v - m) * (v - (m + (v - m) / (n + 1))))) := by
  have h : ((n + 1 : Int) : ℝ) ≠ 0 := by
    have : (n + 1 : Int) ≠ 0 := by omega
    exact_mod_cast this
  simp only [Group.addValue, mk]
  rw [i32_of (by unfold InInt32 int32Min int32Max; omega)]
  simp only [Res.ok_bind, XR.fin_sub, XR.ofInt_eq]
  rw [XR.fin_div _ _ h]
  simp

theorem remove_eq (n : Int) (hn : 0 < n) (m c v : ℝ) :
    (mk n m c).removeValue (.fin v) =
      .ok (if n = 1 then mk 0 0 0
        else if n = 2 then mk 1 (m * 2 - v) 0
        else mk (n - 1) ((m * n - v) / (n - 1))
          (c - (v - m) * (v - (m * n - v) / (n - 1)))) := by
  rw [Group.removeValue, distAssert0_of (show 0 < (mk n m c).count from hn)]
  simp only [mk, Res.ok_bind, Res.pure_eq, Res.ok.injEq]
  by_cases h1 : n = 1
  · subst h1; simp
  by_cases h2 : n = 2
  · subst h2
    simp only [XR.ofInt_eq, XR.fin_mul, XR.fin_sub]
    norm_num
    rw [XR.fin_div _ _ one_ne_zero]; simp
  · have h3 : ¬ (n - 1 = 0) := by omega
    have h4 : ¬ (n - 1 ≤ 1) := by omega
    have h5 : ((n - 1 : Int) : ℝ) ≠ 0 := by exact_mod_cast h3
    simp only [h1, h2, h3, h4, if_false, XR.ofInt_eq, XR.fin_mul, XR.fin_sub]
    rw [XR.fin_div _ _ h5]
    simp

/-- The statistics of a multiset of values: number, mean, sum of squared deviations. -/
noncomputable def stats (M : Multiset ℝ) : Group XR :=
  mk M.card (M.sum / M.card) ((M.map fun x => x ^ 2).sum - M.sum ^ 2 / M.card)

theorem stats_cons (M : Multiset ℝ) (v : ℝ) (hM : M.card < 2147483647) :
    (stats M).addValue (.fin v) = .ok (stats (v ::ₘ M)) := by
  rw [stats, add_eq _ (by omega) (by omega), stats]
  have hz : M.card = 0 → M.sum = 0 ∧ (M.map fun x => x ^ 2).sum = 0 := by
    intro h; rw [Multiset.card_eq_zero] at h; subst h; simp
  simp only [Multiset.card_cons, Multiset.sum_cons, Multiset.map_cons]
  generalize M.sum = s at *
  generalize (M.map fun x => x ^ 2).sum = q at *
  generalize M.card = n at *
  have hn1 : ((n : ℝ) + 1) ≠ 0 := by positivity
  simp only [mk, Res.ok.injEq, Group.mk.injEq, XR.fin_inj, Int.cast_natCast, Nat.cast_add,
    Nat.cast_one]
  by_cases h0 : n = 0
  · obtain ⟨rfl, rfl⟩ := hz h0
    subst h0; simp
  · have hn0 : (n : ℝ) ≠ 0 := by exact_mod_cast h0
    refine ⟨trivial, ?_, ?_⟩
    · field_simp; ring
    · field_simp; ring

theorem stats_erase (M : Multiset ℝ) (v : ℝ) (h : v ∈ M) :
    (stats M).removeValue (.fin v) = .ok (stats (M.erase v)) := by
  obtain ⟨N, rfl⟩ : ∃ N, M = v ::ₘ N := ⟨M.erase v, (Multiset.cons_erase h).symm⟩
  rw [Multiset.erase_cons_head, stats, remove_eq _ (by simp)]
  have hz : N.card = 0 → N.sum = 0 ∧ (N.map fun x => x ^ 2).sum = 0 := by
    intro h; rw [Multiset.card_eq_zero] at h; subst h; simp
  have ho : N.card = 1 → (N.map fun x => x ^ 2).sum = N.sum ^ 2 := by
    intro h; obtain ⟨w, rfl⟩ := Multiset.card_eq_one.mp h; simp
  simp only [Multiset.card_cons, Multiset.sum_cons, Multiset.map_cons, stats]
  generalize N.sum = s at *
  generalize (N.map fun x => x ^ 2).sum = q at *
  generalize N.card = n at *
  by_cases h0 : n = 0
  · obtain ⟨rfl, rfl⟩ := hz h0
    subst h0; simp
  by_cases h1 : n = 1
  · have := ho h1
    subst h1 this
    simp only [mk]; norm_num
  have hi1 : ¬ (((n + 1 : Nat) : Int) = 1) := by omega
  have hi2 : ¬ (((n + 1 : Nat) : Int) = 2) := by omega
  have hn0 : (n : ℝ) ≠ 0 := by exact_mod_cast h0
  have hn1 : (n : ℝ) + 1 ≠ 0 := by positivity
  rw [if_neg hi1, if_neg hi2]
  simp only [mk, Res.ok.injEq, Group.mk.injEq, XR.fin_inj, Int.cast_natCast,
    Nat.cast_add, Nat.cast_one, Int.cast_add, Int.cast_one, add_sub_cancel_right]
  refine ⟨trivial, ?_, ?_⟩
  · field_simp; ring
  · field_simp; ring

theorem summarises : Summarises opsReal
    (fun g M => g = stats M ∧ M.card ≤ 2147483647) := by
  refine ⟨⟨by simp [opsReal, Group.init, stats, mk], by simp⟩, ?_, ?_⟩
  · rintro g M v ⟨rfl, hM⟩ h
    exact ⟨_, stats_cons M v h, rfl, by simp; omega⟩
  · rintro g M v ⟨rfl, hM⟩ h
    exact ⟨_, stats_erase M v h, rfl,
      by have := Multiset.card_erase_le (a := v) (s := M); omega⟩

/-- Hyperparameters as exact numbers. -/
noncomputable def real (mu kappa sigmasq nu : ℝ) : Shared XR :=
  ⟨.fin mu, .fin kappa, .fin sigmasq, .fin nu⟩

theorem plus_eq {mu ka si nu : ℝ} (hk : 0 < ka) (hv : 0 < nu) (n : Int) (hn : 0 ≤ n) (m c : ℝ) :
    (real mu ka si nu).plusGroup (mk n m c) = real ((ka * mu + m * n) / (ka + n)) (ka + n)
      (1 / (nu + n) * (nu * si + c + (n * ka * (mu - m) * (mu - m)) / (ka + n))) (nu + n) := by
  have hn' : (0 : ℝ) ≤ n := by exact_mod_cast hn
  have h1 : ka + (n : ℝ) ≠ 0 := by positivity
  have h2 : nu + (n : ℝ) ≠ 0 := by positivity
  simp only [Shared.plusGroup, real, mk, XR.ofInt_eq, XR.fin_add, XR.fin_mul, XR.fin_sub, XR.lit_eq]
  rw [XR.fin_div _ _ h1, XR.fin_div _ _ h1, XR.fin_div _ _ h2]
  simp

/-- Posterior `nu * sigmasq`. -/
noncomputable def scale (mu ka si nu : ℝ) (n : Int) (m c : ℝ) : ℝ :=
  nu * si + c + (n * ka * (mu - m) * (mu - m)) / (ka + n)

theorem scale_pos {mu ka si nu : ℝ} (hk : 0 < ka) (hs : 0 < si) (hv : 0 < nu) (n : Int)
    (hn : 0 ≤ n) (m c : ℝ) (hc : 0 ≤ c) : 0 < scale mu ka si nu n m c := by
  have hn' : (0 : ℝ) ≤ n := by exact_mod_cast hn
  have : 0 ≤ (n * ka * (mu - m) * (mu - m)) / (ka + n) := by
    rw [mul_assoc]
    have := mul_self_nonneg (mu - m)
    positivity
  have h2 : 0 < nu * si := by positivity
  unfold scale; linarith

theorem scoreData_eq {mu ka si nu : ℝ} (hk : 0 < ka) (hs : 0 < si) (hv : 0 < nu) (n : Int)
    (hn : 0 ≤ n) (m c : ℝ) (hc : 0 ≤ c) :
    (mk n m c).scoreData (real mu ka si nu) = .fin
      (Real.log (Real.Gamma (1 / 2 * (nu + n))) - Real.log (Real.Gamma (1 / 2 * nu)) +
        1 / 2 * (Real.log ka - Real.log (ka + n)) +
        (1 / 2 * nu * Real.log (nu * si) -
          1 / 2 * (nu + n) * Real.log (scale mu ka si nu n m c)) -
        1 / 2 * n * Real.log Real.pi) := by
  have hn' : (0 : ℝ) ≤ n := by exact_mod_cast hn
  have h1 : 0 < ka + (n : ℝ) := by positivity
  have h2 : 0 < nu + (n : ℝ) := by positivity
  have hS := scale_pos (mu := mu) hk hs hv n hn m c hc
  have e : (nu + (n : ℝ)) * (1 / (nu + n) * (nu * si + c + (n * ka * (mu - m) * (mu - m)) /
      (ka + n))) = scale mu ka si nu n m c := by
    unfold scale; field_simp
  simp only [Group.scoreData]
  rw [plus_eq hk hv n hn]
  simp only [real, XR.lit_eq, XR.fin_mul]
  rw [e, XR.fin_div _ _ h1.ne', XR.log_fin (by positivity), XR.log_fin (by positivity),
    XR.log_fin hS, XR.lgamma_fin (by push_cast; positivity), XR.lgamma_fin (by push_cast; positivity),
    Real.log_div hk.ne' h1.ne']
  simp only [mk, XR.logPi_eq, XR.ofInt_eq, XR.fin_neg, XR.fin_mul, XR.fin_add, XR.fin_sub,
    XR.fin_inj]
  push_cast
  ring

theorem scoreValue_eq {mu ka si nu : ℝ} (hk : 0 < ka) (hs : 0 < si) (hv : 0 < nu) (n : Int)
    (hn : 0 ≤ n) (m c : ℝ) (hc : 0 ≤ c) (x : ℝ) :
    (mk n m c).scoreValue (real mu ka si nu) (.fin x) = .fin
      (Real.log (Real.Gamma ((nu + n) / 2 + 1 / 2)) - Real.log (Real.Gamma ((nu + n) / 2)) +
        1 / 2 * Real.log ((ka + n) / ((ka + n + 1) * scale mu ka si nu n m c) / Real.pi) -
        ((nu + n) / 2 + 1 / 2) * Real.log (1 + (ka + n) / ((ka + n + 1) *
          scale mu ka si nu n m c) * (x - (ka * mu + m * n) / (ka + n)) ^ 2)) := by
  have hn' : (0 : ℝ) ≤ n := by exact_mod_cast hn
  have h1 : 0 < ka + (n : ℝ) := by positivity
  have h2 : 0 < nu + (n : ℝ) := by positivity
  have h3 : 0 < ka + (n : ℝ) + 1 := by positivity
  have hS := scale_pos (mu := mu) hk hs hv n hn m c hc
  have e : 1 / (nu + n) * (nu * si + c + (n * ka * (mu - m) * (mu - m)) / (ka + n)) =
      scale mu ka si nu n m c / (nu + n) := by unfold scale; field_simp
  have hlam : (ka + (n : ℝ)) / ((ka + n + 1) * (scale mu ka si nu n m c / (nu + n))) =
      (ka + n) / ((ka + n + 1) * scale mu ka si nu n m c) * (nu + n) := by field_simp
  have hd : (ka + (n : ℝ) + 1) * (scale mu ka si nu n m c / (nu + n)) ≠ 0 := by positivity
  have hl : (ka + (n : ℝ)) / ((ka + n + 1) * scale mu ka si nu n m c) * (nu + n) / (Real.pi * (nu + n))
      = (ka + n) / ((ka + n + 1) * scale mu ka si nu n m c) / Real.pi := by
    have := Real.pi_pos; field_simp
  have hl2 : (ka + (n : ℝ)) / ((ka + n + 1) * scale mu ka si nu n m c) * (nu + n) / (nu + n)
      = (ka + n) / ((ka + n + 1) * scale mu ka si nu n m c) := by field_simp
  have hpi := Real.pi_pos
  simp only [Group.scoreValue, Scorer.init, Scorer.eval, sqr]
  rw [plus_eq hk hv n hn, e]
  simp only [real, XR.lit_eq, XR.fin_mul, XR.fin_add, XR.pi_eq, Int.cast_one, Nat.cast_one, div_one]
  rw [XR.fin_div _ _ hd, hlam, XR.fin_div _ _ (by positivity), XR.fin_div _ _ h2.ne', hl, hl2,
    XR.lgammaNu_fin h2, XR.log_fin (by positivity)]
  simp only [XR.fin_mul, XR.fin_add, XR.fin_sub]
  rw [XR.log_fin (by
    have := mul_self_nonneg (x - (ka * mu + m * n) / (ka + n))
    have h5 : 0 < (ka + (n : ℝ)) / ((ka + n + 1) * scale mu ka si nu n m c) := by positivity
    have := mul_nonneg h5.le this
    linarith)]
  simp only [XR.fin_neg, XR.fin_mul, XR.fin_add, XR.fin_sub, XR.fin_inj, ← pow_two]
  push_cast
  ring

/-- The posterior scale after one more value. -/
theorem scale_step {mu ka si nu : ℝ} (hk : 0 < ka) (n : Int)
    (hn : 0 ≤ n) (m c x : ℝ) (hS : scale mu ka si nu n m c ≠ 0) :
    scale mu ka si nu (n + 1) (m + (x - m) / (n + 1))
      (c + (x - m) * (x - (m + (x - m) / (n + 1)))) = scale mu ka si nu n m c *
      (1 + (ka + n) / ((ka + n + 1) * scale mu ka si nu n m c) *
        (x - (ka * mu + m * n) / (ka + n)) ^ 2) := by
  have hn' : (0 : ℝ) ≤ n := by exact_mod_cast hn
  have h1 : ka + (n : ℝ) ≠ 0 := by positivity
  have h2 : ka + (n : ℝ) + 1 ≠ 0 := by positivity
  have h3 : (n : ℝ) + 1 ≠ 0 := by positivity
  have e : scale mu ka si nu n m c *
      (1 + (ka + n) / ((ka + n + 1) * scale mu ka si nu n m c) *
        (x - (ka * mu + m * n) / (ka + n)) ^ 2) = scale mu ka si nu n m c +
      (ka + n) / (ka + n + 1) * (x - (ka * mu + m * n) / (ka + n)) ^ 2 := by
    field_simp
  rw [e]
  unfold scale
  push_cast
  rw [← add_assoc ka]
  field_simp
  ring

theorem sqDev_eq (M : Multiset ℝ) :
    sqDev M = (M.map fun x => x ^ 2).sum - M.sum ^ 2 / M.card := by
  have expand : ∀ t : ℝ, (M.map fun x => (x - t) ^ 2).sum =
      (M.map fun x => x ^ 2).sum - 2 * t * M.sum + M.card * t ^ 2 := by
    intro t
    induction M using Multiset.induction with
    | empty => simp
    | cons a M ih =>
      simp only [Multiset.map_cons, Multiset.sum_cons, ih, Multiset.card_cons]; push_cast; ring
  rw [sqDev, expand, meanOf]
  by_cases h : M.card = 0
  · rw [Multiset.card_eq_zero] at h; subst h; simp
  have hc : (M.card : ℝ) ≠ 0 := by exact_mod_cast h
  field_simp; ring

theorem sqDev_nonneg (M : Multiset ℝ) : 0 ≤ sqDev M :=
  Multiset.sum_nonneg (by
    intro y hy; obtain ⟨x, _, rfl⟩ := Multiset.mem_map.mp hy; positivity)

theorem stats_eq (M : Multiset ℝ) : stats M = mk M.card (meanOf M) (sqDev M) := by
  rw [stats, sqDev_eq, meanOf]

theorem addTimes_eq (n : Int) (hn : 0 < n) (m c v : ℝ) (k : Nat) (hk : n + k ≤ 2147483647) :
    addTimes opsReal (mk n m c) v k = .ok (mk (n + k) ((n * m + k * v) / (n + k))
      (c + n * k / (n + k) * (v - m) ^ 2)) := by
  induction k generalizing n m c with
  | zero =>
    have : (n : ℝ) ≠ 0 := by exact_mod_cast hn.ne'
    simp [addTimes, addAll, this]
  | succ k ih =>
    have hn' : (0 : ℝ) < n := by exact_mod_cast hn
    have h1 : (n : ℝ) + 1 ≠ 0 := by positivity
    have h2 : (n : ℝ) + 1 + k ≠ 0 := by positivity
    have h3 : (n : ℝ) + (k + 1) ≠ 0 := by positivity
    simp only [addTimes, List.replicate_succ, addAll]
    show (mk n m c).addValue (.fin v) >>= _ = _
    rw [add_eq n hn.le (by push_cast at hk; omega)]
    show addTimes opsReal _ v k = _
    rw [ih (n + 1) (by omega) _ _ (by push_cast at hk ⊢; omega)]
    simp only [mk, Res.ok.injEq, Group.mk.injEq, XR.fin_inj]
    push_cast
    refine ⟨by ring, ?_, ?_⟩
    · field_simp; ring
    · field_simp; ring

theorem addRepeated_eq (n : Int) (m c v : ℝ) (k : Int) (hk : InInt32 (n + k)) (h0 : n + k ≠ 0) :
    (mk n m c).addRepeatedValue (.fin v) k = .ok (mk (n + k) (m + (k * v - m) / (n + k))
      (c + (k * v - m) * (v - (m + (k * v - m) / (n + k))))) := by
  have h : ((n + k : Int) : ℝ) ≠ 0 := by exact_mod_cast h0
  simp only [Group.addRepeatedValue, mk, i32_of hk, Res.ok_bind, XR.ofInt_eq, XR.fin_mul, XR.fin_sub]
  rw [XR.fin_div _ _ h]
  simp

theorem merge_eq (n₁ n₂ : Int) (m₁ c₁ m₂ c₂ : ℝ) (hk : InInt32 (n₁ + n₂)) (h0 : n₁ + n₂ ≠ 0) :
    (mk n₁ m₁ c₁).merge (mk n₂ m₂ c₂) = .ok (mk (n₁ + n₂) (m₁ + n₂ / (n₁ + n₂) * (m₂ - m₁))
      (c₁ + (c₂ + n₁ * (n₂ / (n₁ + n₂)) * (m₂ - m₁) ^ 2))) := by
  have h : ((n₁ + n₂ : Int) : ℝ) ≠ 0 := by exact_mod_cast h0
  simp only [Group.merge, mk, i32_of hk, Res.ok_bind, XR.ofInt_eq, XR.fin_mul, XR.fin_sub, sqr]
  rw [XR.fin_div _ _ h]
  simp [pow_two]

end NICH

end Dist
