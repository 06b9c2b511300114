import Verif.Lemmas.NICH
import Verif.Lemmas.StudentT
import Verif.Spec.Distributions

/-! # Normal-Inverse-ChiSq: properties C25-C29, C32-C34

The statistics are floats, so statements are in exact arithmetic. -/

namespace Dist

open Spec FloatOps FloatNotation

/-! ## C25 -/

/-- **C25 (Normal-Inverse-ChiSq).** After any history that only removes what is there,
the statistics are the number of values held, their mean, and the sum of their squared
deviations. -/
theorem C25_nich_contents (h : List (ValueOp ℝ)) (hv : ValidValues 0 h) :
    runGroup NICH.opsReal NICH.Group.init h =
      .ok ⟨(contents 0 h).card, .fin (meanOf (contents 0 h)), .fin (sqDev (contents 0 h))⟩ := by
  obtain ⟨g, e, hg, _⟩ := runGroup_summarises NICH.summarises h NICH.Group.init 0
    NICH.summarises.init hv
  rw [e, hg, NICH.stats_eq]; rfl

/-- Histories leading to the same values give the same group. -/
theorem C25_nich_order (h₁ h₂ : List (ValueOp ℝ)) (hv₁ : ValidValues 0 h₁)
    (hv₂ : ValidValues 0 h₂) (hn : ∀ v, net h₁ v = net h₂ v) :
    runGroup NICH.opsReal NICH.Group.init h₁ = runGroup NICH.opsReal NICH.Group.init h₂ := by
  have : contents 0 h₁ = contents 0 h₂ := by
    ext v
    have e1 := count_contents h₁ 0 hv₁ v
    have e2 := count_contents h₂ 0 hv₂ v
    have := hn v
    omega
  rw [C25_nich_contents h₁ hv₁, C25_nich_contents h₂ hv₂, this]

/-- `remove_value` undoes `add_value` in every state reached by such a history. -/
theorem C25_nich_inverse (M : Multiset ℝ) (hM : M.card < 2147483647) (v : ℝ) :
    ∃ g', (⟨M.card, .fin (meanOf M), .fin (sqDev M)⟩ : NICH.Group XR).addValue (.fin v) = .ok g' ∧
      g'.removeValue (.fin v) = .ok ⟨M.card, .fin (meanOf M), .fin (sqDev M)⟩ := by
  have e : (⟨M.card, .fin (meanOf M), .fin (sqDev M)⟩ : NICH.Group XR) = NICH.stats M := by
    rw [NICH.stats_eq]; rfl
  rw [e]
  refine ⟨_, NICH.stats_cons M v hM, ?_⟩
  rw [NICH.stats_erase _ v (by simp), Multiset.erase_cons_head]

example : ValidValues (0 : Multiset ℝ) [.add 1.5, .add (-2), .remove 1.5] := by
  simp [ValidValues]

/-! ## C26 -/

/-- **C26 (Normal-Inverse-ChiSq), what holds.** On an empty group, adding a value
`n >= 1` times at once is adding it `n` times.

Full statement: the same from every group state, for every `n`.  That is false: see
`C26_nich_iff` for exactly when it holds on a nonempty group, and `C26_nich_zero` for
`n = 0` on an empty group. -/
theorem C26_nich_partial (v : ℝ) (n : Nat) (hn : 0 < n) (hn' : n ≤ 2147483647) :
    ∃ g, addTimes NICH.opsReal NICH.Group.init v n = .ok g ∧
      (NICH.Group.init : NICH.Group XR).addRepeatedValue (.fin v) n = .ok g := by
  have h0 : (NICH.Group.init : NICH.Group XR) = NICH.mk 0 0 0 := by
    simp [NICH.Group.init, NICH.mk]
  obtain ⟨k, rfl⟩ : ∃ k, n = k + 1 := ⟨n - 1, by omega⟩
  rw [h0, NICH.addRepeated_eq _ _ _ _ _ (by unfold InInt32 int32Min int32Max; omega) (by omega)]
  refine ⟨_, ?_, rfl⟩
  simp only [addTimes, List.replicate_succ, addAll]
  show (NICH.mk 0 0 0).addValue (.fin v) >>= _ = _
  rw [NICH.add_eq _ (by omega) (by omega)]
  show addTimes NICH.opsReal _ v k = _
  rw [NICH.addTimes_eq _ (by omega) _ _ _ _ (by omega)]
  have h1 : (1 : ℝ) + k ≠ 0 := by positivity
  have h2 : (k : ℝ) + 1 ≠ 0 := by positivity
  simp only [NICH.mk, Res.ok.injEq, NICH.Group.mk.injEq, XR.fin_inj]
  push_cast
  refine ⟨by ring, ?_, ?_⟩
  · field_simp; ring
  · field_simp; ring

/-- **C26 (Normal-Inverse-ChiSq), finding.** On a nonempty group the repeated add is
right only if it adds the value exactly once or the mean happens to be zero. -/
theorem C26_nich_iff (m : Int) (hm : 0 < m) (mean ctv v : ℝ) (n : Nat)
    (hn : m + n ≤ 2147483647) :
    ((⟨m, .fin mean, .fin ctv⟩ : NICH.Group XR).addRepeatedValue (.fin v) n =
      addTimes NICH.opsReal ⟨m, .fin mean, .fin ctv⟩ v n) ↔ n = 1 ∨ mean = 0 := by
  show (NICH.mk m mean ctv).addRepeatedValue (.fin v) n = addTimes _ (NICH.mk m mean ctv) v n ↔ _
  rw [NICH.addTimes_eq m hm _ _ _ _ hn,
    NICH.addRepeated_eq _ _ _ _ _ (by unfold InInt32 int32Min int32Max; omega) (by omega)]
  simp only [NICH.mk, Res.ok.injEq, NICH.Group.mk.injEq, XR.fin_inj, true_and, Int.cast_natCast]
  have hm' : (0 : ℝ) < m := by exact_mod_cast hm
  have hs : (m : ℝ) + n ≠ 0 := by positivity
  constructor
  · rintro ⟨h1, _⟩
    field_simp at h1
    have : mean * ((n : ℝ) - 1) = 0 := by linarith
    rcases mul_eq_zero.mp this with h | h
    · exact Or.inr h
    · left; have : (n : ℝ) = 1 := by linarith
      exact_mod_cast this
  · rintro (rfl | rfl)
    · push_cast at hs ⊢
      constructor
      · field_simp; ring
      · field_simp; ring
    · constructor
      · field_simp; ring
      · field_simp; ring

/-- A witness: a group holding one observation 1, to which 1 is added twice at once,
has mean 4/3 instead of 1. -/
theorem C26_nich_witness :
    (⟨1, .fin 1, .fin 0⟩ : NICH.Group XR).addRepeatedValue (.fin 1) 2 =
        .ok ⟨3, .fin (4 / 3), .fin (-1 / 3)⟩ ∧
      addTimes NICH.opsReal ⟨1, .fin 1, .fin 0⟩ 1 2 = .ok ⟨3, .fin 1, .fin 0⟩ := by
  constructor
  · show (NICH.mk 1 1 0).addRepeatedValue _ _ = _
    rw [NICH.addRepeated_eq _ _ _ _ _ (by unfold InInt32 int32Min int32Max; omega) (by omega)]
    norm_num [NICH.mk]
  · show addTimes _ (NICH.mk 1 1 0) _ _ = _
    rw [NICH.addTimes_eq _ (by omega) _ _ _ _ (by omega)]
    norm_num [NICH.mk]

/-- Adding a value zero times to an empty group divides zero by zero: the mean becomes
NaN. -/
theorem C26_nich_zero (v : ℝ) :
    (NICH.Group.init : NICH.Group XR).addRepeatedValue (.fin v) 0 = .ok ⟨0, .nan, .nan⟩ := by
  simp only [NICH.Group.init, NICH.Group.addRepeatedValue]
  rw [i32_of (by unfold InInt32 int32Min int32Max; omega)]
  simp

/-! ## C27 -/

/-- **C27 (Normal-Inverse-ChiSq), what holds.** Merging the groups of two data sets, not
both empty, gives the group of their concatenation.

Full statement: for any two data sets.  Missing: merging two empty groups divides zero
by zero, see `C27_nich_empty`. -/
theorem C27_nich_partial (xs ys : List ℝ) (hne : xs ++ ys ≠ [])
    (hl : xs.length + ys.length ≤ 2147483647) :
    ∃ gx gy g, addAll NICH.opsReal NICH.Group.init xs = .ok gx ∧
      addAll NICH.opsReal NICH.Group.init ys = .ok gy ∧
      addAll NICH.opsReal NICH.Group.init (xs ++ ys) = .ok g ∧ gx.merge gy = .ok g := by
  obtain ⟨gx, ex, hx, _⟩ := addAll_summarises NICH.summarises xs (by omega)
  obtain ⟨gy, ey, hy, _⟩ := addAll_summarises NICH.summarises ys (by omega)
  obtain ⟨g, e, hg, _⟩ := addAll_summarises NICH.summarises (xs ++ ys) (by simpa using hl)
  refine ⟨gx, gy, g, ex, ey, e, ?_⟩
  have hpos : 0 < xs.length + ys.length := by
    have := List.length_pos_iff.mpr hne; simpa using this
  subst hx hy hg
  rw [NICH.stats, NICH.stats, NICH.merge_eq _ _ _ _ _ _
    (by simp; unfold InInt32 int32Min int32Max; omega) (by simp; omega), ← Multiset.coe_add,
    NICH.stats]
  have hzx : xs.length = 0 → (xs : Multiset ℝ).sum = 0 ∧
      ((xs : Multiset ℝ).map fun x => x ^ 2).sum = 0 := by
    intro h; rw [List.length_eq_zero_iff] at h; subst h; simp
  have hzy : ys.length = 0 → (ys : Multiset ℝ).sum = 0 ∧
      ((ys : Multiset ℝ).map fun x => x ^ 2).sum = 0 := by
    intro h; rw [List.length_eq_zero_iff] at h; subst h; simp
  simp only [Multiset.card_add, Multiset.coe_card, Multiset.map_add, Multiset.sum_add]
  generalize (xs : Multiset ℝ).sum = s₁ at *
  generalize (ys : Multiset ℝ).sum = s₂ at *
  generalize ((xs : Multiset ℝ).map fun x => x ^ 2).sum = q₁ at *
  generalize ((ys : Multiset ℝ).map fun x => x ^ 2).sum = q₂ at *
  generalize xs.length = n₁ at *
  generalize ys.length = n₂ at *
  have hs : (n₁ : ℝ) + n₂ ≠ 0 := by exact_mod_cast hpos.ne'
  simp only [NICH.mk, Res.ok.injEq, NICH.Group.mk.injEq, XR.fin_inj]
  push_cast
  by_cases h1 : n₁ = 0
  · obtain ⟨rfl, rfl⟩ := hzx h1
    subst h1
    have hn2 : (n₂ : ℝ) ≠ 0 := by simpa using hs
    refine ⟨rfl, ?_, ?_⟩ <;> simp [hn2]
  by_cases h2 : n₂ = 0
  · obtain ⟨rfl, rfl⟩ := hzy h2
    subst h2; simp
  have hn1 : (n₁ : ℝ) ≠ 0 := by exact_mod_cast h1
  have hn2 : (n₂ : ℝ) ≠ 0 := by exact_mod_cast h2
  refine ⟨rfl, ?_, ?_⟩
  · field_simp; ring
  · field_simp; ring

/-- **C27 (Normal-Inverse-ChiSq), finding.** Merging two empty groups makes the mean and
variance NaN. -/
theorem C27_nich_empty :
    (NICH.Group.init : NICH.Group XR).merge NICH.Group.init = .ok ⟨0, .nan, .nan⟩ := by
  simp only [NICH.Group.init, NICH.Group.merge]
  rw [i32_of (by unfold InInt32 int32Min int32Max; omega)]
  simp [NICH.sqr]

/-! ## C28, C29 -/

/-- **C28 (Normal-Inverse-ChiSq), one step.** In exact arithmetic, for every group with
nonnegative count and variance. -/
theorem C28_nich_step (mu kappa sigmasq nu : ℝ) (hk : 0 < kappa) (hs : 0 < sigmasq) (hv : 0 < nu)
    (n : Int) (hn : 0 ≤ n) (hn' : n < 2147483647) (m c x : ℝ) (hc : 0 ≤ c) :
    ∃ g', (⟨n, .fin m, .fin c⟩ : NICH.Group XR).addValue (.fin x) = .ok g' ∧
      g'.scoreData (NICH.real mu kappa sigmasq nu) =
        (⟨n, .fin m, .fin c⟩ : NICH.Group XR).scoreData (NICH.real mu kappa sigmasq nu) +
        (⟨n, .fin m, .fin c⟩ : NICH.Group XR).scoreValue (NICH.real mu kappa sigmasq nu)
          (.fin x) := by
  have hn0 : (0 : ℝ) ≤ n := by exact_mod_cast hn
  refine ⟨_, NICH.add_eq n hn hn' m c x, ?_⟩
  show _ = (NICH.mk n m c).scoreData _ + (NICH.mk n m c).scoreValue _ _
  have hc' : 0 ≤ c + (x - m) * (x - (m + (x - m) / (n + 1))) := by
    have h1 : (n : ℝ) + 1 ≠ 0 := by positivity
    have : (x - m) * (x - (m + (x - m) / (n + 1))) = (x - m) ^ 2 * (n / (n + 1)) := by
      field_simp; ring
    rw [this]; positivity
  have hS := NICH.scale_pos (mu := mu) hk hs hv n hn m c hc
  have hq : 0 < 1 + (kappa + n) / ((kappa + n + 1) * NICH.scale mu kappa sigmasq nu n m c) *
      (x - (kappa * mu + m * n) / (kappa + n)) ^ 2 := by positivity
  rw [NICH.scoreData_eq hk hs hv (n + 1) (by omega) _ _ hc',
    NICH.scale_step hk n hn m c x hS.ne', NICH.scoreData_eq hk hs hv n hn m c hc,
    NICH.scoreValue_eq hk hs hv n hn m c hc]
  simp only [XR.fin_add, XR.fin_inj]
  generalize NICH.scale mu kappa sigmasq nu n m c = S at *
  have h1 : 0 < kappa + (n : ℝ) := by positivity
  have h2 : 0 < kappa + (n : ℝ) + 1 := by positivity
  rw [Real.log_mul hS.ne' hq.ne', Real.log_div (by positivity) Real.pi_pos.ne',
    Real.log_div h1.ne' (by positivity), Real.log_mul h2.ne' hS.ne']
  push_cast
  rw [show (1 : ℝ) / 2 * (nu + (n + 1)) = (nu + n) / 2 + 1 / 2 by ring,
    show (1 : ℝ) / 2 * (nu + n) = (nu + n) / 2 by ring, ← add_assoc kappa]
  ring

/-- The empty group has data score zero. -/
theorem C28_nich_empty (mu kappa sigmasq nu : ℝ) (hk : 0 < kappa) (hs : 0 < sigmasq)
    (hv : 0 < nu) :
    (NICH.Group.init : NICH.Group XR).scoreData (NICH.real mu kappa sigmasq nu) = .fin 0 := by
  have h0 : (NICH.Group.init : NICH.Group XR) = NICH.mk 0 0 0 := by
    simp [NICH.Group.init, NICH.mk]
  rw [h0, NICH.scoreData_eq hk hs hv 0 le_rfl 0 0 le_rfl]
  simp [NICH.scale]

/-- **C28 (Normal-Inverse-ChiSq).** The data score of the group of any data set is the
sum of the predictive scores of its values, each given those before it. -/
theorem C28_nich (mu kappa sigmasq nu : ℝ) (hk : 0 < kappa) (hs : 0 < sigmasq) (hv : 0 < nu)
    (xs : List ℝ) (hl : xs.length ≤ 2147483647) :
    ∃ g, addAll NICH.opsReal NICH.Group.init xs = .ok g ∧
      sequentialScore NICH.opsReal
        (fun g v => .ok (g.scoreValue (NICH.real mu kappa sigmasq nu) (.fin v)))
        NICH.Group.init xs (ofInt 0) = .ok (g.scoreData (NICH.real mu kappa sigmasq nu)) := by
  obtain ⟨g, h1, h2, _⟩ := sequential_of_step_le NICH.summarises
    (fun g v => .ok (g.scoreValue (NICH.real mu kappa sigmasq nu) (.fin v)))
    (fun g => g.scoreData (NICH.real mu kappa sigmasq nu)) xs hl
    (fun g M v g' hS hle hg => ⟨_, rfl, by
      rcases hS with ⟨rfl, hM⟩
      have hcard := Multiset.card_le_card hle
      simp only [Multiset.card_cons, Multiset.coe_card] at hcard
      rw [NICH.stats_eq] at hg ⊢
      obtain ⟨g'', e, h⟩ := C28_nich_step mu kappa sigmasq nu hk hs hv M.card (by omega) (by omega)
        (meanOf M) (sqDev M) v (NICH.sqDev_nonneg M)
      have := hg.symm.trans e
      simp only [Res.ok.injEq] at this
      subst this
      exact h⟩)
  refine ⟨g, h1, ?_⟩
  rw [← h2]
  show sequentialScore _ _ _ _ _ = sequentialScore _ _ _ _
    ((NICH.Group.init : NICH.Group XR).scoreData (NICH.real mu kappa sigmasq nu))
  rw [C28_nich_empty mu kappa sigmasq nu hk hs hv]; simp; rfl

/-- **C29 (Normal-Inverse-ChiSq).** Adding the same values in another order gives, in
exact arithmetic, the same group, hence the same scores. -/
theorem C29_nich (sh : NICH.Shared XR) (xs ys : List ℝ) (hp : xs.Perm ys)
    (hl : xs.length ≤ 2147483647) :
    ∃ gx gy, addAll NICH.opsReal NICH.Group.init xs = .ok gx ∧
      addAll NICH.opsReal NICH.Group.init ys = .ok gy ∧
      gx.scoreData sh = gy.scoreData sh ∧ ∀ v, gx.scoreValue sh v = gy.scoreValue sh v := by
  obtain ⟨gx, ex, hx, _⟩ := addAll_summarises NICH.summarises xs hl
  obtain ⟨gy, ey, hy, _⟩ := addAll_summarises NICH.summarises ys
    (by rw [← hp.length_eq]; exact hl)
  have : gx = gy := by rw [hx, hy, Multiset.coe_eq_coe.mpr hp]
  exact ⟨gx, gy, ex, ey, by rw [this], by rw [this]; simp⟩

/-- A group and hyperparameters meeting the hypotheses of C28 (the example of
nich.hpp:87-94). -/
example : (0 : ℝ) < 1 ∧ (0 : Int) ≤ 3 ∧ (3 : Int) < 2147483647 ∧ (0 : ℝ) ≤ 2.5 := by
  norm_num

/-! ## C33 -/

/-- **C33 (Normal-Inverse-ChiSq).** Updating the hyperparameters with one group and then
with another is updating with the merged group (not both empty, as merging two empty
groups fails). -/
theorem C33_nich (mu kappa sigmasq nu : ℝ) (hk : 0 < kappa) (hv : 0 < nu)
    (n₁ n₂ : Int) (h₁ : 0 ≤ n₁) (h₂ : 0 ≤ n₂) (hpos : 0 < n₁ + n₂)
    (hn : n₁ + n₂ ≤ 2147483647) (m₁ c₁ m₂ c₂ : ℝ) :
    ∃ g, (⟨n₁, .fin m₁, .fin c₁⟩ : NICH.Group XR).merge ⟨n₂, .fin m₂, .fin c₂⟩ = .ok g ∧
      ((NICH.real mu kappa sigmasq nu).plusGroup ⟨n₁, .fin m₁, .fin c₁⟩).plusGroup
        ⟨n₂, .fin m₂, .fin c₂⟩ = (NICH.real mu kappa sigmasq nu).plusGroup g := by
  refine ⟨_, NICH.merge_eq n₁ n₂ m₁ c₁ m₂ c₂
    (by unfold InInt32 int32Min int32Max; omega) (by omega), ?_⟩
  have g₁ : (0 : ℝ) ≤ n₁ := by exact_mod_cast h₁
  have g₂ : (0 : ℝ) ≤ n₂ := by exact_mod_cast h₂
  have g₃ : (n₁ : ℝ) + n₂ ≠ 0 := by exact_mod_cast hpos.ne'
  show ((NICH.real mu kappa sigmasq nu).plusGroup (NICH.mk n₁ m₁ c₁)).plusGroup
    (NICH.mk n₂ m₂ c₂) = _
  rw [NICH.plus_eq hk hv n₁ h₁, NICH.plus_eq (by positivity) (by positivity) n₂ h₂,
    NICH.plus_eq hk hv _ (by omega)]
  have k1 : kappa + (n₁ : ℝ) ≠ 0 := by positivity
  have k2 : kappa + (n₁ : ℝ) + n₂ ≠ 0 := by positivity
  have v1 : nu + (n₁ : ℝ) ≠ 0 := by positivity
  have v2 : nu + (n₁ : ℝ) + n₂ ≠ 0 := by positivity
  simp only [NICH.real, NICH.Shared.mk.injEq, XR.fin_inj]
  push_cast
  rw [← add_assoc kappa, ← add_assoc nu]
  refine ⟨?_, rfl, ?_, rfl⟩
  · field_simp; ring
  · field_simp; ring

/-! ## C32, C34 -/

/-- **C34 (Normal-Inverse-ChiSq).** A scorer initialised from a group evaluates, at every
value, to the log density of the Student-t predictive of the posterior hyperparameters
`kappa_n = kappa + n`, `nu_n = nu + n`, `mu_n = (kappa mu + n m) / kappa_n`,
`nu_n sigmasq_n = nu sigmasq + c + n kappa (mu - m)^2 / kappa_n`; and so does the
group's `score_value`. -/
theorem C34_nich (mu kappa sigmasq nu : ℝ) (hk : 0 < kappa) (hs : 0 < sigmasq) (hv : 0 < nu)
    (n : Int) (hn : 0 ≤ n) (m c x : ℝ) (hc : 0 ≤ c) :
    let sh := NICH.real mu kappa sigmasq nu
    let g : NICH.Group XR := ⟨n, .fin m, .fin c⟩
    let density := studentT (nu + n) ((kappa * mu + n * m) / (kappa + n))
      ((nu * sigmasq + c + n * kappa * (mu - m) ^ 2 / (kappa + n)) / (nu + n) *
        ((kappa + n + 1) / (kappa + n))) x
    0 < density ∧ (NICH.Scorer.init sh g).eval (.fin x) = .fin (Real.log density) ∧
      g.scoreValue sh (.fin x) = .fin (Real.log density) := by
  intro sh g density
  have hn0 : (0 : ℝ) ≤ n := by exact_mod_cast hn
  have h1 : 0 < kappa + (n : ℝ) := by positivity
  have h2 : 0 < nu + (n : ℝ) := by positivity
  have h3 : 0 < kappa + (n : ℝ) + 1 := by positivity
  have hS := NICH.scale_pos (mu := mu) hk hs hv n hn m c hc
  have G1 := Real.Gamma_pos_of_pos (show 0 < (nu + n + 1) / 2 by positivity)
  have G2 := Real.Gamma_pos_of_pos (show 0 < (nu + n) / 2 by positivity)
  have eS : nu * sigmasq + c + n * kappa * (mu - m) ^ 2 / (kappa + n) =
      NICH.scale mu kappa sigmasq nu n m c := by unfold NICH.scale; ring
  have hd : density = Real.Gamma ((nu + n + 1) / 2) / (Real.Gamma ((nu + n) / 2) *
      √(Real.pi / ((kappa + n) / ((kappa + n + 1) * NICH.scale mu kappa sigmasq nu n m c)))) *
      (1 + (kappa + n) / ((kappa + n + 1) * NICH.scale mu kappa sigmasq nu n m c) *
        (x - (kappa * mu + m * n) / (kappa + n)) ^ 2) ^ (-(nu + n + 1) / 2) := by
    simp only [density, studentT]
    rw [eS]
    congr 1
    · congr 2; field_simp
    · congr 1
      rw [mul_comm (n : ℝ) m]
      field_simp
  have hq : 0 < 1 + (kappa + n) / ((kappa + n + 1) * NICH.scale mu kappa sigmasq nu n m c) *
      (x - (kappa * mu + m * n) / (kappa + n)) ^ 2 := by positivity
  have hl : 0 < (kappa + n) / ((kappa + n + 1) * NICH.scale mu kappa sigmasq nu n m c) := by
    positivity
  have key : g.scoreValue sh (.fin x) = .fin (Real.log density) := by
    show (NICH.mk n m c).scoreValue _ _ = _
    rw [NICH.scoreValue_eq hk hs hv n hn m c hc x, hd]
    congr 1
    generalize NICH.scale mu kappa sigmasq nu n m c = S at *
    rw [Real.log_mul (by positivity) (by positivity), Real.log_div G1.ne' (by positivity),
      Real.log_mul G2.ne' (by positivity), Real.log_rpow hq, Real.log_sqrt (by positivity),
      Real.log_div Real.pi_pos.ne' hl.ne', Real.log_div hl.ne' Real.pi_pos.ne']
    rw [show (nu + (n : ℝ)) / 2 + 1 / 2 = (nu + n + 1) / 2 by ring]
    ring
  refine ⟨?_, key, key⟩
  rw [hd]; positivity

/-- **C32.** For every group, exp of the predictive score integrates to one over the real
line. -/
theorem C32_nich (mu kappa sigmasq nu : ℝ) (hk : 0 < kappa) (hs : 0 < sigmasq) (hv : 0 < nu)
    (n : Int) (hn : 0 ≤ n) (m c : ℝ) (hc : 0 ≤ c) :
    ∃ f : ℝ → ℝ, (∀ x, (⟨n, .fin m, .fin c⟩ : NICH.Group XR).scoreValue
        (NICH.real mu kappa sigmasq nu) (.fin x) = .fin (f x)) ∧
      ∫ x, Real.exp (f x) = 1 := by
  have hn0 : (0 : ℝ) ≤ n := by exact_mod_cast hn
  have h1 : 0 < kappa + (n : ℝ) := by positivity
  have h2 : 0 < nu + (n : ℝ) := by positivity
  have h3 : 0 < kappa + (n : ℝ) + 1 := by positivity
  have hS := NICH.scale_pos (mu := mu) hk hs hv n hn m c hc
  refine ⟨_, fun x => NICH.scoreValue_eq hk hs hv n hn m c hc x, ?_⟩
  generalize NICH.scale mu kappa sigmasq nu n m c = S at *
  have hl : 0 < (kappa + n) / ((kappa + n + 1) * S) := by positivity
  generalize (kappa + n) / ((kappa + n + 1) * S) = l at *
  generalize (kappa * mu + m * n) / (kappa + n) = t
  have hs2 : 0 < (nu + (n : ℝ)) / 2 := by positivity
  generalize (nu + (n : ℝ)) / 2 = s at *
  have G1 := Real.Gamma_pos_of_pos (show 0 < s + 1 / 2 by positivity)
  have G2 := Real.Gamma_pos_of_pos hs2
  have e : (fun x : ℝ => Real.exp (Real.log (Real.Gamma (s + 1 / 2)) - Real.log (Real.Gamma s) +
      1 / 2 * Real.log (l / Real.pi) - (s + 1 / 2) * Real.log (1 + l * (x - t) ^ 2))) =
      fun x : ℝ => (1 / (√(Real.pi / l) * Real.Gamma s)) *
        ((1 / (1 + l * (x - t) ^ 2)) ^ (s + 1 / 2) * Real.Gamma (s + 1 / 2)) := by
    funext x
    have hq : 0 < 1 + l * (x - t) ^ 2 := by positivity
    refine Real.log_injOn_pos (Real.exp_pos _) (show _ ∈ Set.Ioi (0 : ℝ) by
      simp only [Set.mem_Ioi]; positivity) ?_
    rw [Real.log_exp, Real.log_mul (by positivity) (by positivity), Real.log_mul (by positivity) G1.ne',
      Real.log_rpow (by positivity), one_div (_ * _), one_div (1 + _), Real.log_inv, Real.log_inv,
      Real.log_mul (by positivity) G2.ne', Real.log_sqrt (by positivity),
      Real.log_div Real.pi_pos.ne' hl.ne', Real.log_div hl.ne' Real.pi_pos.ne']
    ring
  rw [e, MeasureTheory.integral_const_mul, integral_studentT hs2 hl, one_div,
    inv_mul_cancel₀ (by positivity)]

end Dist
