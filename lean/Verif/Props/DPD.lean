import Verif.Lemmas.DPD
import Verif.Props.MixtureData

/-! # Dirichlet-Process-Discrete: properties C25-C30, C34, C36

Groups may hold the values the shared state knows (`DPD.Known sh`): `add_value` asserts
that the value has a weight.  Hash tables may be visited in any order (`Enum`). -/

namespace Dist

open Spec FloatOps FloatNotation

/-! ## C25, C26 -/

section
variable {F : Type} [FloatOps F]

namespace DPD

/-- Number of values added minus removed. -/
def netSize {V : Type} : List (ValueOp V) → Int
  | [] => 0
  | .add _ :: h => 1 + netSize h
  | .remove _ :: h => -1 + netSize h

theorem run_rep (lvl : Nat) (sh : Shared F) (h : List (ValueOp (Known sh))) (g : Group)
    (s : SignedMultiset UInt32) (hg : SparseCounter.Rep g s)
    (hs : |s.total| + h.length ≤ 2147483647)
    (hc : ∀ v, |s.count v| + h.length ≤ 2147483647) :
    ∃ g' : Group, runGroup (opsKnown lvl sh) g h = .ok g' ∧ SparseCounter.Rep g'
      ⟨fun v => s.count v + if hv : v ≠ other ∧ sh.betas.contains v = true then net h ⟨v, hv⟩ else 0,
        s.total + netSize h⟩ := by
  induction h generalizing g s with
  | nil => exact ⟨g, rfl, hg.congr (by intro k; simp [net]) (by simp [netSize])⟩
  | cons op h ih =>
    simp only [List.length_cons, Nat.cast_add, Nat.cast_one] at hs hc
    have key : ∀ x k : Int, |k| = 1 → |x| + (h.length + 1) ≤ 2147483647 →
        |x + k| + h.length ≤ 2147483647 ∧ InInt32 (x + k) := by
      intro x k hk hx
      have h1 := abs_add_le x k
      have h2 : |x + k| ≤ 2147483647 := by omega
      have h3 := abs_le.mp h2
      exact ⟨by omega, by unfold InInt32 int32Min int32Max; omega⟩
    have step : ∀ (v : Known sh) (k : Int), |k| = 1 →
        ∃ g₁ g' : Group, Group.addRepeatedValue lvl sh g v k = .ok g₁ ∧
          runGroup (opsKnown lvl sh) g₁ h = .ok g' ∧ SparseCounter.Rep g'
            ⟨fun w => s.count w + (if w = v then k else 0) +
              (if hv : w ≠ other ∧ sh.betas.contains w = true then net h ⟨w, hv⟩ else 0),
              s.total + k + netSize h⟩ := by
      intro v k hk
      obtain ⟨g₁, e₁, h₁⟩ := addRepeated_rep lvl sh hg v k (key _ k hk (hc v)).2 (key _ k hk hs).2
      obtain ⟨g', e', h'⟩ := ih g₁ _ h₁ (key _ k hk hs).1 (by
        intro w
        simp only [SignedMultiset.add]
        split_ifs with hw
        · exact (key _ k hk (hc v)).1
        · have := hc w; omega)
      refine ⟨g₁, g', e₁, e', h'.congr ?_ rfl⟩
      intro w
      simp only [SignedMultiset.add]
      by_cases hw : w = v
      · subst hw; simp
      · simp [hw]
    have hnet : ∀ (w : UInt32) (v : Known sh) (hw : w ≠ other ∧ sh.betas.contains w = true) (k : Int),
        (if v = (⟨w, hw⟩ : Known sh) then k else 0) = if w = v then k else 0 := by
      intro w v hw k
      by_cases e : w = v
      · subst e; simp
      · rw [if_neg e, if_neg]
        rintro rfl; exact e rfl
    have hno : ∀ (w : UInt32) (v : Known sh) (_ : ¬ (w ≠ other ∧ sh.betas.contains w = true)),
        ¬ w = v := by
      intro w v hw e; subst e; exact hw v.2
    cases op with
    | add v =>
      obtain ⟨g₁, g', e₁, e', h'⟩ := step v 1 (by simp)
      refine ⟨g', ?_, h'.congr ?_ ?_⟩
      · show (Group.addValue lvl sh g v >>= _) = _
        rw [addValue_eq, e₁]; exact e'
      · intro w
        simp only [net]
        by_cases hw : w ≠ other ∧ sh.betas.contains w = true
        · rw [dif_pos hw, dif_pos hw, hnet]; ring
        · rw [dif_neg hw, dif_neg hw, if_neg (hno w v hw)]; ring
      · simp only [netSize]; ring
    | remove v =>
      obtain ⟨g₁, g', e₁, e', h'⟩ := step v (-1) (by simp)
      refine ⟨g', ?_, h'.congr ?_ ?_⟩
      · show (Group.removeValue lvl sh g v >>= _) = _
        rw [removeValue_eq, e₁]; exact e'
      · intro w
        simp only [net]
        by_cases hw : w ≠ other ∧ sh.betas.contains w = true
        · rw [dif_pos hw, dif_pos hw, hnet]; ring
        · rw [dif_neg hw, dif_neg hw, if_neg (hno w v hw)]; ring
      · simp only [netSize]; ring

end DPD

/-- **C25 (Dirichlet-Process-Discrete).** After any history of additions and removals of
known values, in any order and with debt allowed, every count is the net count, exactly
the values with nonzero net count are stored, and the total is the net number of values. -/
theorem C25_dpd_history (lvl : Nat) (sh : DPD.Shared F) (h : List (ValueOp (DPD.Known sh)))
    (hl : h.length ≤ 2147483647) :
    ∃ g : DPD.Group, runGroup (DPD.opsKnown lvl sh) SparseCounter.raw.clear h = .ok g ∧
      (∀ v : DPD.Known sh, g.getCount v = net h v ∧ ((v : UInt32) ∈ g.map.keys ↔ net h v ≠ 0)) ∧
      (∀ v : UInt32, ¬ (v ≠ DPD.other ∧ sh.betas.contains v = true) → v ∉ g.map.keys) ∧
      g.getTotal = .ok (DPD.netSize h) := by
  have hl' : (h.length : Int) ≤ 2147483647 := by exact_mod_cast hl
  obtain ⟨g, e, hg⟩ := DPD.run_rep lvl sh h _ _ (SparseCounter.rep_clear SparseCounter.raw)
    (by simpa [SignedMultiset.empty] using hl') (by intro v; simpa [SignedMultiset.empty] using hl')
  refine ⟨g, e, ?_, ?_, ?_⟩
  · intro v
    rw [hg.getCount, hg.mem_keys]
    have := v.2
    simp only [SignedMultiset.empty, zero_add]
    rw [dif_pos this]
    exact ⟨rfl, Iff.rfl⟩
  · intro v hv
    rw [hg.mem_keys]
    simp only [SignedMultiset.empty, zero_add]
    rw [dif_neg hv]; simp
  · simp [SparseCounter.getTotal, hg.total, SignedMultiset.empty]

/-- Histories with the same net effect give the same group. -/
theorem C25_dpd_order (lvl : Nat) (sh : DPD.Shared F) (h₁ h₂ : List (ValueOp (DPD.Known sh)))
    (hl₁ : h₁.length ≤ 2147483647) (hl₂ : h₂.length ≤ 2147483647)
    (hn : ∀ v, net h₁ v = net h₂ v) :
    ∃ g, runGroup (DPD.opsKnown lvl sh) SparseCounter.raw.clear h₁ = .ok g ∧
      runGroup (DPD.opsKnown lvl sh) SparseCounter.raw.clear h₂ = .ok g := by
  obtain ⟨g₁, e₁, r₁⟩ := DPD.run_rep lvl sh h₁ _ _ (SparseCounter.rep_clear SparseCounter.raw)
    (by simp [SignedMultiset.empty]; omega) (by intro v; simp [SignedMultiset.empty]; omega)
  obtain ⟨g₂, e₂, r₂⟩ := DPD.run_rep lvl sh h₂ _ _ (SparseCounter.rep_clear SparseCounter.raw)
    (by simp [SignedMultiset.empty]; omega) (by intro v; simp [SignedMultiset.empty]; omega)
  have hsize : ∀ h : List (ValueOp (DPD.Known sh)), DPD.netSize h = signedSum (fun _ => (1 : Int)) h := by
    intro h
    induction h with
    | nil => rfl
    | cons op h ih => cases op <;> simp [DPD.netSize, signedSum, ih]
  refine ⟨g₁, e₁, ?_⟩
  rw [e₂]
  congr 1
  refine (r₁.unique (r₂.congr ?_ ?_)).symm
  · intro v; simp only [hn]
  · simp only [hsize, signedSum_congr _ hn]

/-- For histories that only remove what is there (of any length), the group counts the
values held. -/
theorem C25_dpd_contents (lvl : Nat) (sh : DPD.Shared F) (h : List (ValueOp (DPD.Known sh)))
    (hv : ValidValues 0 h) :
    ∃ g : DPD.Group, runGroup (DPD.opsKnown lvl sh) SparseCounter.raw.clear h = .ok g ∧
      (∀ v : DPD.Known sh, g.getCount v = (contents 0 h).count v) ∧
      g.getTotal = .ok ((contents 0 h).card : Int) := by
  obtain ⟨g, e, hg, _⟩ := runGroup_summarises (DPD.summarises lvl sh) h SparseCounter.raw.clear 0
    (DPD.summarises lvl sh).init hv
  refine ⟨g, e, ?_, by simpa using hg.getTotal⟩
  intro v
  rw [hg.getCount, Multiset.count_map_eq_count' _ _ Subtype.val_injective]

/-- `remove_value` undoes `add_value` and conversely, in every state reached by counter
operations (`s`: what the counter holds). -/
theorem C25_dpd_inverse (lvl : Nat) (sh : DPD.Shared F) (g : DPD.Group)
    (s : SignedMultiset UInt32) (hg : SparseCounter.Rep g s) (v : DPD.Known sh)
    (hc : |s.count v| < 2147483647) (ht : |s.total| < 2147483647) :
    (∃ g', DPD.Group.addValue lvl sh g v = .ok g' ∧ DPD.Group.removeValue lvl sh g' v = .ok g) ∧
    (∃ g', DPD.Group.removeValue lvl sh g v = .ok g' ∧ DPD.Group.addValue lvl sh g' v = .ok g) := by
  have hc' := abs_lt.mp hc
  have ht' := abs_lt.mp ht
  have main : ∀ k : Int, |k| = 1 →
      ∃ g' : DPD.Group, DPD.Group.addRepeatedValue lvl sh g v k = .ok g' ∧
        DPD.Group.addRepeatedValue lvl sh g' v (-k) = .ok g := by
    intro k hk
    have hk' : k = 1 ∨ k = -1 := by
      rcases abs_eq (by norm_num : (0 : Int) ≤ 1) |>.mp hk with h | h <;> simp [h]
    obtain ⟨g₁, e₁, h₁⟩ := DPD.addRepeated_rep lvl sh hg v k
      (by unfold InInt32 int32Min int32Max; omega) (by unfold InInt32 int32Min int32Max; omega)
    obtain ⟨g₂, e₂, h₂⟩ := DPD.addRepeated_rep lvl sh h₁ v (-k)
      (by simp only [SignedMultiset.add]; unfold InInt32 int32Min int32Max; simp; omega)
      (by simp only [SignedMultiset.add]; unfold InInt32 int32Min int32Max; simp; omega)
    refine ⟨g₁, e₁, ?_⟩
    rw [e₂]
    congr 1
    refine (hg.unique (h₂.congr ?_ ?_)).symm
    · intro x
      by_cases hx : x = v <;> simp [SignedMultiset.add, hx]
    · simp [SignedMultiset.add]
  obtain ⟨g₁, h1, h2⟩ := main 1 (by simp)
  obtain ⟨g₂, h3, h4⟩ := main (-1) (by simp)
  exact ⟨⟨g₁, h1, h2⟩, ⟨g₂, h3, h4⟩⟩

/-- **C26 (Dirichlet-Process-Discrete).** In every state reached by counter operations,
as long as no `int` overflows. -/
theorem C26_dpd (lvl : Nat) (sh : DPD.Shared F) (g : DPD.Group) (s : SignedMultiset UInt32)
    (hg : SparseCounter.Rep g s) (v : DPD.Known sh) (n : Nat)
    (h0 : InInt32 (s.count v)) (h0' : InInt32 s.total)
    (hc : InInt32 (s.count v + n)) (ht : InInt32 (s.total + n)) :
    ∃ g', DPD.Group.addRepeatedValue lvl sh g v n = .ok g' ∧
      addTimes (DPD.opsKnown lvl sh) g v n = .ok g' := by
  obtain ⟨g', e', h'⟩ := DPD.addRepeated_rep lvl sh hg v n hc ht
  refine ⟨g', e', ?_⟩
  suffices hmain : ∀ (n : Nat) (g : DPD.Group) (s : SignedMultiset UInt32),
      SparseCounter.Rep g s → InInt32 (s.count v) → InInt32 s.total →
      InInt32 (s.count v + n) → InInt32 (s.total + n) →
      ∃ g', addTimes (DPD.opsKnown lvl sh) g v n = .ok g' ∧ SparseCounter.Rep g' (s.add v n) by
    obtain ⟨g'', e'', h''⟩ := hmain n g s hg h0 h0' hc ht
    rw [e'', h'.unique h'']
  clear e' h' hg h0 h0' hc ht
  intro n
  induction n with
  | zero =>
    intro g s hg _ _ _ _
    refine ⟨g, rfl, hg.congr ?_ ?_⟩
    · intro x; by_cases hx : x = v <;> simp [SignedMultiset.add, hx]
    · simp [SignedMultiset.add]
  | succ n ih =>
    intro g s hg h0 h0' hc ht
    unfold InInt32 int32Min int32Max at h0 h0' hc ht
    push_cast at hc ht
    obtain ⟨g₁, e₁, h₁⟩ := DPD.addRepeated_rep lvl sh hg v 1
      (by unfold InInt32 int32Min int32Max; omega) (by unfold InInt32 int32Min int32Max; omega)
    obtain ⟨g₂, e₂, h₂⟩ := ih g₁ _ h₁
      (by simp only [SignedMultiset.add]; unfold InInt32 int32Min int32Max; simp; omega)
      (by simp only [SignedMultiset.add]; unfold InInt32 int32Min int32Max; omega)
      (by simp only [SignedMultiset.add]; unfold InInt32 int32Min int32Max; simp; omega)
      (by simp only [SignedMultiset.add]; unfold InInt32 int32Min int32Max; omega)
    refine ⟨g₂, ?_, h₂.congr ?_ ?_⟩
    · simp only [addTimes, List.replicate_succ, addAll]
      show (DPD.Group.addValue lvl sh g v >>= _) = _
      rw [DPD.addValue_eq, e₁]; exact e₂
    · intro x
      by_cases hx : x = v
      · subst hx; simp only [SignedMultiset.add, if_true]; push_cast; ring
      · simp [SignedMultiset.add, hx]
    · simp only [SignedMultiset.add]; push_cast; ring

/-! ## C27 -/

/-- **C27 (Dirichlet-Process-Discrete), what holds.** Merging the groups of two data sets
gives the counts of the group of their concatenation, for every visiting order.

Full statement: the merged group *is* the group of the concatenation.  Missing: the total,
which counts the second data set twice (a consequence of C03), so all scores are wrong; see
`C27_dpd_merge_score`. -/
theorem C27_dpd_partial (lvl : Nat) (sh : DPD.Shared F) (xs ys : List (DPD.Known sh))
    (hl : xs.length + 2 * ys.length ≤ 2147483647) :
    ∃ gx gy g : DPD.Group, addAll (DPD.opsKnown lvl sh) SparseCounter.raw.clear xs = .ok gx ∧
      addAll (DPD.opsKnown lvl sh) SparseCounter.raw.clear ys = .ok gy ∧
      addAll (DPD.opsKnown lvl sh) SparseCounter.raw.clear (xs ++ ys) = .ok g ∧
      ∀ ks, gy.map.Enum ks → ∃ m : DPD.Group, DPD.Group.merge gx gy ks = .ok m ∧
        m.map = g.map ∧ m.getTotal = .ok ((xs.length : Int) + 2 * ys.length) := by
  obtain ⟨gx, ex, hx, _⟩ := addAll_summarises (DPD.summarises lvl sh) xs (by omega)
  obtain ⟨gy, ey, hy, _⟩ := addAll_summarises (DPD.summarises lvl sh) ys (by omega)
  obtain ⟨g, e, hg, _⟩ := addAll_summarises (DPD.summarises lvl sh) (xs ++ ys)
    (by simp; omega)
  refine ⟨gx, gy, g, ex, ey, e, fun ks hks => ?_⟩
  have hmem : ∀ k, k ∈ ks ↔ k ∈ ((ys : Multiset (DPD.Known sh)).map Subtype.val) :=
    fun k => (hks.mem k).trans (hy.mem_keys k)
  have hsum : (ks.map fun k => (((ys : Multiset (DPD.Known sh)).map Subtype.val).count k : Int)).sum =
      ys.length := by
    have h1 := Multiset.toFinset_sum_count_eq ((ys : Multiset (DPD.Known sh)).map Subtype.val)
    have h2 : ks.toFinset = ((ys : Multiset (DPD.Known sh)).map Subtype.val).toFinset := by
      ext k; rw [List.mem_toFinset, Multiset.mem_toFinset, hmem]
    rw [← List.sum_toFinset _ hks.nodup, h2]
    have h3 : ((ys : Multiset (DPD.Known sh)).map Subtype.val).card = ys.length := by simp
    rw [← h3, ← h1]; push_cast; rfl
  obtain ⟨m, em, hc, hkeys, ht⟩ := SparseCounter.merge_rep hx hy ks hks
    (by
      intro k
      have h1 := Multiset.count_le_card k ((xs : Multiset (DPD.Known sh)).map Subtype.val)
      have h2 := Multiset.count_le_card k ((ys : Multiset (DPD.Known sh)).map Subtype.val)
      simp only [Multiset.card_map, Multiset.coe_card] at h1 h2
      unfold InInt32 int32Min int32Max; dsimp only; omega)
    (by
      have h4 : (ks.map fun k =>
          |(((ys : Multiset (DPD.Known sh)).map Subtype.val).count k : Int)|) =
          ks.map fun k => (((ys : Multiset (DPD.Known sh)).map Subtype.val).count k : Int) := by
        apply List.map_congr_left; intro k _; exact abs_of_nonneg (Int.natCast_nonneg _)
      dsimp only
      rw [h4, hsum]
      simp only [Multiset.card_map, Multiset.coe_card, Nat.abs_cast]
      exact_mod_cast hl)
    (by dsimp only; rw [hsum]; simp)
  have hcnt : ∀ k, m.getCount k = g.getCount k := by
    intro k
    rw [hc k, hg.getCount]
    have : ((xs ++ ys : List (DPD.Known sh)) : Multiset (DPD.Known sh)) =
      (xs : Multiset (DPD.Known sh)) + ys := (Multiset.coe_add _ _).symm
    rw [this, Multiset.map_add, Multiset.count_add]; push_cast; rfl
  refine ⟨m, em, ?_, ?_⟩
  · obtain ⟨ks', hks'⟩ := m.map.exists_enum
    have hk2 := hkeys ks' hks'
    ext k : 1
    by_cases hk : k ∈ m.map.keys
    · have hne : g.getCount k ≠ 0 := by
        rw [← hcnt, hc]; exact (hk2 k).mp ((hks'.mem k).mpr hk)
      have hk' : k ∈ g.map.keys := by
        rw [SparseCounter.Rep.mem_keys hg]; rwa [SparseCounter.Rep.getCount hg] at hne
      obtain ⟨a, ha⟩ := (m.map.mem_keys_iff k).mp hk
      obtain ⟨b, hb⟩ := (g.map.mem_keys_iff k).mp hk'
      have := hcnt k
      simp only [SparseCounter.getCount, ha, hb, Option.getD_some] at this
      rw [ha, hb, this]
    · have h0 : m.getCount k = 0 := by
        by_contra hne
        rw [hc] at hne
        exact hk ((hks'.mem k).mp ((hk2 k).mpr hne))
      have hk' : k ∉ g.map.keys := by
        rw [SparseCounter.Rep.mem_keys hg, ← SparseCounter.Rep.getCount hg, ← hcnt, h0]; simp
      rw [(m.map.not_mem_keys_iff k).mp hk, (g.map.not_mem_keys_iff k).mp hk']
  · simp [SparseCounter.getTotal, ht]

end

/-- **C27 (Dirichlet-Process-Discrete), finding.** Merging a group with one observation
into an empty group changes the predictive probability of the value from `2/3` to `1/2`
(`alpha = 2`, weight `1/2`), and every later score likewise. -/
theorem C27_dpd_merge_score (lvl : Nat) :
    let sh := DPD.real 1 2 (1 / 2) (FMap.empty.set 7 (1 / 2)) ⟨FMap.empty.set 7 1, some 1⟩
    ∃ g m : DPD.Group, DPD.Group.addValue lvl sh SparseCounter.raw.clear 7 = .ok g ∧
      g.map.Enum [7] ∧ DPD.Group.merge SparseCounter.raw.clear g [7] = .ok m ∧
      DPD.Group.scoreValue lvl sh g 7 = .ok (.fin (Real.log (2 / 3))) ∧
      DPD.Group.scoreValue lvl sh m 7 = .ok (.fin (Real.log (1 / 2))) := by
  intro sh
  refine ⟨⟨FMap.empty.set 7 1, some 1⟩, ⟨FMap.empty.set 7 1, some 2⟩, ?_, ?_, ?_, ?_, ?_⟩
  · have h1 : (7 : UInt32) ≠ DPD.other := by decide
    have h2 : sh.betas.contains 7 = true := by simp [sh, DPD.real, FMap.contains]
    rw [DPD.Group.addValue, distAssert_of h1, Res.ok_bind, distAssert_of h2]
    rfl
  · exact ⟨by simp, by simp⟩
  · rfl
  all_goals
    rw [DPD.scoreValue_known (n := 1) lvl (by simp) (by decide) (by simp [SparseCounter.getCount])
      rfl (by simp [DPD.weight]) (by norm_num)]
    norm_num [DPD.weight]

/-! ## C28, C29, C30 -/

section exact
variable {gamma alpha beta0 : ℝ} {betas : FMap UInt32 ℝ} {counts : SparseCounter UInt32}

theorem DPD.known_mem (v : DPD.Known (DPD.real gamma alpha beta0 betas counts)) :
    (v : UInt32) ∈ betas.keys := by
  have := v.2.2
  rwa [FMap.contains_iff] at this

/-- **C28 (Dirichlet-Process-Discrete), one step.** In exact arithmetic, for positive
`alpha` and weights, any group of known values and any visiting orders. -/
theorem C28_dpd_step (lvl : Nat) (hα : 0 < alpha)
    (hpos : ∀ v ∈ betas.keys, 0 < DPD.weight betas v) (g g' : DPD.Group)
    (M : Multiset UInt32) (hg : g.Holds M) (hM : M.card < 2147483647)
    (hk : ∀ v ∈ M, v ∈ betas.keys) (v : DPD.Known (DPD.real gamma alpha beta0 betas counts))
    (he : DPD.Group.addValue lvl (DPD.real gamma alpha beta0 betas counts) g v = .ok g')
    (ks ks' : List UInt32) (hks : g.map.Enum ks) (hks' : g'.map.Enum ks') :
    ∃ d s d', DPD.Group.scoreData lvl (DPD.real gamma alpha beta0 betas counts) g ks = .ok (.fin d) ∧
      DPD.Group.scoreValue lvl (DPD.real gamma alpha beta0 betas counts) g v = .ok (.fin s) ∧
      DPD.Group.scoreData lvl (DPD.real gamma alpha beta0 betas counts) g' ks' = .ok (.fin d') ∧
      d' = d + s := by
  have hv := DPD.known_mem v
  obtain ⟨g₁, e₁, h₁⟩ := DPD.add_holds lvl (DPD.real gamma alpha beta0 betas counts) hg v hM
  rw [he] at e₁; simp only [Res.ok.injEq] at e₁; subst e₁
  have hw : 0 < alpha * DPD.weight betas v := mul_pos hα (hpos v hv)
  have hn : 0 < alpha * DPD.weight betas v + ((M.count (v : UInt32) : Int) : ℝ) := by
    push_cast; positivity
  have ht : 0 < alpha + ((M.card : Int) : ℝ) := by push_cast; positivity
  refine ⟨_, _, _, DPD.scoreData_eq lvl hα hpos hg hM.le hk hks,
    DPD.scoreValue_known lvl hv v.2.1 (hg.getCount _) hg.getTotal hn ht,
    DPD.scoreData_eq lvl hα hpos h₁ (by simp; omega)
      (by intro w hw'; rcases Multiset.mem_cons.mp hw' with rfl | h; exacts [hv, hk w h]) hks', ?_⟩
  have key : ∑ w ∈ betas.keys, DPD.term alpha betas w (((v : UInt32) ::ₘ M).count w) =
      ∑ w ∈ betas.keys, DPD.term alpha betas w (M.count w) +
        Real.log (alpha * DPD.weight betas v + (M.count (v : UInt32) : Int)) := by
    rw [← Finset.add_sum_erase _ _ hv, ← Finset.add_sum_erase _
      (fun w => DPD.term alpha betas w (M.count w)) hv]
    have h2 : ∑ w ∈ betas.keys.erase v, DPD.term alpha betas w (((v : UInt32) ::ₘ M).count w) =
        ∑ w ∈ betas.keys.erase v, DPD.term alpha betas w (M.count w) := by
      refine Finset.sum_congr rfl fun w hw' => ?_
      rw [Multiset.count_cons_of_ne (Finset.ne_of_mem_erase hw')]
    rw [h2, Multiset.count_cons_self]
    simp only [DPD.term]
    push_cast
    rw [← add_assoc, PitmanYor.log_gamma_succ (by push_cast at hn; exact hn)]
    ring
  rw [key, Multiset.card_cons, Real.log_div hn.ne' ht.ne']
  push_cast
  rw [← add_assoc alpha, PitmanYor.log_gamma_succ (by push_cast at ht; exact ht)]
  ring

/-- The empty group has data score zero. -/
theorem C28_dpd_empty (lvl : Nat) (hα : 0 < alpha)
    (hpos : ∀ v ∈ betas.keys, 0 < DPD.weight betas v) :
    DPD.Group.scoreData lvl (DPD.real gamma alpha beta0 betas counts) SparseCounter.raw.clear [] =
      .ok (.fin 0) := by
  rw [DPD.scoreData_eq lvl hα hpos (SparseCounter.holds_clear SparseCounter.raw) (by simp)
    (by simp) FMap.enum_empty]
  simp [DPD.term]

/-- **C28 (Dirichlet-Process-Discrete).** The data score of the group of any data set is
the sum of the predictive scores of its values, each given those before it, for every
visiting order of the group's table. -/
theorem C28_dpd (lvl : Nat) (hα : 0 < alpha) (hpos : ∀ v ∈ betas.keys, 0 < DPD.weight betas v)
    (xs : List (DPD.Known (DPD.real gamma alpha beta0 betas counts)))
    (hl : xs.length ≤ 2147483647) :
    ∃ g d, addAll (DPD.opsKnown lvl (DPD.real gamma alpha beta0 betas counts))
        SparseCounter.raw.clear xs = .ok g ∧
      (∀ ks, g.map.Enum ks →
        DPD.Group.scoreData lvl (DPD.real gamma alpha beta0 betas counts) g ks = .ok d) ∧
      sequentialScore (DPD.opsKnown lvl (DPD.real gamma alpha beta0 betas counts))
        (fun g v => DPD.Group.scoreValue lvl (DPD.real gamma alpha beta0 betas counts) g v)
        SparseCounter.raw.clear xs (ofInt 0) = .ok d := by
  let sh := DPD.real gamma alpha beta0 betas counts
  let data : DPD.Group → XR := fun g =>
    match DPD.Group.scoreData lvl sh g g.map.exists_enum.choose with
    | .ok d => d
    | _ => .nan
  have hk : ∀ (M : Multiset (DPD.Known sh)), ∀ v ∈ M.map Subtype.val, v ∈ betas.keys := by
    intro M v hv
    obtain ⟨w, _, rfl⟩ := Multiset.mem_map.mp hv
    exact DPD.known_mem w
  obtain ⟨g, h1, h2, hS, hcard⟩ := sequential_of_step_le (DPD.summarises lvl sh)
    (fun g v => DPD.Group.scoreValue lvl sh g v) data xs hl
    (fun g M v g' hS hle hg => by
      have hlt : M.card < 2147483647 := by
        have := Multiset.card_le_card hle
        simp at this; omega
      obtain ⟨d, s, d', e1, e2, e3, e4⟩ := C28_dpd_step lvl hα hpos g g' _ hS.1
        (by simpa using hlt) (hk M) v hg _ _ g.map.exists_enum.choose_spec
        g'.map.exists_enum.choose_spec
      refine ⟨.fin s, e2, ?_⟩
      simp only [data, sh, e1, e3, e4, XR.fin_add]) 
  have hdata : ∀ ks, g.map.Enum ks → DPD.Group.scoreData lvl sh g ks = .ok (data g) := by
    intro ks hks
    have ha := DPD.scoreData_eq (gamma := gamma) (beta0 := beta0) (counts := counts) lvl hα hpos
      hS (by simpa using hl) (hk _) hks
    have hb := DPD.scoreData_eq (gamma := gamma) (beta0 := beta0) (counts := counts) lvl hα hpos
      hS (by simpa using hl) (hk _) g.map.exists_enum.choose_spec
    simp only [data, sh]
    rw [hb]; exact ha
  refine ⟨g, data g, h1, hdata, ?_⟩
  have h0 : data (DPD.opsKnown lvl sh).init = .fin 0 := by
    have : (SparseCounter.raw.clear : DPD.Group).map.exists_enum.choose = [] := by
      have := (SparseCounter.raw.clear : DPD.Group).map.exists_enum.choose_spec
      refine List.eq_nil_iff_forall_not_mem.mpr fun a ha => ?_
      exact absurd ((this.mem a).mp ha) (by simp [SparseCounter.clear])
    simp only [data, DPD.opsKnown]
    rw [this, C28_dpd_empty lvl hα hpos]
  rw [← h2, h0]; simp; rfl

/-- **C29 (Dirichlet-Process-Discrete).** Adding the same values in another order gives the
same group, hence bit for bit the same predictive scores with every float type, and the
same exact data score whatever the visiting orders of the two tables. -/
theorem C29_dpd (lvl : Nat) (hα : 0 < alpha) (hpos : ∀ v ∈ betas.keys, 0 < DPD.weight betas v)
    (xs ys : List (DPD.Known (DPD.real gamma alpha beta0 betas counts))) (hp : xs.Perm ys)
    (hl : xs.length ≤ 2147483647) :
    ∃ g, addAll (DPD.opsKnown lvl (DPD.real gamma alpha beta0 betas counts))
        SparseCounter.raw.clear xs = .ok g ∧
      addAll (DPD.opsKnown lvl (DPD.real gamma alpha beta0 betas counts))
        SparseCounter.raw.clear ys = .ok g ∧
      ∃ d, ∀ ks, g.map.Enum ks →
        DPD.Group.scoreData lvl (DPD.real gamma alpha beta0 betas counts) g ks = .ok (.fin d) := by
  let sh := DPD.real gamma alpha beta0 betas counts
  obtain ⟨gx, ex, hx, _⟩ := addAll_summarises (DPD.summarises lvl sh) xs hl
  obtain ⟨gy, ey, hy, _⟩ := addAll_summarises (DPD.summarises lvl sh) ys
    (by rw [← hp.length_eq]; exact hl)
  have : gx = gy := by
    rw [← Multiset.coe_eq_coe.mpr hp] at hy
    exact SparseCounter.Rep.unique hx hy
  subst this
  refine ⟨gx, ex, ey, _, fun ks hks => DPD.scoreData_eq lvl hα hpos hx (by simpa using hl) ?_ hks⟩
  intro v hv
  obtain ⟨w, _, rfl⟩ := Multiset.mem_map.mp hv
  exact DPD.known_mem w

/-- **C30 (Dirichlet-Process-Discrete).** If the weights and the leftover weight sum to 1,
the predictive probabilities of all known values and OTHER are defined and sum to 1, for
every group of known values. -/
theorem C30_dpd (lvl : Nat) (hα : 0 < alpha) (hpos : ∀ v ∈ betas.keys, 0 < DPD.weight betas v)
    (hother : DPD.other ∉ betas.keys) (h0 : 0 < beta0)
    (h1 : ∑ v ∈ betas.keys, DPD.weight betas v + beta0 = 1) (g : DPD.Group) (M : Multiset UInt32)
    (hg : g.Holds M) (hk : ∀ v ∈ M, v ∈ betas.keys) :
    ∃ score : UInt32 → ℝ, (∀ v ∈ insert DPD.other betas.keys,
        DPD.Group.scoreValue lvl (DPD.real gamma alpha beta0 betas counts) g v =
          .ok (.fin (score v))) ∧
      ∑ v ∈ insert DPD.other betas.keys, Real.exp (score v) = 1 := by
  have ht : 0 < alpha + ((M.card : Int) : ℝ) := by push_cast; positivity
  have hw : ∀ v ∈ betas.keys, 0 < alpha * DPD.weight betas v + ((M.count v : Int) : ℝ) := by
    intro v hv
    have := mul_pos hα (hpos v hv)
    push_cast; positivity
  refine ⟨fun v => if v = DPD.other then Real.log (alpha * beta0 / (alpha + (M.card : Int)))
    else Real.log ((alpha * DPD.weight betas v + (M.count v : Int)) / (alpha + (M.card : Int))),
    ?_, ?_⟩
  · intro v hv
    by_cases hvo : v = DPD.other
    · subst hvo
      simp only [if_true]
      exact DPD.scoreValue_other lvl hg.getTotal (mul_pos hα h0) ht
    · have hv' : v ∈ betas.keys := (Finset.mem_insert.mp hv).resolve_left hvo
      simp only [hvo, if_false]
      exact DPD.scoreValue_known lvl hv' hvo (hg.getCount v) hg.getTotal (hw v hv') ht
  · beta_reduce
    rw [Finset.sum_insert hother, if_pos rfl, Real.exp_log (div_pos (mul_pos hα h0) ht)]
    have : ∑ v ∈ betas.keys, Real.exp (if v = DPD.other then
        Real.log (alpha * beta0 / (alpha + (M.card : Int))) else
        Real.log ((alpha * DPD.weight betas v + (M.count v : Int)) / (alpha + (M.card : Int)))) =
        ∑ v ∈ betas.keys, (alpha * DPD.weight betas v + (M.count v : Int)) /
          (alpha + (M.card : Int)) := by
      refine Finset.sum_congr rfl fun v hv => ?_
      rw [if_neg (by rintro rfl; exact hother hv), Real.exp_log (div_pos (hw v hv) ht)]
    have hcount : ∑ v ∈ betas.keys, ((M.count v : Int) : ℝ) = M.card := by
      have h2 := Multiset.toFinset_sum_count_eq M
      have h3 : ∑ v ∈ betas.keys, M.count v = M.card := by
        rw [← h2]
        symm
        apply Finset.sum_subset
        · intro v hv; exact hk v (Multiset.mem_toFinset.mp hv)
        · intro v _ hv; rw [Multiset.mem_toFinset] at hv; exact Multiset.count_eq_zero.mpr hv
      rw [← h3]; push_cast; rfl
    rw [this, ← Finset.sum_div, Finset.sum_add_distrib, ← Finset.mul_sum, hcount, ← add_div,
      div_eq_one_iff_eq ht.ne']
    push_cast
    linear_combination alpha * h1

/-! ## C34 -/

namespace DPD

theorem addBetas_eq (lvl : Nat) (scale : ℝ) (ks : List UInt32) (hnd : ks.Nodup)
    (w : UInt32 → ℝ) (m : FMap UInt32 XR) (hm : ∀ k ∈ ks, m.lookup k = none) :
    ∃ m', addBetas lvl (.fin scale) (ks.map fun k => (k, XR.fin (w k))) m = .ok m' ∧
      ∀ v, m'.lookup v = if v ∈ ks then some (.fin (w v * scale)) else m.lookup v := by
  induction ks generalizing m with
  | nil => exact ⟨m, rfl, by simp⟩
  | cons k ks ih =>
    rw [List.nodup_cons] at hnd
    have hk : m.contains k = false := by simp [FMap.contains, hm k (by simp)]
    have e : Sparse.add lvl m k (.fin (w k * scale)) = .ok (m.set k (.fin (w k * scale))) := by
      rw [Sparse.add, distAssert_of hk]; simp [hk]
    obtain ⟨m', e', h'⟩ := ih hnd.2 (m.set k (.fin (w k * scale))) (by
      intro x hx
      have : x ≠ k := by rintro rfl; exact hnd.1 hx
      simp [this, hm x (by simp [hx])])
    refine ⟨m', ?_, ?_⟩
    · simp only [List.map_cons, addBetas, XR.fin_mul, e, Res.ok_bind, e']
    · intro v
      rw [h']
      by_cases hv : v = k
      · subst hv; simp [hnd.1]
      · simp [hv]

theorem addCounts_eq (lvl : Nat) (scale : ℝ) (ks : List UInt32) (hnd : ks.Nodup)
    (n : UInt32 → Int) (m : FMap UInt32 XR) (f : UInt32 → ℝ)
    (hm : ∀ k ∈ ks, m.lookup k = some (.fin (f k))) :
    ∃ m', addCounts lvl (.fin scale) (ks.map fun k => (k, n k)) m = .ok m' ∧
      ∀ v, m'.lookup v = if v ∈ ks then some (.fin (f v + scale * n v)) else m.lookup v := by
  induction ks generalizing m with
  | nil => exact ⟨m, rfl, by simp⟩
  | cons k ks ih =>
    rw [List.nodup_cons] at hnd
    have hl := hm k (by simp)
    have hk : m.contains k = true := by simp [FMap.contains, hl]
    have e : ∀ x : XR, Sparse.set lvl m k x = .ok (m.set k x) := by
      intro x; rw [Sparse.set, distAssert_of hk]; simp [hl]
    obtain ⟨m', e', h'⟩ := ih hnd.2 (m.set k (.fin (f k + scale * n k))) (by
      intro x hx
      have : x ≠ k := by rintro rfl; exact hnd.1 hx
      simp [this, hm x (by simp [hx])])
    refine ⟨m', ?_, ?_⟩
    · simp only [List.map_cons, addCounts, get_of lvl hl, XR.ofInt_eq, XR.fin_mul, XR.fin_add, e,
        Res.ok_bind, e']
    · intro v
      rw [h']
      by_cases hv : v = k
      · subst hv; simp [hnd.1]
      · simp [hv]

end DPD

/-- **C34 (Dirichlet-Process-Discrete).** In exact arithmetic, for every group of known
values and all visiting orders, the scorer can be built and gives every known value and
OTHER the group's own score. -/
theorem C34_dpd (lvl : Nat) (hα : 0 < alpha) (hpos : ∀ v ∈ betas.keys, 0 < DPD.weight betas v)
    (hother : DPD.other ∉ betas.keys) (h0 : 0 < beta0) (g : DPD.Group) (M : Multiset UInt32)
    (hg : g.Holds M) (hM : M.card ≤ 2147483647) (hk : ∀ v ∈ M, v ∈ betas.keys)
    (kb kc : List UInt32) (hkb : betas.Enum kb) (hkc : g.map.Enum kc) :
    ∃ sc, DPD.Scorer.init lvl (DPD.real gamma alpha beta0 betas counts) g kb kc = .ok sc ∧
      ∀ v ∈ insert DPD.other betas.keys, ∃ x : ℝ, DPD.Scorer.eval lvl sc v = .ok (.fin x) ∧
        DPD.Group.scoreValue lvl (DPD.real gamma alpha beta0 betas counts) g v = .ok (.fin x) := by
  have ht : 0 < alpha + ((M.card : Int) : ℝ) := by push_cast; positivity
  have hmem : ∀ k, k ∈ kc ↔ k ∈ M := fun k => (hkc.mem k).trans (hg.mem_keys k)
  have hw : ∀ v ∈ betas.keys, 0 < alpha * DPD.weight betas v + ((M.count v : Int) : ℝ) := by
    intro v hv
    have := mul_pos hα (hpos v hv)
    push_cast; positivity
  let scale := alpha / (alpha + (M.card : Int))
  have eb : (DPD.real gamma alpha beta0 betas counts).betas.entries kb =
      kb.map fun k => (k, XR.fin (DPD.weight betas k)) := by
    rw [DPD.entries_known (.fin 0) (fun k hk => by
      rw [show (DPD.real gamma alpha beta0 betas counts).betas.keys = betas.keys from rfl]
      exact (hkb.mem k).mp hk)]
    apply List.map_congr_left
    intro k hk
    simp [DPD.real, DPD.lookup_weight ((hkb.mem k).mp hk)]
  have ec : g.map.entries kc = kc.map fun k => (k, (M.count k : Int)) := by
    rw [DPD.entries_known 0 (fun k hk => (hkc.mem k).mp hk)]
    apply List.map_congr_left
    intro k hk
    rw [hg.lookup, if_pos ((hmem k).mp hk)]; rfl
  obtain ⟨m₁, e₁, l₁⟩ := DPD.addBetas_eq lvl scale kb hkb.nodup (DPD.weight betas)
    (FMap.empty.set DPD.other (.fin (scale * beta0)))
    (by
      intro k hk
      have : k ≠ DPD.other := by rintro rfl; exact hother ((hkb.mem _).mp hk)
      simp [this])
  obtain ⟨m₂, e₂, l₂⟩ := DPD.addCounts_eq lvl (1 / (alpha + (M.card : Int))) kc hkc.nodup
    (fun k => (M.count k : Int)) m₁ (fun v => DPD.weight betas v * scale) (by
      intro k hk'
      rw [l₁, if_pos ((hkb.mem k).mpr (hk k ((hmem k).mp hk')))])
  refine ⟨m₂.mapValues fun _ x => log x, ?_, ?_⟩
  · have e0 : Sparse.add lvl (FMap.empty : FMap UInt32 XR) DPD.other (.fin (scale * beta0)) =
        .ok (FMap.empty.set DPD.other (.fin (scale * beta0))) := by
      have : (FMap.empty : FMap UInt32 XR).contains DPD.other = false := rfl
      rw [Sparse.add, distAssert_of this]; simp [this]
    simp only [DPD.Scorer.init, hg.getTotal, Res.ok_bind, DPD.toSize_of (Int.natCast_nonneg _)
      (by exact_mod_cast hM : ((M.card : Nat) : Int) ≤ 2147483647), eb, ec,
      show (DPD.real gamma alpha beta0 betas counts).alpha = .fin alpha from rfl,
      show (DPD.real gamma alpha beta0 betas counts).beta0 = .fin beta0 from rfl,
      XR.ofInt_eq, XR.lit_eq, XR.fin_add]
    rw [XR.fin_div _ _ ht.ne', XR.fin_div _ _ ht.ne', XR.fin_mul]
    rw [show alpha / (alpha + ((M.card : Int) : ℝ)) = scale from rfl, e0, Res.ok_bind, e₁,
      Res.ok_bind]
    norm_num only [Int.cast_one, Nat.cast_one, div_one]
    norm_num only [Int.cast_one, Nat.cast_one, div_one] at e₂
    rw [e₂]
    rfl
  · intro v hv
    by_cases hvo : v = DPD.other
    · subst hvo
      refine ⟨_, ?_, DPD.scoreValue_other lvl hg.getTotal (mul_pos hα h0) ht⟩
      have hnb : DPD.other ∉ kb := fun h => hother ((hkb.mem _).mp h)
      have hnc : DPD.other ∉ kc := fun h => hother (hk _ ((hmem _).mp h))
      rw [DPD.Scorer.eval]
      apply DPD.get_of
      rw [FMap.lookup_mapValues, l₂, if_neg hnc, l₁, if_neg hnb]
      simp only [FMap.lookup_set, if_true, Option.map_some]
      have hp : 0 < scale * beta0 := mul_pos (div_pos hα ht) h0
      rw [XR.log_fin hp]
      simp only [scale]
      congr 3; ring
    · have hv' : v ∈ betas.keys := (Finset.mem_insert.mp hv).resolve_left hvo
      refine ⟨_, ?_, DPD.scoreValue_known lvl hv' hvo (hg.getCount v) hg.getTotal (hw v hv') ht⟩
      rw [DPD.Scorer.eval]
      apply DPD.get_of
      have hlook : m₂.lookup v = some (.fin (DPD.weight betas v * scale +
          1 / (alpha + (M.card : Int)) * (M.count v : Int))) := by
        rw [l₂]
        by_cases hc : v ∈ kc
        · rw [if_pos hc]
        · have : M.count v = 0 := Multiset.count_eq_zero.mpr fun h => hc ((hmem v).mpr h)
          rw [if_neg hc, l₁, if_pos ((hkb.mem v).mpr hv'), this]; simp
      have hval : DPD.weight betas v * scale + 1 / (alpha + (M.card : Int)) * (M.count v : Int) =
          (alpha * DPD.weight betas v + (M.count v : Int)) / (alpha + (M.card : Int)) := by
        simp only [scale]; ring
      rw [FMap.lookup_mapValues, hlook, Option.map_some, hval, XR.log_fin (div_pos (hw v hv') ht)]

/-! ## C36 -/

/-- **C36 (Dirichlet-Process-Discrete).** The mixture's data score is the sum of the data
scores of its groups, for any groups of known values and any visiting orders. -/
theorem C36_dpd (lvl : Nat) (hα : 0 < alpha) (hpos : ∀ v ∈ betas.keys, 0 < DPD.weight betas v)
    (gs : List (DPD.Group × List UInt32))
    (hgs : ∀ e ∈ gs, e.1.map.Enum e.2 ∧ ∃ M : Multiset UInt32, e.1.Holds M ∧
      M.card ≤ 2147483647 ∧ ∀ v ∈ M, v ∈ betas.keys) :
    ∃ xs, gs.mapM (fun e => DPD.Group.scoreData lvl (DPD.real gamma alpha beta0 betas counts)
        e.1 e.2) = .ok xs ∧
      DPD.scoreData lvl (DPD.real gamma alpha beta0 betas counts) gs = .ok (sumScores xs) := by
  let sh := DPD.real gamma alpha beta0 betas counts
  let part : FMap UInt32 XR := sh.betas.mapValues fun _ b => lgamma (sh.alpha * b)
  have hloop : ∀ (es : List (UInt32 × Int)) (s : XR) (r : ℝ), (∀ e ∈ es, e.1 ∈ betas.keys) →
      DPD.Group.scoreLoop lvl sh es (.fin r) = .fail ∨ True →
      ∀ d : XR, DPD.dataLoop lvl sh part es d = (do
        let x ← DPD.Group.scoreLoop lvl sh es (.fin 0)
        return d + x) := by
    intro es _ _ hk _
    have gen : ∀ (es : List (UInt32 × Int)), (∀ e ∈ es, e.1 ∈ betas.keys) → ∀ d y : XR,
        DPD.dataLoop lvl sh part es (d + y) = (do
          let x ← DPD.Group.scoreLoop lvl sh es y
          return d + x) := by
      intro es
      induction es with
      | nil => intro _ d y; rfl
      | cons e es ih =>
        intro hk d y
        obtain ⟨v, n⟩ := e
        have hv := hk (v, n) (by simp)
        have hb : sh.betas.lookup v = some (.fin (DPD.weight betas v)) := by
          simp [sh, DPD.real, DPD.lookup_weight hv]
        unfold DPD.dataLoop DPD.Group.scoreLoop
        rw [DPD.get_of lvl hb]
        simp only [Res.ok_bind]
        have hp : part.lookup v = some (lgamma (sh.alpha * .fin (DPD.weight betas v))) := by
          simp [part, hb]
        rw [DPD.get_of lvl hp]
        simp only [Res.ok_bind]
        rw [XR.add_assoc', ih (fun e he => hk e (by simp [he]))]
        have hcomm : (XR.fin (DPD.weight betas v) * sh.alpha : XR) =
            sh.alpha * .fin (DPD.weight betas v) := by
          simp [sh, DPD.real, mul_comm]
        rw [hcomm]
    intro d
    have := gen es hk d (.fin 0)
    rwa [XR.add_fin_zero] at this
  have main : ∀ (gs : List (DPD.Group × List UInt32)),
      (∀ e ∈ gs, e.1.map.Enum e.2 ∧ ∃ M : Multiset UInt32, e.1.Holds M ∧
        M.card ≤ 2147483647 ∧ ∀ v ∈ M, v ∈ betas.keys) → ∀ acc : XR,
      ∃ xs, gs.mapM (fun e => DPD.Group.scoreData lvl sh e.1 e.2) = .ok xs ∧
        DPD.dataGroups lvl sh part (lgamma sh.alpha) gs acc =
          .ok (xs.foldl (fun a b => FloatOps.add a b) acc) := by
    intro gs
    induction gs with
    | nil => intro _ acc; exact ⟨[], rfl, rfl⟩
    | cons e gs ih =>
      intro hgs acc
      obtain ⟨g, ks⟩ := e
      obtain ⟨hks, M, hg, hM, hk⟩ := hgs (g, ks) (by simp)
      dsimp only at hks hg
      have hsd := DPD.scoreData_eq (gamma := gamma) (beta0 := beta0) (counts := counts) lvl hα hpos
        hg hM hk hks
      have hts : DPD.Group.toSize (M.card : Int) = (M.card : Int) :=
        DPD.toSize_of (Int.natCast_nonneg _) (by exact_mod_cast hM)
      have hkeys : ∀ e ∈ g.map.entries ks, e.1 ∈ betas.keys := by
        intro e he
        rw [DPD.entries_known 0 (fun k hk => (hks.mem k).mp hk)] at he
        obtain ⟨k, hk', rfl⟩ := List.mem_map.mp he
        exact hk k ((hg.mem_keys k).mp ((hks.mem k).mp hk'))
      by_cases hc : M.card = 0
      · have hM0 : M = 0 := Multiset.card_eq_zero.mp hc
        subst hM0
        obtain ⟨xs, e1, e2⟩ := ih (fun e he => hgs e (by simp [he])) acc
        refine ⟨.fin 0 :: xs, ?_, ?_⟩
        · rw [List.mapM_cons, e1]
          dsimp only [sh]
          rw [hsd]
          simp [DPD.term]
        · unfold DPD.dataGroups
          rw [hg.getTotal]
          simp only [Res.ok_bind, Multiset.card_zero, Nat.cast_zero, ne_eq, not_true_eq_false,
            if_false]
          rw [e2, List.foldl_cons]
          have : FloatOps.add acc (.fin 0) = acc := XR.add_fin_zero acc
          rw [this]
      · simp only [DPD.Group.scoreData, hg.getTotal, Res.ok_bind, hts, Res.bind_eq_ok,
          Res.pure_eq, Res.ok.injEq] at hsd
        obtain ⟨x, hx, hx2⟩ := hsd
        obtain ⟨xs, e1, e2⟩ := ih (fun e he => hgs e (by simp [he]))
          (acc + (x + (lgamma sh.alpha - lgamma (sh.alpha + ofInt (M.card : Int)))))
        refine ⟨(x + (lgamma sh.alpha - lgamma (sh.alpha + ofInt (M.card : Int)))) :: xs, ?_, ?_⟩
        · rw [List.mapM_cons, e1]
          simp only [DPD.Group.scoreData, hg.getTotal, Res.ok_bind, hts, sh, hx]
          rfl
        · unfold DPD.dataGroups
          rw [hg.getTotal]
          have hc' : ((M.card : Int)) ≠ 0 := by exact_mod_cast hc
          simp only [Res.ok_bind, hc', ne_eq, not_false_eq_true, if_true]
          rw [hloop _ (.fin 0) 0 hkeys (Or.inr trivial)]
          have hx' : DPD.Group.scoreLoop lvl sh (g.map.entries ks) (.fin 0) = .ok x := by
            rw [← hx]; simp [sh]
          rw [hx']
          simp only [Res.ok_bind, Res.pure_eq]
          rw [XR.add_assoc', e2]
          rfl
  obtain ⟨xs, e1, e2⟩ := main gs hgs (.fin 0)
  refine ⟨xs, e1, ?_⟩
  rw [DPD.scoreData]
  rw [show (ofInt 0 : XR) = .fin 0 by simp]
  exact e2

end exact

/-- Non-triviality: a shared state with two weighted values and leftover weight, whose
hypotheses all hold, and a group with three observations. -/
example : ∃ (betas : FMap UInt32 ℝ) (g : DPD.Group) (M : Multiset UInt32),
    betas.Enum [3, 5] ∧ (∀ v ∈ betas.keys, 0 < DPD.weight betas v) ∧ DPD.other ∉ betas.keys ∧
    ∑ v ∈ betas.keys, DPD.weight betas v + (1 / 4 : ℝ) = 1 ∧ g.Holds M ∧ M.card = 3 ∧
    ∀ v ∈ M, v ∈ betas.keys := by
  refine ⟨(FMap.empty.set 3 (1 / 2)).set 5 (1 / 4),
    ⟨(FMap.empty.set 3 2).set 5 1, some 3⟩, {3, 3, 5}, ⟨by simp, by intro k; simp [or_comm]⟩,
    ?_, by simp [DPD.other], ?_, ⟨?_, ?_⟩, by rfl, by simp⟩
  · intro v hv
    simp only [FMap.keys_set, FMap.keys_empty, Finset.mem_insert] at hv
    rcases hv with rfl | rfl | h
    · norm_num [DPD.weight]
    · norm_num [DPD.weight, show (3 : UInt32) ≠ 5 by decide]
    · simp at h
  · simp only [FMap.keys_set, FMap.keys_empty]
    rw [Finset.sum_insert (by simp), Finset.sum_insert (by simp)]
    norm_num [DPD.weight, show (3 : UInt32) ≠ 5 by decide]
  · intro k
    simp only [FMap.lookup_set, FMap.lookup_empty, Multiset.insert_eq_cons, Multiset.count_cons,
      Multiset.count_singleton]
    by_cases h5 : k = 5
    · subst h5; simp
    · by_cases h3 : k = 3
      · subst h3; simp
      · simp [h3, h5]
  · rfl

end Dist
