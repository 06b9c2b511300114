import Verif.Lemmas.AssignmentLaw
import Verif.Lemmas.LowEntropy

/-!
# The law of `LowEntropy::sample_assignments` under ideal randomness
-/

namespace Dist

open Spec FloatOps FloatNotation MeasureTheory ProbabilityTheory

variable {σ : Type} [MeasurableSpace σ]

theorem contiguous_iff_fin (a : List ℕ) :
    Contiguous a ↔ ∀ i : Fin a.length, ∀ y < a[i], y ∈ a.take i := by
  constructor
  · intro h i y hy
    exact h i a[i] (by simp) y hy
  · intro h i x hx y hy
    obtain ⟨hi, rfl⟩ := List.getElem?_eq_some_iff.mp hx
    exact h ⟨i, hi⟩ y hy

instance (a : List ℕ) : Decidable (Contiguous a) := decidable_of_iff _ (contiguous_iff_fin a).symm

namespace LowEntropy

/-- `score_add_value(g, _, n, 1)` as a number. -/
noncomputable def addScore (N : Int) (g n : ℕ) : ℝ :=
  if g = 0 then if (n : Int) + 1 < N then corr N ((n : ℝ) + 1) else 0
  else if g > 10000 then 1 + Real.log (1 + g)
  else Real.log ((1 + g) / g) * g + Real.log (1 + g)

theorem scoreAdd_eq (lvl : Nat) (N : Int) (hN : N ≤ 2147483647) (g n : ℕ) (k : Int)
    (hn : (n : Int) < N) (hk : k ≤ n) :
    (scoreAddValue lvl ⟨N⟩ g k n 1 : Res XR) = .ok (.fin (addScore N g n)) := by
  unfold addScore
  by_cases hg : g = 0
  · subst hg
    have := scoreAdd_zero lvl ⟨N⟩ k n 1 (by omega) hn one_pos hk hN
    simp only [Nat.cast_zero] at this ⊢
    rw [this]
    simp
  · have := scoreAdd_pos lvl ⟨N⟩ g k n 1 (by omega) hn one_pos hk
    rw [this, if_neg hg]
    congr 2
    have : ((g : Int) > 10000) ↔ g > 10000 := by omega
    simp only [this]
    split_ifs <;> simp

/-- A nonempty group is scored without regard to the sample size. -/
theorem addScore_pos (N : Int) {g : ℕ} (hg : g ≠ 0) (n n' : ℕ) : addScore N g n = addScore N g n' := by
  unfold addScore
  rw [if_neg hg, if_neg hg]

/-- Likelihoods of the groups that are not empty. -/
noncomputable def heads (N : Int) (p : List ℕ) (tc : ℕ) : List ℝ :=
  (List.range tc).map fun g => Real.exp (addScore N (p.count g) p.length)

/-- Likelihoods of all groups. -/
noncomputable def leWeights (N : Int) (p : List ℕ) (tc : ℕ) : List ℝ :=
  heads N p tc ++ [Real.exp (addScore N 0 p.length)]

theorem heads_length (N : Int) (p : List ℕ) (tc : ℕ) : (heads N p tc).length = tc := by
  simp [heads]

theorem leWeights_length (N : Int) (p : List ℕ) (tc : ℕ) : (leWeights N p tc).length = tc + 1 := by
  simp [leWeights, heads]

theorem leWeights_pos (N : Int) (p : List ℕ) (tc : ℕ) : ∀ x ∈ leWeights N p tc, 0 < x := by
  intro x hx
  simp only [leWeights, heads, List.mem_append, List.mem_map, List.mem_singleton] at hx
  rcases hx with ⟨g, -, rfl⟩ | rfl <;> exact Real.exp_pos _

theorem leWeights_sum_pos (N : Int) (p : List ℕ) (tc : ℕ) : 0 < (leWeights N p tc).sum := by
  unfold leWeights
  rw [List.sum_append]
  have h1 : 0 ≤ (heads N p tc).sum := List.sum_nonneg fun x hx => by
    simp only [heads, List.mem_map] at hx
    obtain ⟨g, -, rfl⟩ := hx
    exact (Real.exp_pos _).le
  have := Real.exp_pos (addScore N 0 p.length)
  simp
  linarith

theorem leWeights_get (N : Int) (p : List ℕ) (tc i : ℕ) (hb : ∀ y, y ∈ p ↔ y < tc)
    (hi : i < (leWeights N p tc).length) :
    (leWeights N p tc)[i] = Real.exp (addScore N (p.count i) p.length) := by
  have hi' : i < tc + 1 := by simpa [leWeights_length] using hi
  simp only [leWeights]
  by_cases h : i < tc
  · rw [List.getElem_append_left (by rw [heads_length]; exact h)]
    simp [heads]
  · have : i = tc := by omega
    subst this
    rw [List.getElem_append_right (by rw [heads_length])]
    have : p.count i = 0 := List.count_eq_zero.mpr fun h => by have := (hb i).mp h; omega
    simp [this]

theorem vectorSum_map (l : List ℝ) : vectorSum (l.map XR.fin) = .fin l.sum := by
  have : ∀ (l : List ℝ) (a : ℝ), (l.map XR.fin).foldl (fun acc x => acc + x) (.fin a) =
      (.fin (a + l.sum) : XR) := by
    intro l
    induction l with
    | nil => intro a; simp
    | cons x l ih => intro a; simp [ih, add_assoc]
  unfold vectorSum
  rw [XR.ofInt_eq, Int.cast_zero, this, zero_add]

/-- Update after joining a group that is not empty. -/
theorem leWeights_join (N : Int) (p : List ℕ) (tc x : ℕ) (hx : x < tc) (hb : ∀ y, y ∈ p ↔ y < tc) :
    (leWeights N p tc).set x (Real.exp (addScore N (p.count x + 1) 0)) =
      heads N (p ++ [x]) tc ++ [Real.exp (addScore N 0 p.length)] := by
  apply List.ext_getElem
  · simp [leWeights_length, heads_length]
  · intro i h1 h2
    have hi : i < tc + 1 := by simpa [leWeights_length] using h1
    rw [List.getElem_set]
    by_cases hxi : x = i
    · subst hxi
      rw [if_pos rfl, List.getElem_append_left (by rw [heads_length]; exact hx)]
      simp only [heads, List.getElem_map, List.getElem_range, List.count_append, List.count_singleton,
        beq_self_eq_true, if_true]
      rw [addScore_pos N (by omega)]
    · rw [if_neg hxi]
      unfold leWeights
      by_cases h : i < tc
      · rw [List.getElem_append_left (by rw [heads_length]; exact h),
          List.getElem_append_left (by rw [heads_length]; exact h)]
        simp only [heads, List.getElem_map, List.getElem_range, List.count_append,
          List.count_singleton]
        have hne : ¬ (x == i) = true := by simpa using hxi
        rw [if_neg hne, add_zero, addScore_pos N]
        have := List.count_pos_iff.mpr ((hb i).mpr h)
        omega
      · rw [List.getElem_append_right (by rw [heads_length]; omega),
          List.getElem_append_right (by rw [heads_length]; omega)]
        simp

/-- Update after opening a group. -/
theorem leWeights_new (N : Int) (p : List ℕ) (tc : ℕ) (hb : ∀ y, y ∈ p ↔ y < tc) :
    (leWeights N p tc).set tc (Real.exp (addScore N (p.count tc + 1) 0)) =
      heads N (p ++ [tc]) (tc + 1) := by
  apply List.ext_getElem
  · simp [leWeights_length, heads_length]
  · intro i h1 h2
    have hi : i < tc + 1 := by simpa [leWeights_length] using h1
    rw [List.getElem_set]
    by_cases hxi : tc = i
    · subst hxi
      rw [if_pos rfl]
      simp only [heads, List.getElem_map, List.getElem_range, List.count_append, List.count_singleton,
        beq_self_eq_true, if_true]
      rw [addScore_pos N (by omega)]
    · rw [if_neg hxi]
      unfold leWeights
      have h : i < tc := by omega
      rw [List.getElem_append_left (by rw [heads_length]; exact h)]
      simp only [heads, List.getElem_map, List.getElem_range, List.count_append,
        List.count_singleton]
      have hne : ¬ (tc == i) = true := by simpa using hxi
      rw [if_neg hne, add_zero, addScore_pos N]
      have := List.count_pos_iff.mpr ((hb i).mpr h)
      omega

theorem leCounts_join (p : List ℕ) (tc x : ℕ) (hx : x < tc) :
    (leCounts p tc ++ [0]).set x ((p.count x : ℕ) + 1 : Int) = leCounts (p ++ [x]) tc ++ [0] := by
  apply List.ext_getElem
  · simp [leCounts]
  · intro i h1 h2
    rw [List.getElem_set]
    have hi : i < tc + 1 := by simpa [leCounts] using h1
    by_cases hxi : x = i
    · subst hxi
      rw [if_pos rfl, List.getElem_append_left (by simpa [leCounts] using hx)]
      simp [leCounts, List.count_append]
    · rw [if_neg hxi]
      by_cases h : i < tc
      · rw [List.getElem_append_left (by simpa [leCounts] using h),
          List.getElem_append_left (by simpa [leCounts] using h)]
        simp [leCounts, List.count_append, hxi]
      · rw [List.getElem_append_right (by simpa [leCounts] using h),
          List.getElem_append_right (by simpa [leCounts] using h)]
        simp

theorem leCounts_new (p : List ℕ) (tc : ℕ) :
    (leCounts p tc ++ [0]).set tc ((p.count tc : ℕ) + 1 : Int) = leCounts (p ++ [tc]) (tc + 1) := by
  apply List.ext_getElem
  · simp [leCounts]
  · intro i h1 h2
    rw [List.getElem_set]
    have hi : i < tc + 1 := by simpa [leCounts] using h1
    by_cases hxi : tc = i
    · subst hxi
      rw [if_pos rfl]
      simp [leCounts, List.count_append]
    · rw [if_neg hxi]
      have h : i < tc := by omega
      rw [List.getElem_append_left (by simpa [leCounts] using h)]
      simp [leCounts, List.count_append, hxi]

/-- What the sampler holds after the assignments `p`: with or without an empty group at the end. -/
def Holds (N : Int) (p : List ℕ) (tc : ℕ) (counts : List Int) (ls : List XR) : Prop :=
  (counts = leCounts p tc ∧ ls = (heads N p tc).map XR.fin) ∨
    (counts = leCounts p tc ++ [0] ∧ ∃ x : ℝ, ls = (heads N p tc ++ [x]).map XR.fin)

/-- What the sampler holds after the next choice `a`. -/
noncomputable def nextCounts (p : List ℕ) (tc a : ℕ) : List Int :=
  (leCounts p tc ++ [0]).set a ((p.count a : ℕ) + 1 : Int)

noncomputable def nextLs (N : Int) (p : List ℕ) (tc a : ℕ) : List XR :=
  ((leWeights N p tc).set a (Real.exp (addScore N (p.count a + 1) 0))).map XR.fin

theorem holds_next (N : Int) (p : List ℕ) (tc a : ℕ) (hb : ∀ y, y ∈ p ↔ y < tc) (ha : a ≤ tc) :
    Holds N (p ++ [a]) (if a = tc then tc + 1 else tc) (nextCounts p tc a) (nextLs N p tc a) := by
  unfold nextCounts nextLs
  by_cases hak : a = tc
  · subst hak
    rw [if_pos rfl, leWeights_new N p a hb, leCounts_new]
    exact .inl ⟨rfl, rfl⟩
  · rw [if_neg hak, leWeights_join N p tc a (by omega) hb, leCounts_join p tc a (by omega)]
    exact .inr ⟨rfl, _, rfl⟩

/-- One round of the loop. -/
theorem sampleLoop_step (lvl : Nat) (N : Int) (hN : N ≤ 2147483647) (rng : Rng XR σ) (n : ℕ)
    (counts : List Int) (ls : List XR) (p : List ℕ) (tc : ℕ) (hb : ∀ y, y ∈ p ↔ y < tc)
    (hh : Holds N p tc counts ls) (hsz : ((p.length + (n + 1) : ℕ) : Int) ≤ N) (s : σ) (a : ℕ) (s' : σ)
    (ha : sampleFromLikelihoods rng s ((leWeights N p tc).map XR.fin)
      (.fin (leWeights N p tc).sum) = .ok (a, s')) :
    sampleLoop lvl ⟨N⟩ rng (n + 1) counts ls p.length s = (do
        let (rest, s'') ← sampleLoop lvl ⟨N⟩ rng n (nextCounts p tc a) (nextLs N p tc a)
          ((p ++ [a]).length : Int) s'
        return (a :: rest, s'')) := by
  have hwl := leWeights_length N p tc
  have hatc : a ≤ tc := by
    obtain ⟨b, s1, h1, h2⟩ := sampleFromLikelihoods_ok rng s ((leWeights N p tc).map XR.fin)
        (.fin (leWeights N p tc).sum)
        (by intro h; rw [← List.length_eq_zero_iff] at h; simp [hwl] at h)
    rw [h1] at ha
    cases ha
    simp [hwl] at h2
    omega
  rw [sampleLoop]
  have h0 := scoreAdd_eq lvl N hN 0 p.length 0 (by omega) (by omega)
  rw [Nat.cast_zero] at h0
  rw [h0, Res.ok_bind]
  simp only [XR.exp_fin]
  have hlast : (leCounts p tc).getLast? ≠ some 0 := by
    intro h
    have := List.mem_of_getLast? h
    simp only [leCounts, List.mem_map, List.mem_range] at this
    obtain ⟨g, hg, h0⟩ := this
    have := List.count_pos_iff.mpr ((hb g).mpr hg)
    omega
  have hroom : (if counts.getLast? = none ∨ counts.getLast? ≠ some 0 then
      (.ok (counts ++ [0], ls ++ [XR.fin (Real.exp (addScore N 0 p.length))]) :
        Res (List Int × List XR))
    else do
      let likelihoods ← (if ls.isEmpty then .ub
        else .ok (ls.dropLast ++ [XR.fin (Real.exp (addScore N 0 p.length))]) : Res (List XR))
      return (counts, likelihoods)) =
      .ok (leCounts p tc ++ [0], (leWeights N p tc).map XR.fin) := by
    rcases hh with ⟨rfl, rfl⟩ | ⟨rfl, x, rfl⟩
    · rw [if_pos (.inr hlast)]
      simp [leWeights]
    · rw [if_neg (by simp)]
      simp [leWeights, Res.ok_bind, Res.pure_eq]
  rw [hroom, Res.ok_bind]
  simp only [sampleFromLikelihoodsSum, vectorSum_map]
  rw [ha, Res.ok_bind]
  simp only
  have hget : (leCounts p tc ++ [0])[a]? = some ((p.count a : Nat) : Int) := by
    rcases Nat.lt_or_ge a tc with h | h
    · rw [List.getElem?_append_left (by simpa [leCounts] using h)]
      simp [leCounts, h]
    · have : a = tc := by omega
      subst this
      have hn : a ∉ p := fun h => by have := (hb a).mp h; omega
      rw [List.getElem?_append_right (by simp [leCounts])]
      simp [leCounts, List.count_eq_zero.mpr hn]
  have hcl : p.count a ≤ p.length := List.count_le_length
  have hlen0 : (leCounts p tc ++ [0]).length = tc + 1 := by simp [leCounts]
  have hs1 := scoreAdd_eq lvl N hN (p.count a + 1) 0 0 (by omega) (by omega)
  push_cast at hs1
  rw [getAt_eq_ok.mpr hget, Res.ok_bind, i32_of (by unfold InInt32 int32Min int32Max; omega),
    Res.ok_bind, setAt_of (by omega), Res.ok_bind,
    i32_of (by unfold InInt32 int32Min int32Max; omega), Res.ok_bind, hs1, Res.ok_bind,
    setAt_of (by simp [hwl]; omega), Res.ok_bind]
  simp only [nextCounts, nextLs, XR.exp_fin, List.map_set, List.length_append, List.length_singleton, Nat.cast_add,
    Nat.cast_one]

end LowEntropy

/-- Probability of choosing the remaining groups `rest` one after the other, after the choices `p`:
each choice is made in proportion to the exponential of its score, among the groups chosen before and
one new group.  `score g n` is the score of a group of size `g` when `n` choices were made. -/
noncomputable def Spec.sequentialProb (score : ℕ → ℕ → ℝ) : List ℕ → List ℕ → ℝ
  | _, [] => 1
  | p, x :: rest =>
    Real.exp (score (p.count x) p.length) /
      (∑ g ∈ p.toFinset, Real.exp (score (p.count g) p.length) + Real.exp (score 0 p.length)) *
      sequentialProb score (p ++ [x]) rest

namespace LowEntropy

theorem leWeights_sum (N : Int) (p : List ℕ) (tc : ℕ) (hb : ∀ y, y ∈ p ↔ y < tc) :
    (leWeights N p tc).sum = ∑ g ∈ p.toFinset, Real.exp (addScore N (p.count g) p.length) +
      Real.exp (addScore N 0 p.length) := by
  rw [toFinset_of_bound hb]
  unfold leWeights heads
  rw [List.sum_append]
  simp only [List.sum_singleton]
  rfl

theorem sampleLoop_law (I : IdealRng σ) (lvl : Nat) (N : Int) (hN : N ≤ 2147483647)
    (rest p : List ℕ) (tc : ℕ) (hb : ∀ y, y ∈ p ↔ y < tc) (counts : List Int) (ls : List XR)
    (hh : Holds N p tc counts ls) (hc : Contiguous (p ++ rest))
    (hsz : ((p.length + rest.length : ℕ) : Int) ≤ N) {B : Set σ} (hB : MeasurableSet B) :
    MeasurableSet {s | ∃ s' ∈ B,
      sampleLoop lvl ⟨N⟩ I.toRng rest.length counts ls p.length s = .ok (rest, s')} ∧
    I.P {s | ∃ s' ∈ B,
      sampleLoop lvl ⟨N⟩ I.toRng rest.length counts ls p.length s = .ok (rest, s')} =
      ENNReal.ofReal (sequentialProb (addScore N) p rest) * I.P B := by
  induction rest generalizing p tc counts ls with
  | nil => simp [sampleLoop, hB, sequentialProb]
  | cons x rest ih =>
    have hc' : Contiguous ((p ++ [x]) ++ rest) := by simpa using hc
    have hpx : Contiguous (p ++ [x]) := by
      intro i y hy z hz
      have hi : i < (p ++ [x]).length := by
        by_contra h
        rw [List.getElem?_eq_none (by omega)] at hy
        cases hy
      have := hc' i y (by rw [List.getElem?_append_left hi]; exact hy) z hz
      rwa [List.take_append_of_le_length (by omega)] at this
    have hxk : x ≤ tc := ((contiguous_append_of_bound hb).mp hpx).2
    let k' := if x = tc then tc + 1 else tc
    have hk' : ∀ y, y ∈ p ++ [x] ↔ y < k' := by
      intro y
      rw [List.mem_append, hb, List.mem_singleton]
      simp only [k']
      split_ifs <;> omega
    have hwl := leWeights_length N p tc
    obtain ⟨hm, hP⟩ := ih (p ++ [x]) k' hk' _ _ (holds_next N p tc x hb hxk) hc'
      (by simp only [List.length_append, List.length_cons, List.length_nil] at hsz ⊢; omega)
    obtain ⟨hm2, hP2⟩ := likelihoods_ideal I (leWeights N p tc)
      (fun y hy => (leWeights_pos N p tc y hy).le) (leWeights_sum_pos N p tc)
      x (by rw [hwl]; omega) hm
    have hset : {s | ∃ s' ∈ B, sampleLoop lvl ⟨N⟩ I.toRng (x :: rest).length counts ls p.length s =
          .ok (x :: rest, s')} =
        {s | ∃ s' ∈ {s | ∃ s' ∈ B, sampleLoop lvl ⟨N⟩ I.toRng rest.length (nextCounts p tc x)
            (nextLs N p tc x) ((p ++ [x]).length : Int) s = .ok (rest, s')},
          sampleFromLikelihoods I.toRng s ((leWeights N p tc).map XR.fin)
            (.fin (leWeights N p tc).sum) = .ok (x, s')} := by
      ext s
      simp only [Set.mem_setOf_eq]
      obtain ⟨a, s1, h1, h2⟩ := sampleFromLikelihoods_ok I.toRng s ((leWeights N p tc).map XR.fin)
        (.fin (leWeights N p tc).sum)
        (by intro h; rw [← List.length_eq_zero_iff] at h; simp [hwl] at h)
      rw [List.length_cons, sampleLoop_step lvl N hN I.toRng rest.length counts ls p tc hb hh
        (by simpa using hsz) s a s1 h1]
      simp only [h1]
      by_cases hax : a = x
      · subst hax
        have hR : ∀ (X : Res (List ℕ × σ)) s', ((do
            let q ← X
            pure (a :: q.1, q.2) : Res (List ℕ × σ)) = .ok (a :: rest, s')) ↔ X = .ok (rest, s') := by
          intro X s'
          rcases X with ⟨r, s2⟩ | _ | _
          · simp [Res.ok_bind, Res.pure_eq]
          · simp [Res.fail_bind]
          · simp [Res.ub_bind]
        have hR2 : ∀ s' : σ, (Res.ok (a, s1) = Res.ok (a, s')) ↔ s1 = s' := by simp
        simp only [hR2]
        rw [exists_eq_right']
        simp only [hR]
      · have hR2 : ∀ s' : σ, ¬ (Res.ok (a, s1) = Res.ok (x, s')) := by simp [hax]
        simp only [hR2, and_false, exists_false, iff_false]
        rintro ⟨s', -, h⟩
        obtain ⟨q, -, h⟩ := Res.bind_eq_ok.mp h
        cases h
        exact hax rfl
    rw [hset]
    refine ⟨hm2, ?_⟩
    rw [hP2, hP, leWeights_get N p tc x hb, leWeights_sum N p tc hb, ← mul_assoc,
      ← ENNReal.ofReal_mul (by positivity)]
    rfl

theorem sampleAssignments_law (I : IdealRng σ) (lvl : Nat) (N : Int) (hN : N ≤ 2147483647)
    (a : List ℕ) (hc : Contiguous a) (hsz : (a.length : Int) ≤ N) {B : Set σ} (hB : MeasurableSet B) :
    I.P {s | ∃ s' ∈ B, sampleAssignments lvl ⟨N⟩ I.toRng a.length s = .ok (a, s')} =
      ENNReal.ofReal (sequentialProb (addScore N) [] a) * I.P B := by
  have h := (sampleLoop_law I lvl N hN a [] 0 (by simp) [] [] (.inl ⟨rfl, rfl⟩) (by simpa using hc)
    (by simpa using hsz) hB).2
  rw [← h]
  congr 1
  ext s
  simp only [Set.mem_setOf_eq]
  unfold sampleAssignments
  rw [distAssert0_of hsz, Res.ok_bind, if_neg (by omega), Int.toNat_natCast]
  simp

theorem sequentialProb_snoc (score : ℕ → ℕ → ℝ) (rest p : List ℕ) (x : ℕ) :
    sequentialProb score p (rest ++ [x]) = sequentialProb score p rest *
      (Real.exp (score ((p ++ rest).count x) (p ++ rest).length) /
        (∑ g ∈ (p ++ rest).toFinset, Real.exp (score ((p ++ rest).count g) (p ++ rest).length) +
          Real.exp (score 0 (p ++ rest).length))) := by
  induction rest generalizing p with
  | nil => simp [sequentialProb]
  | cons y rest ih =>
    rw [List.cons_append, sequentialProb, ih, sequentialProb]
    simp only [List.append_assoc, List.singleton_append, List.cons_append, List.nil_append]
    ring

/-- Adding to a group of `g` multiplies the weight `∏ N_k ^ N_k` by `(g+1)^(g+1) / g^g`. -/
theorem exp_addScore (N : Int) (g n : ℕ) (hn : (n : Int) + 1 = N) (hg : g ≤ 10000) :
    Real.exp (addScore N g n) * (g : ℝ) ^ g = ((g : ℝ) + 1) ^ (g + 1) := by
  unfold addScore
  by_cases h : g = 0
  · subst h
    rw [if_pos rfl, if_neg (by omega)]
    simp
  · have h0 : (0 : ℝ) < g := by exact_mod_cast Nat.pos_of_ne_zero h
    rw [if_neg h, if_neg (by omega), Real.exp_add, Real.exp_log (by positivity), mul_comm (Real.log _),
      ← Real.log_pow, Real.exp_log (by positivity), div_pow, pow_succ]
    field_simp
    ring

end LowEntropy

/-- The unnormalised probability the model documents: `∏ N_k ^ N_k` over the group sizes. -/
noncomputable def Spec.entropyWeight (a : List ℕ) : ℝ :=
  ∏ g ∈ a.toFinset, ((a.count g : ℕ) : ℝ) ^ a.count g

namespace LowEntropy

theorem entropyWeight_snoc (p : List ℕ) (x : ℕ) :
    entropyWeight (p ++ [x]) * ((p.count x : ℕ) : ℝ) ^ p.count x =
      entropyWeight p * (((p.count x : ℕ) : ℝ) + 1) ^ (p.count x + 1) := by
  unfold entropyWeight
  have hfin : (p ++ [x]).toFinset = insert x (p.toFinset.erase x) := by
    ext y; by_cases h : y = x <;> simp [h]
  have hp : ∏ g ∈ p.toFinset, ((p.count g : ℕ) : ℝ) ^ p.count g =
      ((p.count x : ℕ) : ℝ) ^ p.count x *
        ∏ g ∈ p.toFinset.erase x, ((p.count g : ℕ) : ℝ) ^ p.count g := by
    by_cases h : x ∈ p.toFinset
    · exact (Finset.mul_prod_erase _ _ h).symm
    · rw [Finset.erase_eq_of_notMem h]
      have : p.count x = 0 := List.count_eq_zero.mpr (by simpa using h)
      simp [this]
  have hq : ∏ g ∈ p.toFinset.erase x, (((p ++ [x]).count g : ℕ) : ℝ) ^ (p ++ [x]).count g =
      ∏ g ∈ p.toFinset.erase x, ((p.count g : ℕ) : ℝ) ^ p.count g := by
    refine Finset.prod_congr rfl fun g hg => ?_
    have hne : x ≠ g := fun h => by simp [h] at hg
    simp [List.count_append, hne]
  rw [hfin, Finset.prod_insert (by simp), hq, hp]
  simp only [List.count_append, List.count_singleton, beq_self_eq_true, if_true, Nat.cast_add,
    Nat.cast_one]
  ring

end LowEntropy

end Dist
