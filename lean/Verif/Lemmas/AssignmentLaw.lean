import Verif.Lemmas.IdealRng
import Verif.Props.Sampling
import Verif.Props.PitmanYor
import Verif.Lemmas.Assignments

/-!
# The law of `PitmanYor::sample_assignments` under ideal randomness

One draw proportional to likelihoods, and the sampling loop by induction on the customers left.
-/

namespace Dist

open Spec PitmanYor FloatOps FloatNotation MeasureTheory ProbabilityTheory

variable {σ : Type} [MeasurableSpace σ]

theorem likelihoodLoop_meas (size : ℕ) (l : List ℝ) (i : ℕ) :
    Measurable fun t : ℝ => likelihoodLoop size (l.map XR.fin) i (.fin t) := by
  induction l generalizing i with
  | nil => exact measurable_const
  | cons x l ih =>
    have e : (fun t : ℝ => likelihoodLoop size ((x :: l).map XR.fin) i (.fin t)) =
        fun t : ℝ => if t - x ≤ 0 then i else
          likelihoodLoop size (l.map XR.fin) (i + 1) (.fin (t - x)) := by
      funext t
      simp only [List.map_cons, likelihoodLoop, XR.fin_sub, XR.ofInt_eq]
      have : le (XR.fin (t - x)) (XR.fin ((0 : ℤ) : ℝ)) = true ↔ t - x ≤ 0 := by
        rw [XR.le_fin]; simp
      by_cases h : t - x ≤ 0
      · rw [if_pos h, if_pos (this.mpr h)]
      · rw [if_neg h, if_neg (fun h' => h (this.mp h'))]
    rw [e]
    exact Measurable.ite (measurableSet_le (by fun_prop) measurable_const) measurable_const
      ((ih (i + 1)).comp (by fun_prop))

/-- Selection proportional to likelihoods, with a fresh state left behind. -/
theorem likelihoods_ideal (I : IdealRng σ) (l : List ℝ) (hl : ∀ x ∈ l, 0 ≤ x) (hpos : 0 < l.sum)
    (i : ℕ) (hi : i < l.length) {B : Set σ} (hB : MeasurableSet B) :
    MeasurableSet {s | ∃ s' ∈ B,
      sampleFromLikelihoods I.toRng s (l.map XR.fin) (.fin l.sum) = .ok (i, s')} ∧
    I.P {s | ∃ s' ∈ B, sampleFromLikelihoods I.toRng s (l.map XR.fin) (.fin l.sum) = .ok (i, s')} =
      ENNReal.ofReal (l[i] / l.sum) * I.P B := by
  have hlen : 0 < (l.map XR.fin).length := by simp; omega
  let U : Set ℝ := {u | likelihoodLoop l.length (l.map XR.fin) 0 (.fin (l.sum * u)) = i}
  have hU : MeasurableSet U :=
    ((likelihoodLoop_meas l.length l 0).comp (measurable_const_mul l.sum)) (measurableSet_singleton i)
  have hset : {s | ∃ s' ∈ B,
      sampleFromLikelihoods I.toRng s (l.map XR.fin) (.fin l.sum) = .ok (i, s')} =
      I.unif ⁻¹' (U ×ˢ B) := by
    ext s
    simp only [Set.mem_setOf_eq, Set.mem_preimage, Set.mem_prod, U]
    rw [sampleFromLikelihoods, distAssert0_of hlen, Res.ok_bind]
    simp only [IdealRng.toRng, XR.fin_mul, List.length_map, Res.pure_eq, Res.ok.injEq,
      Prod.mk.injEq]
    constructor
    · rintro ⟨s', h, h1, rfl⟩; exact ⟨h1, h⟩
    · rintro ⟨h1, h⟩; exact ⟨_, h, h1, rfl⟩
  rw [hset]
  refine ⟨I.unif_meas (hU.prod hB), ?_⟩
  rw [← Measure.map_apply I.unif_meas (hU.prod hB), I.unif_law, Measure.prod_prod,
    Measure.restrict_apply hU]
  congr 1
  let rng : ℝ → Rng XR Unit := fun u => ⟨fun _ => (.fin u, ()), fun _ _ _ => (0, ()),
    fun _ _ _ => (.nan, ()), fun _ _ _ => (.nan, ()), fun _ _ => (.nan, ()), fun _ _ => (0, ()),
    fun _ _ _ => (0, ())⟩
  rw [← C43_probability rng () () l hl hpos (fun u => rfl) i hi]
  congr 1
  ext u
  simp only [Set.mem_inter_iff, Set.mem_setOf_eq, Set.mem_Ico, U]
  rw [sampleFromLikelihoods, distAssert0_of hlen, Res.ok_bind]
  simp only [rng, XR.fin_mul, List.length_map, Res.pure_eq, Res.ok.injEq, Prod.mk.injEq, and_true]
  tauto

/-- The likelihoods after the customers `p` have taken their seats at `k` tables. -/
noncomputable def PitmanYor.weights (alpha d : ℝ) (p : List ℕ) (k : ℕ) : List ℝ :=
  (List.range k).map (fun g => ((p.count g : ℕ) : ℝ) - d) ++ [alpha + d * k]

namespace PitmanYor

theorem weights_length (alpha d : ℝ) (p : List ℕ) (k : ℕ) : (weights alpha d p k).length = k + 1 := by
  simp [weights]

theorem weights_get? (alpha d : ℝ) (p : List ℕ) (k i : ℕ) (h : i < k + 1) :
    (weights alpha d p k)[i]? =
      some (if i < k then ((p.count i : ℕ) : ℝ) - d else alpha + d * k) := by
  unfold weights
  split_ifs with hi
  · rw [List.getElem?_append_left (by simpa using hi)]; simp [hi]
  · rw [List.getElem?_append_right (by simpa using hi)]
    have : i = k := by omega
    simp [this]

theorem weights_get (alpha d : ℝ) (p : List ℕ) (k i : ℕ) (h : i < (weights alpha d p k).length) :
    (weights alpha d p k)[i] = if i < k then ((p.count i : ℕ) : ℝ) - d else alpha + d * k := by
  have := weights_get? alpha d p k i (by rwa [weights_length] at h)
  rw [List.getElem?_eq_getElem h] at this
  exact Option.some.inj this

theorem weights_sum (alpha d : ℝ) (p : List ℕ) (k : ℕ) (hk : ∀ y, y ∈ p ↔ y < k) :
    (weights alpha d p k).sum = p.length + alpha := by
  have hcount : ∑ x ∈ Finset.range k, ((p.count x : ℕ) : ℝ) = p.length := by
    rw [← toFinset_of_bound hk]
    exact_mod_cast List.sum_toFinset_count_eq_length p
  have h1 : ((List.range k).map fun g => ((p.count g : ℕ) : ℝ) - d).sum =
      ∑ g ∈ Finset.range k, (((p.count g : ℕ) : ℝ) - d) := by
    rfl
  rw [weights, List.sum_append, h1, Finset.sum_sub_distrib, hcount]
  simp
  ring

theorem weights_nonneg {alpha d : ℝ} (hp : Admissible alpha d) (p : List ℕ) (k : ℕ)
    (hk : ∀ y, y ∈ p ↔ y < k) (hk1 : 1 ≤ k) : ∀ x ∈ weights alpha d p k, 0 ≤ x := by
  obtain ⟨hd0, hd1, had⟩ := hp
  have hk1' : (1 : ℝ) ≤ k := by exact_mod_cast hk1
  intro x hx
  simp only [weights, List.mem_append, List.mem_map, List.mem_range, List.mem_singleton] at hx
  rcases hx with ⟨g, hg, rfl⟩ | rfl
  · have : 1 ≤ p.count g := List.count_pos_iff.mpr ((hk g).mpr hg)
    have : (1 : ℝ) ≤ p.count g := by exact_mod_cast this
    linarith
  · nlinarith

/-- The update after a customer joins a table. -/
theorem weights_join (alpha d : ℝ) (p : List ℕ) (k x : ℕ) (hx : x < k) :
    (weights alpha d p k).set x (((p.count x : ℕ) : ℝ) - d + 1) = weights alpha d (p ++ [x]) k := by
  apply List.ext_getElem
  · simp [weights_length]
  · intro i h1 h2
    rw [List.getElem_set, weights_get, weights_get]
    by_cases hi : x = i
    · subst hi
      rw [if_pos rfl, if_pos hx]
      simp [List.count_append]
      ring
    · rw [if_neg hi]
      simp [List.count_append, hi]

/-- The update after a customer starts a new table. -/
theorem weights_new (alpha d : ℝ) (p : List ℕ) (k : ℕ) (hk : ∀ y, y ∈ p ↔ y < k) :
    (weights alpha d p k ++ [alpha + d * (k + 1 : ℕ)]).set k (1 - d) =
      weights alpha d (p ++ [k]) (k + 1) := by
  have hz : p.count k = 0 := List.count_eq_zero.mpr (fun h => by have := (hk k).mp h; omega)
  apply List.ext_getElem
  · simp [weights_length]
  · intro i h1 h2
    rw [weights_length] at h2
    rw [List.getElem_set, weights_get]
    by_cases hi : k = i
    · subst hi
      rw [if_pos rfl, if_pos (by omega)]
      simp [List.count_append, hz]
    · rw [if_neg hi]
      by_cases hik : i < k
      · rw [List.getElem_append_left (by rw [weights_length]; omega), weights_get, if_pos hik,
          if_pos (by omega)]
        simp [List.count_append, hi]
      · rw [List.getElem_append_right (by rw [weights_length]; omega), if_neg (by omega)]
        simp

theorem sampleLoop_law (I : IdealRng σ) {alpha d : ℝ} (hp : Admissible alpha d) (h0 : alpha ≠ 0)
    (rest p : List ℕ) (k : ℕ) (hk : ∀ y, y ∈ p ↔ y < k) (hk1 : 1 ≤ k)
    (hc : Contiguous (p ++ rest)) {B : Set σ} (hB : MeasurableSet B) :
    MeasurableSet {s | ∃ s' ∈ B, sampleLoop (⟨.fin alpha, .fin d⟩ : PitmanYor XR) I.toRng rest.length
        p.length ((weights alpha d p k).map XR.fin) k s = .ok (rest, s')} ∧
    I.P {s | ∃ s' ∈ B, sampleLoop (⟨.fin alpha, .fin d⟩ : PitmanYor XR) I.toRng rest.length
        p.length ((weights alpha d p k).map XR.fin) k s = .ok (rest, s')} =
      ENNReal.ofReal (Real.exp (logSeq alpha d (p ++ rest) - logSeq alpha d p)) * I.P B := by
  induction rest generalizing p k with
  | nil => simp [sampleLoop, hB]
  | cons x rest ih =>
    have hc' : Contiguous ((p ++ [x]) ++ rest) := by simpa using hc
    have hpx : Contiguous (p ++ [x]) := by
      intro i y hy z hz
      have hi : i < (p ++ [x]).length := by
        by_contra h
        rw [List.getElem?_eq_none (by omega)] at hy
        cases hy
      have := hc' i y (by rw [List.getElem?_append_left hi]; exact hy) z hz
      rwa [List.take_append_of_le_length (by omega)] at this
    have hxk : x ≤ k := ((contiguous_append_of_bound hk).mp hpx).2
    obtain ⟨hS, hjoin, hnew⟩ := logSeq_step hp h0 p k hk
    have hlen : 1 ≤ p.length := by
      have : 0 ∈ p := (hk 0).mpr (by omega)
      exact List.length_pos_of_mem this
    have hpos : 0 < (weights alpha d p k).sum := by
      rw [weights_sum alpha d p k hk]
      obtain ⟨hd0, hd1, had⟩ := hp
      have : (1 : ℝ) ≤ p.length := by exact_mod_cast hlen
      linarith
    -- the tables after this customer
    let k' := if x = k then k + 1 else k
    have hk' : ∀ y, y ∈ p ++ [x] ↔ y < k' := by
      intro y
      rw [List.mem_append, hk, List.mem_singleton]
      simp only [k']
      split_ifs <;> omega
    obtain ⟨hm, hP⟩ := ih (p ++ [x]) k' hk' (by simp only [k']; split_ifs <;> omega) hc'
    obtain ⟨hm2, hP2⟩ := likelihoods_ideal I (weights alpha d p k) (weights_nonneg hp p k hk hk1) hpos
      x (by rw [weights_length]; omega) hm
    have hset : {s | ∃ s' ∈ B, sampleLoop (⟨.fin alpha, .fin d⟩ : PitmanYor XR) I.toRng
        (x :: rest).length p.length ((weights alpha d p k).map XR.fin) k s = .ok (x :: rest, s')} =
        {s | ∃ s' ∈ {s | ∃ s' ∈ B, sampleLoop (⟨.fin alpha, .fin d⟩ : PitmanYor XR) I.toRng rest.length
          (p ++ [x]).length ((weights alpha d (p ++ [x]) k').map XR.fin) k' s = .ok (rest, s')},
          sampleFromLikelihoods I.toRng s ((weights alpha d p k).map XR.fin)
            (.fin (weights alpha d p k).sum) = .ok (x, s')} := by
      ext s
      simp only [Set.mem_setOf_eq]
      have hwl := weights_length alpha d p k
      obtain ⟨a, s1, h1, h2⟩ := sampleFromLikelihoods_ok I.toRng s ((weights alpha d p k).map XR.fin)
        (.fin (weights alpha d p k).sum) (by intro h; rw [← List.length_eq_zero_iff] at h; simp [hwl] at h)
      rw [List.length_cons, sampleLoop]
      have htot : (ofInt (p.length : ℤ) + (⟨.fin alpha, .fin d⟩ : PitmanYor XR).alpha : XR) =
          .fin (weights alpha d p k).sum := by
        rw [weights_sum alpha d p k hk]; simp [XR.ofInt_eq]
      simp only [htot, h1, Res.ok_bind]
      by_cases hax : a = x
      · subst hax
        have hR : ∀ (X : Res (List ℕ × σ)) s', ((do
            let q ← X
            pure (a :: q.1, q.2) : Res (List ℕ × σ)) = .ok (a :: rest, s')) ↔ X = .ok (rest, s') := by
          intro X s'
          rcases X with ⟨r, s2⟩ | _ | _
          · simp [Res.ok_bind, Res.pure_eq]
          · simp [Res.fail_bind]
          · simp [Res.ub_bind]
        have hR2 : ∀ s' : σ, (Res.ok (a, s1) = Res.ok (a, s')) ↔ s1 = s' := by simp
        simp only [hR2]
        rw [exists_eq_right']
        by_cases hak : a = k
        · subst hak
          have hk'v : k' = a + 1 := by simp [k']
          rw [if_pos rfl, setAt_of (by simp; omega), Res.ok_bind]
          have hw : ((weights alpha d p a).map XR.fin ++
              [XR.fin alpha + XR.fin d * ofInt ((a + 1 : ℕ) : ℤ)]).set a (ofInt 1 - XR.fin d) =
              (weights alpha d (p ++ [a]) (a + 1)).map XR.fin := by
            rw [← weights_new alpha d p a hk, List.map_set]
            simp [XR.ofInt_eq]
          simp only [hw, hR, hk'v, List.length_append, List.length_singleton]
        · have hk'v : k' = k := by simp [k', hak]
          have hak' : a < k := by omega
          have hg : (weights alpha d p k)[a]'(by omega) = ((p.count a : ℕ) : ℝ) - d := by
            rw [weights_get, if_pos hak']
          rw [if_neg hak, getAt_of h2, Res.ok_bind, setAt_of h2, Res.ok_bind]
          have hw : ((weights alpha d p k).map XR.fin).set a
              (((weights alpha d p k).map XR.fin)[a] + lit 1 1) =
              (weights alpha d (p ++ [a]) k).map XR.fin := by
            rw [← weights_join alpha d p k a hak', List.map_set]
            simp [XR.lit_eq, hg]
          simp only [hw, hR, hk'v, List.length_append, List.length_singleton]
      · have hR2 : ∀ s' : σ, ¬ (Res.ok (a, s1) = Res.ok (x, s')) := by simp [hax]
        simp only [hR2, and_false, exists_false, iff_false]
        rintro ⟨s', -, h⟩
        split_ifs at h with hak
        · obtain ⟨q, -, h⟩ := Res.bind_eq_ok.mp h
          obtain ⟨q, -, h⟩ := Res.bind_eq_ok.mp h
          simp [Res.pure_eq, hax] at h
        · obtain ⟨q, -, h⟩ := Res.bind_eq_ok.mp h
          obtain ⟨q, -, h⟩ := Res.bind_eq_ok.mp h
          obtain ⟨q, -, h⟩ := Res.bind_eq_ok.mp h
          simp [Res.pure_eq, hax] at h
    rw [hset]
    refine ⟨hm2, ?_⟩
    have hr : (weights alpha d p k)[x]'(by rw [weights_length]; omega) / (weights alpha d p k).sum =
        Real.exp (logSeq alpha d (p ++ [x]) - logSeq alpha d p) := by
      rw [weights_sum alpha d p k hk, weights_get]
      by_cases hx : x < k
      · rw [if_pos hx, hjoin x hx]
      · have : x = k := by omega
        subst this
        rw [if_neg hx, hnew]
    rw [hP2, hP, hr, ← mul_assoc, ← ENNReal.ofReal_mul (Real.exp_pos _).le, ← Real.exp_add]
    congr 3
    simp

/-- `sample_assignments` in terms of the seating probabilities. -/
theorem sampleAssignments_law (I : IdealRng σ) {alpha d : ℝ} (hp : Admissible alpha d)
    (h0 : alpha ≠ 0) (a : List ℕ) (ha : Contiguous a) {B : Set σ} (hB : MeasurableSet B) :
    MeasurableSet {s | ∃ s' ∈ B,
      sampleAssignments (⟨.fin alpha, .fin d⟩ : PitmanYor XR) I.toRng a.length s = .ok (a, s')} ∧
    I.P {s | ∃ s' ∈ B,
      sampleAssignments (⟨.fin alpha, .fin d⟩ : PitmanYor XR) I.toRng a.length s = .ok (a, s')} =
      ENNReal.ofReal (Real.exp (logSeq alpha d a)) * I.P B := by
  have hlt : FloatOps.lt (ofInt (a.length : ℤ)) (ofInt (a.length : ℤ) + lit 1 1 : XR) = true := by
    simp [XR.ofInt_eq, XR.lit_eq, XR.lt_fin]
  unfold sampleAssignments
  rw [distAssert0_of hlt]
  simp only [Res.ok_bind]
  have hneg : ¬ ((a.length : ℤ) < 0) := by omega
  simp only [if_neg hneg]
  cases a with
  | nil => simp [Res.pure_eq, hB, logSeq, tableTerm, totalTerm]
  | cons x rest =>
    have hx : x = 0 := by
      by_contra h
      have := ha 0 x rfl 0 (by omega)
      simp at this
    subst hx
    have hne : ¬ (((0 :: rest).length : ℤ) = 0) := by simp; omega
    simp only [if_neg hne]
    have hk : ∀ y, y ∈ [0] ↔ y < 1 := by intro y; simp
    obtain ⟨h1, h2⟩ := sampleLoop_law I hp h0 rest [0] 1 hk le_rfl (by simpa using ha) hB
    have hw : (([XR.fin alpha] ++ [XR.fin alpha + XR.fin d * ofInt 1]).set 0 (ofInt 1 - XR.fin d)) =
        (weights alpha d [0] 1).map XR.fin := by
      simp [weights, XR.ofInt_eq]
    have hset : {s | ∃ s' ∈ B, (do
        let likelihoods ← setAt ([XR.fin alpha] ++ [XR.fin alpha + XR.fin d * ofInt 1]) 0
          (ofInt 1 - XR.fin d)
        let q ← sampleLoop (⟨.fin alpha, .fin d⟩ : PitmanYor XR) I.toRng
          (((0 :: rest).length : ℤ).toNat - 1) 1 likelihoods 1 s
        pure (0 :: q.1, q.2) : Res (List ℕ × σ)) = .ok (0 :: rest, s')} =
        {s | ∃ s' ∈ B, sampleLoop (⟨.fin alpha, .fin d⟩ : PitmanYor XR) I.toRng rest.length
        [0].length ((weights alpha d [0] 1).map XR.fin) 1 s = .ok (rest, s')} := by
      ext s
      simp only [Set.mem_setOf_eq]
      rw [setAt_of (by simp), Res.ok_bind, hw]
      have hl : ((0 :: rest).length : ℤ).toNat - 1 = rest.length := by simp
      rw [hl, List.length_singleton]
      constructor
      · rintro ⟨s', hs, h⟩
        obtain ⟨q, hq, h⟩ := Res.bind_eq_ok.mp h
        simp only [Res.pure_eq, Res.ok.injEq, Prod.mk.injEq, List.cons.injEq, true_and] at h
        refine ⟨s', hs, ?_⟩
        rw [hq, ← h.1, ← h.2]
      · rintro ⟨s', hs, h⟩
        refine ⟨s', hs, ?_⟩
        rw [h]; rfl
    refine ⟨?_, ?_⟩
    · exact hset ▸ h1
    · refine (congrArg I.P hset).trans ?_
      rw [h2]
      have hnil : logSeq alpha d [] = 0 := by
        simp [logSeq, tableTerm, totalTerm]
      have h00 : logSeq alpha d [0] = 0 := by
        have h := (logSeq_step hp h0 [] 0 (by simp)).2.2
        rw [List.nil_append, hnil, sub_zero] at h
        have : alpha / alpha = 1 := div_self h0
        simp [this] at h
        exact h
      rw [h00, sub_zero]
      rfl

end PitmanYor

end Dist
