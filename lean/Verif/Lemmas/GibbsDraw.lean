import Verif.Lemmas.AssignmentLaw
import Verif.Spec.Gibbs

/-! # The samplers of the inference loops -/

namespace Dist

open Spec FloatOps FloatNotation MeasureTheory

variable {σ : Type} [MeasurableSpace σ]

theorem sampleFromScores_softmax (I : IdealRng σ) :
    SoftmaxDraw I.P fun l s => sampleFromScores I.toRng s l := by
  intro l hne
  constructor
  · intro s p s' h
    simp only at h
    obtain ⟨i, hi, _, _, _, _, _, h', _⟩ := C44_sampling I.toRng s l hne
    rw [h', Res.ok.injEq, Prod.mk.injEq] at h
    exact h.1 ▸ hi
  · intro p hp B hB
    obtain ⟨m, hm⟩ := scoresToLikelihoods_exact l hne
    have hsum := sum_exp_shift l m
    have hpos : 0 < (l.map fun y => Real.exp (y - m)).sum := by
      rw [hsum]; have := Real.exp_pos m; have := sum_exp_pos hne; positivity
    have key := likelihoods_ideal I (l.map fun y => Real.exp (y - m))
      (by intro z hz; obtain ⟨w, _, rfl⟩ := List.mem_map.mp hz; exact (Real.exp_pos _).le)
      hpos p (by simpa using hp) hB
    have hset : {s | ∃ s' ∈ B, sampleFromScores I.toRng s (l.map XR.fin) = .ok (p, s')} =
        {s | ∃ s' ∈ B, sampleFromLikelihoods I.toRng s
          ((l.map fun y => Real.exp (y - m)).map XR.fin)
          (.fin (l.map fun y => Real.exp (y - m)).sum) = .ok (p, s')} := by
      ext s
      simp only [Set.mem_setOf_eq, sampleFromScores, sampleFromScoresOverwrite, hm, Res.ok_bind]
      refine exists_congr fun s' => and_congr_right fun _ => ?_
      cases sampleFromLikelihoods I.toRng s _ _ <;> simp
    have hset' : {s | ∃ s' ∈ B, (fun l s => sampleFromScores I.toRng s l) (l.map XR.fin) s =
        .ok (p, s')} = _ := hset
    rw [hset']
    refine ⟨key.1, ?_⟩
    rw [key.2]
    congr 2
    simp only [List.getElem_map]
    rw [hsum, Real.exp_sub, div_div_div_cancel_right₀ (Real.exp_pos m).ne']

namespace Dbg

theorem scoresToProbs_exact (l : List ℝ) (hne : l ≠ []) :
    Dbg.scoresToProbs (l.map XR.fin) =
      .ok ((l.map fun y => Real.exp y / (l.map Real.exp).sum).map XR.fin) := by
  obtain ⟨x, xs, rfl⟩ := List.exists_cons_of_ne_nil hne
  have hmax : ∀ (ys : List ℝ) (a : ℝ), ∃ m : ℝ, (ys.map XR.fin).foldl
      (fun a b => if lt a b then b else a) (XR.fin a) = XR.fin m := by
    intro ys
    induction ys with
    | nil => intro a; exact ⟨a, rfl⟩
    | cons y ys ih =>
      intro a
      simp only [List.map_cons, List.foldl_cons]
      by_cases h : lt (XR.fin a) (XR.fin y) = true
      · rw [if_pos h]; exact ih y
      · rw [if_neg h]; exact ih a
  obtain ⟨m, hm⟩ := hmax xs x
  have hsum := sum_exp_shift (x :: xs) m
  have hpos := sum_exp_pos hne
  have hSpos : 0 < ((x :: xs).map fun y => Real.exp (y - m)).sum := by
    rw [hsum]; have := Real.exp_pos m; positivity
  have h0 : Dbg.scoresToProbs ((x :: xs).map XR.fin) =
      .ok ((((x :: xs).map XR.fin).map fun y => exp (y - XR.fin m)).map fun p => p /
        (((x :: xs).map XR.fin).map fun y => exp (y - XR.fin m)).foldl (· + ·) (ofInt 0)) := by
    simp only [List.map_cons, Dbg.scoresToProbs, hm]
  rw [h0, map_fin_comp (fun y => Real.exp (y - m)) (x :: xs) _ (by simp), XR.ofInt_eq, foldl_fin,
    Res.ok.injEq]
  simp only [Int.cast_zero, zero_add, List.map_map]
  apply List.map_congr_left
  intro y _
  simp only [Function.comp]
  rw [XR.fin_div _ _ hSpos.ne', hsum, Real.exp_sub,
    div_div_div_cancel_right₀ (Real.exp_pos m).ne']

/-- The loop of the Python sampler gives the index of the C++ loop as long as the dart is not
beyond the total. -/
theorem dartLoop_eq (size : ℕ) (l : List ℝ) (i : ℕ) (t : ℝ) :
    (dartLoop (l.map XR.fin) i (.fin t) = none ∧ (l = [] ∨ l.sum < t)) ∨
      ∃ j, dartLoop (l.map XR.fin) i (.fin t) = some j ∧ j < i + l.length ∧
        likelihoodLoop size (l.map XR.fin) i (.fin t) = j := by
  induction l generalizing i t with
  | nil => exact .inl ⟨rfl, .inl rfl⟩
  | cons x l ih =>
    simp only [List.map_cons, dartLoop, likelihoodLoop, XR.fin_sub, XR.ofInt_eq]
    have hle : le (XR.fin (t - x)) (XR.fin ((0 : ℤ) : ℝ)) = true ↔ t - x ≤ 0 := by
      rw [XR.le_fin]; simp
    by_cases h : t - x ≤ 0
    · rw [if_pos (hle.mpr h), if_pos (hle.mpr h)]
      exact .inr ⟨i, rfl, by simp, rfl⟩
    · rw [if_neg (fun h' => h (hle.mp h')), if_neg (fun h' => h (hle.mp h'))]
      rcases ih (i + 1) (t - x) with ⟨h1, h2⟩ | ⟨j, h1, h2, h3⟩
      · refine .inl ⟨h1, .inr ?_⟩
        rw [List.sum_cons]
        rcases h2 with rfl | h2
        · simp only [List.sum_nil]; linarith
        · linarith
      · exact .inr ⟨j, h1, by simp only [List.length_cons]; omega, h3⟩

theorem dartLoop_meas (l : List ℝ) (i : ℕ) (o : Option ℕ) :
    MeasurableSet {t : ℝ | dartLoop (l.map XR.fin) i (.fin t) = o} := by
  induction l generalizing i with
  | nil => simp only [List.map_nil, dartLoop]; exact MeasurableSet.const _
  | cons x l ih =>
    have : {t : ℝ | dartLoop ((x :: l).map XR.fin) i (.fin t) = o} =
        ({t | t - x ≤ 0} ∩ {_t | some i = o}) ∪ ({t | t - x ≤ 0}ᶜ ∩
          (fun t => t - x) ⁻¹' {t | dartLoop (l.map XR.fin) (i + 1) (.fin t) = o}) := by
      ext t
      simp only [List.map_cons, dartLoop, XR.fin_sub, XR.ofInt_eq, Set.mem_setOf_eq, Set.mem_union,
        Set.mem_inter_iff, Set.mem_compl_iff, Set.mem_preimage]
      have hle : le (XR.fin (t - x)) (XR.fin ((0 : ℤ) : ℝ)) = true ↔ t - x ≤ 0 := by
        rw [XR.le_fin]; simp
      by_cases h : t - x ≤ 0
      · rw [if_pos (hle.mpr h)]; simp [h]
      · rw [if_neg (fun h' => h (hle.mp h'))]; simp [h]
    rw [this]
    have hm : MeasurableSet {t : ℝ | t - x ≤ 0} := measurableSet_le (by fun_prop) (by fun_prop)
    exact (hm.inter (MeasurableSet.const _)).union
      (hm.compl.inter (measurable_id.sub_const x (ih (i + 1))))

theorem attempts_lt (rng : Rng XR σ) (l : List ℝ) (total : ℝ) (n : ℕ) (s s' : σ) (p : ℕ)
    (hu : ∀ s, ∃ u, (rng.unif01 s).1 = .fin u)
    (h : attempts rng (l.map XR.fin) (.fin total) n s = .ok (p, s')) : p < l.length := by
  induction n generalizing s with
  | zero => cases h
  | succ n ih =>
    rw [attempts] at h
    obtain ⟨u, hu⟩ := hu s
    simp only [hu, XR.fin_mul] at h
    rcases dartLoop_eq 0 l 0 (u * total) with ⟨h1, _⟩ | ⟨j, h1, h2, _⟩
    · rw [h1] at h; exact ih _ h
    · rw [h1] at h
      simp only [Res.ok.injEq, Prod.mk.injEq] at h
      omega

/-- The attempts after the first are never needed. -/
theorem attempts_ideal (I : IdealRng σ) (l : List ℝ) (hl : ∀ x ∈ l, 0 ≤ x) (h1 : l.sum = 1)
    (p : ℕ) (hp : p < l.length) {B : Set σ} (hB : MeasurableSet B) (n : ℕ) :
    MeasurableSet {s | ∃ s' ∈ B, attempts I.toRng (l.map XR.fin) (.fin 1) n s = .ok (p, s')} ∧
    (0 < n → I.P {s | ∃ s' ∈ B,
      attempts I.toRng (l.map XR.fin) (.fin 1) n s = .ok (p, s')} = ENNReal.ofReal l[p] * I.P B) := by
  have := I.prob
  have hne : l ≠ [] := by rintro rfl; simp at hp
  induction n with
  | zero =>
    refine ⟨?_, by simp⟩
    have : {s | ∃ s' ∈ B, attempts I.toRng (l.map XR.fin) (.fin 1) 0 s = .ok (p, s')} = ∅ := by
      ext s; simp [attempts]
    rw [this]; exact MeasurableSet.empty
  | succ n ih =>
    let U : Set ℝ := {u | dartLoop (l.map XR.fin) 0 (.fin u) = some p}
    let N : Set ℝ := {u | dartLoop (l.map XR.fin) 0 (.fin u) = none}
    let A : Set σ := {s | ∃ s' ∈ B, attempts I.toRng (l.map XR.fin) (.fin 1) n s = .ok (p, s')}
    have hU : MeasurableSet U := dartLoop_meas l 0 _
    have hN : MeasurableSet N := dartLoop_meas l 0 _
    have hset : {s | ∃ s' ∈ B, attempts I.toRng (l.map XR.fin) (.fin 1) (n + 1) s = .ok (p, s')} =
        I.unif ⁻¹' (U ×ˢ B) ∪ I.unif ⁻¹' (N ×ˢ A) := by
      ext s
      simp only [Set.mem_setOf_eq, attempts, IdealRng.toRng, XR.fin_mul, mul_one, Set.mem_union,
        Set.mem_preimage, Set.mem_prod, U, N, A]
      cases hd : dartLoop (l.map XR.fin) 0 (.fin (I.unif s).1) with
      | none => simp
      | some j =>
        simp only [Res.ok.injEq, Prod.mk.injEq, Option.some.injEq, reduceCtorEq, false_and, or_false]
        constructor
        · rintro ⟨s', hs', rfl, rfl⟩; exact ⟨rfl, hs'⟩
        · rintro ⟨rfl, hs⟩; exact ⟨_, hs, rfl, rfl⟩
    rw [hset]
    refine ⟨(I.unif_meas (hU.prod hB)).union (I.unif_meas (hN.prod ih.1)), fun _ => ?_⟩
    have hnull : I.P (I.unif ⁻¹' (N ×ˢ A)) = 0 := by
      rw [← Measure.map_apply I.unif_meas (hN.prod ih.1), I.unif_law, Measure.prod_prod,
        Measure.restrict_apply hN]
      have : N ∩ Set.Ico (0 : ℝ) 1 = ∅ := by
        ext u
        simp only [Set.mem_inter_iff, Set.mem_Ico, Set.mem_empty_iff_false, iff_false, not_and, N,
          Set.mem_setOf_eq]
        intro hn _ hu
        rcases dartLoop_eq 0 l 0 u with ⟨_, h | h⟩ | ⟨j, h, _⟩
        · exact hne h
        · linarith
        · rw [hn] at h; cases h
      rw [this]; simp
    have hun : I.P (I.unif ⁻¹' (U ×ˢ B) ∪ I.unif ⁻¹' (N ×ˢ A)) = I.P (I.unif ⁻¹' (U ×ˢ B)) := by
      refine le_antisymm ((measure_union_le _ _).trans ?_) (measure_mono Set.subset_union_left)
      rw [hnull, add_zero]
    rw [hun, ← Measure.map_apply I.unif_meas (hU.prod hB), I.unif_law, Measure.prod_prod,
      Measure.restrict_apply hU]
    congr 1
    let rng : ℝ → Rng XR Unit := fun u => ⟨fun _ => (.fin u, ()), fun _ _ _ => (0, ()),
      fun _ _ _ => (.nan, ()), fun _ _ _ => (.nan, ()), fun _ _ => (.nan, ()), fun _ _ => (0, ()),
      fun _ _ _ => (0, ())⟩
    have key := C43_probability rng () () l hl (by rw [h1]; norm_num) (fun u => rfl) p hp
    rw [h1, div_one] at key
    rw [← key]
    congr 1
    ext u
    have hlen : 0 < (l.map XR.fin).length := by simp; omega
    simp only [Set.mem_inter_iff, Set.mem_setOf_eq, Set.mem_Ico, U]
    rw [sampleFromLikelihoods, distAssert0_of hlen, Res.ok_bind]
    simp only [rng, XR.fin_mul, one_mul, List.length_map, Res.pure_eq, Res.ok.injEq, Prod.mk.injEq,
      and_true]
    rcases dartLoop_eq l.length l 0 u with ⟨_, h | h⟩ | ⟨j, h, _, h'⟩
    · exact absurd h hne
    · constructor
      · rintro ⟨_, _, h3⟩; linarith
      · rintro ⟨_, h3, _⟩; linarith
    · rw [h, h', Option.some.injEq]; tauto

theorem sampleDiscreteLog_softmax (I : IdealRng σ) :
    SoftmaxDraw I.P fun l s => sampleDiscreteLog I.toRng s l := by
  intro l hne
  have hpos := sum_exp_pos hne
  have hs : (l.map fun y => Real.exp y / (l.map Real.exp).sum).sum = 1 := by
    have : ∀ (l : List ℝ) (t : ℝ), (l.map fun y => Real.exp y / t).sum =
        (l.map Real.exp).sum / t := by
      intro l t
      induction l with
      | nil => simp
      | cons y ys ih => simp only [List.map_cons, List.sum_cons, ih]; ring
    rw [this, div_self hpos.ne']
  have e : ∀ s, sampleDiscreteLog I.toRng s (l.map XR.fin) = attempts I.toRng
      ((l.map fun y => Real.exp y / (l.map Real.exp).sum).map XR.fin) (.fin 1) 10 s := by
    intro s
    rw [sampleDiscreteLog, scoresToProbs_exact l hne, Res.ok_bind, sampleDiscrete]
    simp
  simp only [e]
  constructor
  · intro s p s' h
    have := attempts_lt I.toRng _ 1 10 s s' p (fun s => ⟨_, rfl⟩) h
    simpa using this
  · intro p hp B hB
    have key := attempts_ideal I _ (by
      intro x hx
      obtain ⟨y, _, rfl⟩ := List.mem_map.mp hx
      exact (div_pos (Real.exp_pos y) hpos).le) hs p (by simpa using hp) hB 10
    refine ⟨key.1, ?_⟩
    rw [key.2 (by norm_num)]
    simp

end Dbg

end Dist
