import Verif.Lemmas.SingleGibbsLaw

/-! # The law of the inference loops in single precision -/

namespace Dist

open Spec FloatOps FloatNotation Finset MeasureTheory

namespace SCtx

variable {ι R S S' G V σ : Type} [DecidableEq ι] [Fintype ι] [DecidableEq V] [MeasurableSpace σ]
  {lib : Libm} {Y : SCtx lib ι R S S' G V} {P : Measure σ} [IsProbabilityMeasure P] {N : ℕ} {r t : ℝ}
  {draw : List (Single lib) → σ → Res (Nat × σ)}

omit [DecidableEq V] in
theorem Inv.size_le {st : Inference ι R S' G V (Single lib)} {k E : Nat} (h : Y.Inv st k E)
    (hE : E + Fintype.card ι ≤ N) : st.mixture.size ≤ N := by
  rw [h.size]
  have h1 := clusters_parts st.assignments
  have h2 : (clusters st.assignments).card ≤ Fintype.card ι := by
    have h3 := h1.toFinpartition.card_parts_le_card
    exact h3.trans (card_le_univ _)
  omega

theorem Inv.resampleAll_law (hY : Y.Ok) (ht : 0 ≤ t) (hN : N ≤ 2 ^ 20)
    (hd : NearSoftmaxDraw N r t P draw) (items : List ι)
    {st : Inference ι R S' G V (Single lib)} {k E : Nat} (h : Y.Inv st k E)
    (hE : E + Fintype.card ι ≤ N) (hit : ∀ i ∈ items, st.assignments i ≠ none)
    (hk : k + items.length ≤ 4294967296) :
    Law P (fun s => st.resampleAll Y.X.lvl Y.model draw Y.X.rows items s)
      (fun st' => Y.Inv st' (k + items.length) E ∧
        ∀ j, st'.assignments j = none ↔ st.assignments j = none)
      (fun κ => sweepMean (Y.X.W true) items κ (clusters st.assignments))
      (items.length * stepError N Y.err Y.feats.length r t) := by
  induction items generalizing st k with
  | nil =>
    simp only [Inference.resampleAll, sweepMean, List.length_nil, Nat.cast_zero, zero_mul]
    exact Law.pure st ⟨h, fun _ => Iff.rfl⟩
  | cons i is ih =>
    rw [List.length_cons] at hk
    have h1 := h.resample_law hY ht hN hd (h.size_le hE) (hit i (by simp)) (by omega)
    have h2 := h1.bind (g := fun st1 s => st1.resampleAll Y.X.lvl Y.model draw Y.X.rows is s)
      (A' := fun C κ => sweepMean (Y.X.W true) is κ C)
      (Q' := fun st' => Y.Inv st' (k + (i :: is).length) E ∧
        ∀ j, st'.assignments j = none ↔ st.assignments j = none)
      (η' := is.length * stepError N Y.err Y.feats.length r t) (by
        rintro st1 ⟨q1, g, ha⟩
        have hnone : ∀ j, st1.assignments j = none ↔ st.assignments j = none := by
          intro j
          rw [ha]
          unfold Inference.assign
          split_ifs with hj
          · subst hj
            have := hit j (by simp)
            simp [this]
          · rfl
        refine (ih q1 (fun j hj h0 => hit j (by simp [hj]) ((hnone j).mp h0)) (by omega)).mono ?_
        rintro st' ⟨e1, e2⟩
        refine ⟨?_, fun j => (e2 j).trans (hnone j)⟩
        rw [List.length_cons, show k + (is.length + 1) = k + 1 + is.length by omega]
        exact e1)
    have e : ((i :: is).length : ℝ) * stepError N Y.err Y.feats.length r t =
        is.length * stepError N Y.err Y.feats.length r t + stepError N Y.err Y.feats.length r t := by
      push_cast [List.length_cons]; ring
    rw [e]
    exact h2

theorem Inv.passes_law (hY : Y.Ok) (ht : 0 ≤ t) (hN : N ≤ 2 ^ 20)
    (hd : NearSoftmaxDraw N r t P draw) (items : List ι) (n : ℕ)
    {st : Inference ι R S' G V (Single lib)} {k E : Nat} (h : Y.Inv st k E)
    (hE : E + Fintype.card ι ≤ N) (hit : ∀ i ∈ items, st.assignments i ≠ none)
    (hk : k + n * items.length ≤ 4294967296) :
    Law P (fun s => st.passes Y.X.lvl Y.model draw Y.X.rows items n s)
      (fun st' => Y.Inv st' (k + n * items.length) E ∧
        ∀ j, st'.assignments j = none ↔ st.assignments j = none)
      (fun κ => passMean (Y.X.W true) items n κ (clusters st.assignments))
      (n * items.length * stepError N Y.err Y.feats.length r t) := by
  induction n generalizing st k with
  | zero =>
    simp only [Inference.passes, passMean, Nat.cast_zero, zero_mul]
    exact Law.pure st ⟨h.mono (by simp), fun _ => Iff.rfl⟩
  | succ n ih =>
    have hl : k + (n + 1) * items.length = k + items.length + n * items.length := by ring
    rw [hl] at hk
    have h1 := h.resampleAll_law hY ht hN hd items hE hit (by omega)
    have h2 := h1.bind (g := fun st1 s => st1.passes Y.X.lvl Y.model draw Y.X.rows items n s)
      (A' := fun C κ => passMean (Y.X.W true) items n κ C)
      (Q' := fun st' => Y.Inv st' (k + (n + 1) * items.length) E ∧
        ∀ j, st'.assignments j = none ↔ st.assignments j = none)
      (η' := n * items.length * stepError N Y.err Y.feats.length r t) (by
        rintro st1 ⟨q1, hn1⟩
        refine (ih q1 (fun j hj h0 => hit j hj ((hn1 j).mp h0)) hk).mono ?_
        rintro st' ⟨e1, e2⟩
        exact ⟨by rw [hl]; exact e1, fun j => (e2 j).trans (hn1 j)⟩)
    have e : ((n + 1 : ℕ) : ℝ) * items.length * stepError N Y.err Y.feats.length r t =
        n * items.length * stepError N Y.err Y.feats.length r t +
          items.length * stepError N Y.err Y.feats.length r t := by
      push_cast; ring
    rw [e]
    exact h2

theorem Inv.placeAll_law (hY : Y.Ok) (ht : 0 ≤ t) (hN : N ≤ 2 ^ 20)
    (hd : NearSoftmaxDraw N r t P draw) (scored : Bool) (items : List ι) (hnd : items.Nodup)
    {st : Inference ι R S' G V (Single lib)} {k E : Nat} (h : Y.Inv st k E)
    (hE : E + Fintype.card ι ≤ N) (hit : ∀ i ∈ items, st.assignments i = none)
    (hk : k + items.length ≤ 4294967296) :
    Law P (fun s => st.placeAll Y.X.lvl Y.model draw scored Y.X.rows items s)
      (fun st' => Y.Inv st' (k + items.length) E ∧
        ∀ j, st'.assignments j = none ↔ st.assignments j = none ∧ j ∉ items)
      (fun κ => startMean (Y.X.W scored) items κ (clusters st.assignments))
      (items.length * stepError N Y.err Y.feats.length r t) := by
  induction items generalizing st k with
  | nil =>
    simp only [Inference.placeAll, startMean, List.length_nil, Nat.cast_zero, zero_mul]
    exact Law.pure st ⟨h, fun _ => by simp⟩
  | cons i is ih =>
    rw [List.length_cons] at hk
    rw [List.nodup_cons] at hnd
    have h1 := h.place_law hY ht hN hd scored (h.size_le hE) (hit i (by simp)) (by omega)
    have h2 := h1.bind (g := fun st1 s => st1.placeAll Y.X.lvl Y.model draw scored Y.X.rows is s)
      (A' := fun C κ => startMean (Y.X.W scored) is κ C)
      (Q' := fun st' => Y.Inv st' (k + (i :: is).length) E ∧
        ∀ j, st'.assignments j = none ↔ st.assignments j = none ∧ j ∉ i :: is)
      (η' := is.length * stepError N Y.err Y.feats.length r t) (by
        rintro st1 ⟨q1, g, ha⟩
        have hnone : ∀ j, st1.assignments j = none ↔ st.assignments j = none ∧ j ≠ i := by
          intro j
          rw [ha]
          unfold Inference.assign
          split_ifs with hj
          · simp [hj]
          · simp [hj]
        refine (ih hnd.2 q1 (fun j hj => (hnone j).mpr ⟨hit j (by simp [hj]), ?_⟩)
          (by omega)).mono ?_
        · rintro rfl; exact hnd.1 hj
        rintro st' ⟨e1, e2⟩
        refine ⟨?_, fun j => ?_⟩
        · rw [List.length_cons, show k + (is.length + 1) = k + 1 + is.length by omega]
          exact e1
        · rw [e2 j, hnone j, List.mem_cons]; tauto)
    have e : ((i :: is).length : ℝ) * stepError N Y.err Y.feats.length r t =
        is.length * stepError N Y.err Y.feats.length r t + stepError N Y.err Y.feats.length r t := by
      push_cast [List.length_cons]; ring
    rw [e]
    exact h2

omit [Fintype ι] [DecidableEq V] [MeasurableSpace σ] in
theorem passes_add {F : Type} [FloatOps F] (lvl : Nat) (m : PitmanYor F)
    (draw : List F → σ → Res (Nat × σ)) (rows : ι → R) (items : List ι) (a b : Nat)
    (st : Inference ι R S G V F) (s : σ) :
    st.passes lvl m draw rows items (a + b) s =
      (st.passes lvl m draw rows items a s).bind fun r =>
        r.1.passes lvl m draw rows items b r.2 := by
  induction a generalizing st s with
  | zero => simp only [Nat.zero_add, Inference.passes]; rfl
  | succ a ih =>
    rw [show a + 1 + b = (a + b) + 1 by omega]
    simp only [Inference.passes]
    cases hr : st.resampleAll lvl m draw rows items s with
    | ok r => exact ih r.1 r.2
    | fail => rfl
    | ub => rfl

/-- The event that the clustering is `C`. -/
theorem event_near (C : Finset (Finset ι)) {B : Set σ} (hB : MeasurableSet B)
    (st : Inference ι R S' G V (Single lib)) :
    (MeasurableSet {s' | clusters st.assignments = C ∧ s' ∈ B} ∧
      P.real {s' | clusters st.assignments = C ∧ s' ∈ B} ≤ P.real B) ∧
    P.real {s' | clusters st.assignments = C ∧ s' ∈ B} =
      (if clusters st.assignments = C then 1 else 0) * P.real B := by
  by_cases h : clusters st.assignments = C
  · simp [h, hB]
  · simp [h]

theorem stepError_nonneg (hr : 0 ≤ r) (ht : 0 ≤ t) (e K : ℕ) : 0 ≤ stepError N e K r t := by
  unfold stepError
  have : 0 ≤ scoreError e K := by unfold scoreError; positivity
  have : 1 ≤ Real.exp (2 * scoreError e K) := Real.one_le_exp (by linarith)
  have : 0 ≤ (N : ℝ) * t := by positivity
  linarith

/-- Passes from any state. -/
theorem passes_converge (hY : Y.Ok) (ht : 0 ≤ t) (hN : N ≤ 2 ^ 20)
    (hd : NearSoftmaxDraw N r t P draw) {A : Finset ι} {items : List ι}
    (hit : ∀ i, i ∈ items ↔ i ∈ A) :
    ∃ ε : ℝ, 0 < ε ∧ ε ≤ 1 ∧ ∀ (n k E : Nat) (st : Inference ι R S' G V (Single lib)),
      Y.Inv st k E → E + Fintype.card ι ≤ N → k + n * items.length ≤ 4294967296 →
      (∀ i, st.assignments i ≠ none ↔ i ∈ A) → ∀ j ≤ n, ∀ Q : Finpartition A,
      MeasurableSet {s | ∃ st' s',
          st.passes Y.X.lvl Y.model draw Y.X.rows items n s = .ok (st', s') ∧
          s' ∈ {s' | clusters st'.assignments = Q.parts ∧ s' ∈ Set.univ}} ∧
      |P.real {s | ∃ st' s',
          st.passes Y.X.lvl Y.model draw Y.X.rows items n s = .ok (st', s') ∧
          s' ∈ {s' | clusters st'.assignments = Q.parts ∧ s' ∈ Set.univ}} -
        posterior Y.X.model Y.X.feats Y.X.rows Q| ≤
        (1 - ε) ^ j + j * items.length * stepError N Y.err Y.feats.length r t := by
  obtain ⟨ε, h0, h1, hε⟩ := passMean_converges (W := Y.X.W true) (Y.X.W_pos true) (A := A) items
    (fun i hi => (hit i).mp hi) (fun i hi => (hit i).mpr hi)
  refine ⟨ε, h0, h1, ?_⟩
  intro n k E st hst hE hk hA j hj Q
  -- the last passes
  have hlast : ∀ (k : Nat) (st : Inference ι R S' G V (Single lib)), Y.Inv st k E →
      k + j * items.length ≤ 4294967296 → (∀ i, st.assignments i ≠ none ↔ i ∈ A) →
      MeasurableSet {s | ∃ st' s',
          st.passes Y.X.lvl Y.model draw Y.X.rows items j s = .ok (st', s') ∧
          s' ∈ {s' | clusters st'.assignments = Q.parts ∧ s' ∈ Set.univ}} ∧
      P.real {s | ∃ st' s',
          st.passes Y.X.lvl Y.model draw Y.X.rows items j s = .ok (st', s') ∧
          s' ∈ {s' | clusters st'.assignments = Q.parts ∧ s' ∈ Set.univ}} ≤ 1 ∧
      |P.real {s | ∃ st' s',
          st.passes Y.X.lvl Y.model draw Y.X.rows items j s = .ok (st', s') ∧
          s' ∈ {s' | clusters st'.assignments = Q.parts ∧ s' ∈ Set.univ}} -
        posterior Y.X.model Y.X.feats Y.X.rows Q| ≤
        (1 - ε) ^ j + j * items.length * stepError N Y.err Y.feats.length r t := by
    intro k st hst hk hA
    have hpt := clusters_parts st.assignments
    have hAe : (univ.filter fun i => st.assignments i ≠ none) = A := by ext i; simp [← hA]
    rw [hAe] at hpt
    have hL := hst.passes_law hY ht hN hd items j hE (fun i hi => (hA i).mpr ((hit i).mp hi)) hk
    obtain ⟨m1, m2, m3, -⟩ := hL.law
      (fun st' => {s' | clusters st'.assignments = Q.parts ∧ s' ∈ Set.univ}) (P.real Set.univ)
      (fun st' _ => (event_near Q.parts MeasurableSet.univ st').1)
    have m4 := m3 (fun C => if C = Q.parts then 1 else 0) 0 (by
      intro st' _
      rw [(event_near Q.parts MeasurableSet.univ st').2]
      simp)
    rw [probReal_univ, mul_one, mul_one, zero_add] at m4
    rw [probReal_univ] at m2
    refine ⟨m1, m2, ?_⟩
    have hp : |passMean (Y.X.W true) items j (fun C => if C = Q.parts then 1 else 0)
        (clusters st.assignments) - posterior Y.X.model Y.X.feats Y.X.rows Q| ≤ (1 - ε) ^ j := by
      rw [Ctx.posterior_eq hY.ok Q]
      exact hε j hpt.toFinpartition Q
    refine (abs_sub_le _ (passMean (Y.X.W true) items j (fun C => if C = Q.parts then 1 else 0)
        (clusters st.assignments)) _).trans ?_
    linarith
  -- the first passes
  have hsplit : n = (n - j) + j := by omega
  have hmul : n * items.length = (n - j) * items.length + j * items.length := by
    rw [← add_mul, ← hsplit]
  have hL := hst.passes_law hY ht hN hd items (n - j) hE
    (fun i hi => (hA i).mpr ((hit i).mp hi)) (by omega)
  have hset := event_bind (fun s => st.passes Y.X.lvl Y.model draw Y.X.rows items (n - j) s)
      (fun st1 s => st1.passes Y.X.lvl Y.model draw Y.X.rows items j s)
      (fun st' => {s' | clusters st'.assignments = Q.parts ∧ s' ∈ Set.univ})
  rw [hsplit]
  simp only [passes_add _ _ _ _ _ (n - j) j]
  rw [hset]
  have hin : ∀ st', (Y.Inv st' (k + (n - j) * items.length) E ∧
      ∀ j, st'.assignments j = none ↔ st.assignments j = none) → _ := fun st' q =>
    hlast (k + (n - j) * items.length) st' q.1 (by omega) (fun i => by
      rw [← hA i, not_iff_not]; exact q.2 i)
  obtain ⟨m1, -, -, m4⟩ := hL.law (fun st1 => {s | ∃ st' s',
      st1.passes Y.X.lvl Y.model draw Y.X.rows items j s = .ok (st', s') ∧
      s' ∈ {s' | clusters st'.assignments = Q.parts ∧ s' ∈ Set.univ}}) 1
    (fun st' q => ⟨(hin st' q).1, (hin st' q).2.1⟩)
  exact ⟨m1, m4 _ _ fun st' q => (hin st' q).2.2⟩

/-- A whole run: placing the items and then passes. -/
theorem run_near (hY : Y.Ok) (ht : 0 ≤ t) (hN : N ≤ 2 ^ 20)
    (hd : NearSoftmaxDraw N r t P draw) (scored : Bool) {n : Nat} (hn : 1 ≤ n)
    (hnN : n + Fintype.card ι ≤ N) (items : List ι) (hnd : items.Nodup) :
    ∃ ε : ℝ, 0 < ε ∧ ε ≤ 1 ∧ ∀ (c : Nat) (w : FullMixture R S' G V (Single lib)),
      (FullMixture.raw Y.feats).init Y.X.lvl Y.model n = .ok w →
      n + (c + 1) * items.length ≤ 4294967296 →
      (∀ s, ∃ st s', ((Inference.placeAll Y.X.lvl Y.model draw scored Y.X.rows items
          ⟨w, fun _ => none⟩ s).bind
        fun r => Inference.passes Y.X.lvl Y.model draw Y.X.rows items c r.1 r.2) = .ok (st, s')) ∧
      ∀ j ≤ c, ∀ Q : Finpartition items.toFinset,
      |P.real {s | ∃ st s', ((Inference.placeAll Y.X.lvl Y.model draw scored Y.X.rows items
          ⟨w, fun _ => none⟩ s).bind
        fun r => Inference.passes Y.X.lvl Y.model draw Y.X.rows items c r.1 r.2) = .ok (st, s') ∧
          clusters st.assignments = Q.parts} - posterior Y.X.model Y.X.feats Y.X.rows Q| ≤
        (1 - ε) ^ j + j * items.length * stepError N Y.err Y.feats.length r t := by
  obtain ⟨ε, h0, h1, hε⟩ := passes_converge hY ht hN hd (A := items.toFinset) (items := items)
    (fun i => by simp)
  refine ⟨ε, h0, h1, fun c w hw hk => ?_⟩
  have hk' : n + items.length + c * items.length ≤ 4294967296 := by
    rw [add_mul, one_mul] at hk; omega
  obtain ⟨w', hw', hinv⟩ := inv_init hY hn (by omega)
  rw [hw', Res.ok.injEq] at hw
  subst hw
  have hP := hinv.placeAll_law hY ht hN hd scored items hnd hnN (fun _ _ => rfl) (by omega)
  have hnone : ∀ st' : Inference ι R S' G V (Single lib), (∀ j, st'.assignments j = none ↔
      (none : Option Nat) = none ∧ j ∉ items) → ∀ i, st'.assignments i ≠ none ↔ i ∈ items.toFinset := by
    intro st' h i
    rw [Ne, h i]; simp
  constructor
  · have := (hP.bind (g := fun st1 s => st1.passes Y.X.lvl Y.model draw Y.X.rows items c s)
      (A' := fun C κ => passMean (Y.X.W true) items c κ C) (Q' := fun _ => True)
      (η' := c * items.length * stepError N Y.err Y.feats.length r t) (by
        rintro st1 ⟨q1, q2⟩
        exact (q1.passes_law hY ht hN hd items c hnN (fun i hi =>
          (hnone st1 q2 i).mpr (by simpa using hi)) hk').mono fun _ _ => trivial)).total
    intro s
    obtain ⟨st', s', e, -⟩ := this s
    exact ⟨st', s', e⟩
  · intro j hj Q
    have hset := event_bind (fun s => Inference.placeAll Y.X.lvl Y.model draw scored Y.X.rows items
          ⟨w', fun _ => none⟩ s)
      (fun st1 s => st1.passes Y.X.lvl Y.model draw Y.X.rows items c s)
      (fun st' => {s' | clusters st'.assignments = Q.parts ∧ s' ∈ Set.univ})
    have hin : ∀ st', (Y.Inv st' (n + items.length) n ∧
      ∀ j, st'.assignments j = none ↔ (none : Option Nat) = none ∧ j ∉ items) → _ := fun st' q =>
      hε c _ n st' q.1 hnN hk' (hnone st' q.2) j hj Q
    obtain ⟨-, -, -, m4⟩ := hP.law (fun st1 => {s | ∃ st' s',
      st1.passes Y.X.lvl Y.model draw Y.X.rows items c s = .ok (st', s') ∧
      s' ∈ {s' | clusters st'.assignments = Q.parts ∧ s' ∈ Set.univ}}) 1
      (fun st' q => ⟨(hin st' q).1, by rw [← probReal_univ (μ := P)]; exact measureReal_mono (Set.subset_univ _)⟩)
    have := m4 _ _ fun st' q => (hin st' q).2
    rw [← hset] at this
    simpa using this

end SCtx

end Dist
