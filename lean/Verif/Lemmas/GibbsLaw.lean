import Verif.Lemmas.GibbsScores
import Verif.Lemmas.GibbsDraw

/-! # The law of one draw of the inference loops -/

namespace Dist

open Spec FloatOps FloatNotation Finset MeasureTheory

variable {ι R S G V σ : Type} [DecidableEq ι] [Fintype ι] [DecidableEq V] [MeasurableSpace σ]

namespace Ctx

variable {X : Ctx ι R S G V}

/-- A state in which everything agrees and at most `k` groups have been created. -/
def Inv (X : Ctx ι R S G V) (st : Inference ι R S G V XR) (k : Nat) : Prop :=
  ∃ s ls, X.Coherent st.mixture st.assignments s ls ∧ s.created ≤ k

omit [DecidableEq V] in
theorem Inv.mono {st : Inference ι R S G V XR} {k k' : Nat} (h : X.Inv st k) (hk : k ≤ k') :
    X.Inv st k' := by
  obtain ⟨s, ls, h1, h2⟩ := h
  exact ⟨s, ls, h1, h2.trans hk⟩

theorem inv_init (hX : X.Ok) {n : Nat} (hn : 1 ≤ n) (hb : n ≤ 4294967296) :
    ∃ w, (FullMixture.raw X.feats).init X.lvl X.model n = .ok w ∧ X.Inv ⟨w, fun _ => none⟩ n := by
  obtain ⟨w, ls, h1, h2⟩ := coherent_init hX hn hb
  exact ⟨w, h1, _, ls, h2, le_refl n⟩

theorem Inv.takeOut (hX : X.Ok) {st : Inference ι R S G V XR} {k : Nat} (h : X.Inv st k) {i : ι}
    {g : Nat} (hi : st.assignments i = some g) :
    ∃ st', st.takeOut X.lvl X.model X.rows i = .ok st' ∧ X.Inv st' k ∧
      st'.assignments = Inference.assign st.assignments i none := by
  obtain ⟨s, ls, h, hk⟩ := h
  obtain ⟨p, w', s', ls', h1, h2, h3, h4⟩ := h.remove hX hi
  refine ⟨⟨w', Inference.assign st.assignments i none⟩, ?_, ⟨s', ls', h3, by omega⟩, rfl⟩
  have hl : st.lookup i = .ok g := by rw [Inference.lookup, hi]
  rw [Inference.takeOut, hl, Res.ok_bind, h1, Res.ok_bind, h2]
  rfl

omit [Fintype ι] [DecidableEq V] [MeasurableSpace σ] in
theorem resample_eq {F : Type} [FloatOps F] {lvl : Nat} {m : PitmanYor F}
    {draw : List F → σ → Res (Nat × σ)} {rows : ι → R} {st st1 : Inference ι R S G V F} {i : ι}
    (h : st.takeOut lvl m rows i = .ok st1) (s : σ) :
    st.resample lvl m draw rows i s = st1.place lvl m draw true rows i s := by
  unfold Inference.takeOut at h
  obtain ⟨g, hg, h⟩ := Res.bind_eq_ok.mp h
  obtain ⟨p, hp, h⟩ := Res.bind_eq_ok.mp h
  obtain ⟨w, hw, h⟩ := Res.bind_eq_ok.mp h
  rw [Res.pure_eq, Res.ok.injEq] at h
  subst h
  unfold Inference.resample Inference.place
  rw [hg, Res.ok_bind, hp, Res.ok_bind, hw, Res.ok_bind]
  have : ∀ x, Inference.assign (Inference.assign st.assignments i none) i x =
      Inference.assign st.assignments i x := by
    intro x; funext j; simp only [Inference.assign]; split_ifs <;> rfl
  simp only [this, if_true]

/-- The total weight of the ways to put item `i`. -/
noncomputable def Z (X : Ctx ι R S G V) (scored : Bool) (i : ι) (C : Finset (Finset ι)) : ℝ :=
  ∑ b ∈ insert ∅ C, X.W scored (put i b C)

omit [Fintype ι] [DecidableEq V] in
theorem Z_pos (X : Ctx ι R S G V) (scored : Bool) (i : ι) (C : Finset (Finset ι)) :
    0 < X.Z scored i C :=
  sum_pos (fun _ _ => X.W_pos _ _) ⟨∅, mem_insert_self _ _⟩

/-- The mean of `κ` after item `i` is put by weight. -/
noncomputable def placeK (X : Ctx ι R S G V) (scored : Bool) (i : ι)
    (κ : Finset (Finset ι) → ℝ) (C : Finset (Finset ι)) : ℝ :=
  ∑ b ∈ insert ∅ C, X.W scored (put i b C) / X.Z scored i C * κ (put i b C)

omit [Fintype ι] [DecidableEq V] in
theorem placeK_nonneg (X : Ctx ι R S G V) (scored : Bool) (i : ι) {κ : Finset (Finset ι) → ℝ}
    (hκ : ∀ C, 0 ≤ κ C) (C : Finset (Finset ι)) : 0 ≤ X.placeK scored i κ C :=
  sum_nonneg fun _ _ => mul_nonneg (div_nonneg (X.W_pos _ _).le (X.Z_pos _ _ _).le) (hκ _)

omit [MeasurableSpace σ] in
/-- Placing an item: the groups by position. -/
theorem Inv.place_at (hX : X.Ok) {draw : List XR → σ → Res (Nat × σ)} (scored : Bool)
    {st : Inference ι R S G V XR} {k : Nat} (h : X.Inv st k) {i : ι}
    (hi : st.assignments i = none) (hk : k + 1 ≤ 4294967296) :
    ∃ (ls : List (Nat × Multiset ι)) (l : List ℝ) (sts : Nat → Inference ι R S G V XR),
      (∀ (β : Type) [AddCommMonoid β] (F : Finset ι → β),
        (ls.map fun x => F x.2.toFinset).sum =
        (ls.map fun x => x.2.card).count 0 • F ∅ + ∑ b ∈ clusters st.assignments, F b) ∧
      0 < (ls.map fun x => x.2.card).count 0 ∧
      l = ls.map (fun x => logWeight X.alpha X.d (X.D (X.used scored))
          (put i x.2.toFinset (clusters st.assignments)) -
        logWeight X.alpha X.d (X.D (X.used scored)) (clusters st.assignments) -
        Real.log (if x.2.toFinset = ∅ then ((ls.map fun x => x.2.card).count 0 : ℕ) else 1)) ∧
      (∀ p x, ls[p]? = some x → X.Inv (sts p) (k + 1) ∧
        (sts p).assignments = Inference.assign st.assignments i (some x.1) ∧
        clusters (sts p).assignments = put i x.2.toFinset (clusters st.assignments)) ∧
      (∀ s, st.place X.lvl X.model draw scored X.rows i s =
        (draw (l.map XR.fin) s).bind fun r =>
          if r.1 < ls.length then .ok (sts r.1, r.2) else
            st.place X.lvl X.model draw scored X.rows i s) := by
  obtain ⟨s0, ls, h, hk0⟩ := h
  obtain ⟨l, hl, hl'⟩ := h.scores hX hi scored
  have hadd : ∀ p, ∃ st' : Inference ι R S G V XR, ∀ x, ls[p]? = some x →
      (∃ w', st.mixture.addValue X.lvl X.model p (X.rows i) = .ok w' ∧
      w'.tracker.packedToGlobalId X.lvl p = .ok x.1 ∧
      st' = ⟨w', Inference.assign st.assignments i (some x.1)⟩) ∧ X.Inv st' (k + 1) ∧
      clusters st'.assignments = put i x.2.toFinset (clusters st.assignments) := by
    intro p
    cases hp : ls[p]? with
    | none => exact ⟨st, by simp⟩
    | some x =>
      obtain ⟨g, M⟩ := x
      obtain ⟨w', s', ls', h1, h2, h3, h4⟩ := h.add hX hi hp (by omega)
      refine ⟨⟨w', Inference.assign st.assignments i (some g)⟩, ?_⟩
      intro x hx
      rw [Option.some.injEq] at hx
      subst hx
      refine ⟨⟨w', h1, h2, rfl⟩, ⟨s', ls', h3, by omega⟩, ?_⟩
      simp only
      rw [clusters_assign hi]
      congr 1
      have hM : M = (univ.filter fun j => st.assignments j = some g).val :=
        h.assign (g, M) (List.mem_of_getElem? hp)
      simp only [hM, val_toFinset]
  choose sts hsts using hadd
  refine ⟨ls, l, sts, fun β _ F => h.sum_groups F, List.count_pos_iff.mpr h.base.empty, hl', ?_, ?_⟩
  · intro p x hx
    obtain ⟨⟨w', h1, h2, h3⟩, h4, h5⟩ := hsts p x hx
    exact ⟨h4, by rw [h3], h5⟩
  · intro s
    have e : st.place X.lvl X.model draw scored X.rows i s =
        (draw (l.map XR.fin) s).bind fun r => (do
          let w ← st.mixture.addValue X.lvl X.model r.1 (X.rows i)
          let g ← w.tracker.packedToGlobalId X.lvl r.1
          return (⟨w, Inference.assign st.assignments i (some g)⟩, r.2)) := by
      unfold Inference.place
      rw [hl, Res.ok_bind]
      rfl
    cases hd : draw (l.map XR.fin) s with
    | ok r =>
      simp only [Res.bind]
      split_ifs with hr
      · rw [e, hd]
        simp only [Res.bind]
        obtain ⟨⟨w', h1, h2, h3⟩, _⟩ := hsts r.1 ls[r.1] (List.getElem?_eq_getElem hr)
        rw [h1, Res.ok_bind, h2, h3]
        rfl
      · rfl
    | fail => rw [e, hd]; rfl
    | ub => rw [e, hd]; rfl

/-- Placing an item and going on. -/
theorem Inv.place_bind (hX : X.Ok) {P : Measure σ} {draw : List XR → σ → Res (Nat × σ)}
    (hd : SoftmaxDraw P draw) (scored : Bool)
    {st : Inference ι R S G V XR} {k : Nat} (h : X.Inv st k) {i : ι}
    (hi : st.assignments i = none) (hk : k + 1 ≤ 4294967296)
    (Ev : Inference ι R S G V XR → Set σ) (κ : Finset (Finset ι) → ℝ) (hκ : ∀ C, 0 ≤ κ C)
    (c : ENNReal)
    (hEv : ∀ st' g, X.Inv st' (k + 1) → st'.assignments = Inference.assign st.assignments i (some g) →
      MeasurableSet (Ev st') ∧ P (Ev st') = ENNReal.ofReal (κ (clusters st'.assignments)) * c) :
    MeasurableSet {s | ∃ st' s', st.place X.lvl X.model draw scored X.rows i s = .ok (st', s') ∧
      s' ∈ Ev st'} ∧
    P {s | ∃ st' s', st.place X.lvl X.model draw scored X.rows i s = .ok (st', s') ∧
      s' ∈ Ev st'} =
      ENNReal.ofReal (X.placeK scored i κ (clusters st.assignments)) * c := by
  obtain ⟨ls, l, sts, hsum, hE, hl, hsts, hpl⟩ := h.place_at hX (draw := draw) scored hi hk
  have hlen : l.length = ls.length := by rw [hl, List.length_map]
  have hne : ls ≠ [] := by rintro rfl; simp at hE
  have hlne : l ≠ [] := by
    intro h0; rw [h0] at hlen; exact hne (List.length_eq_zero_iff.mp hlen.symm)
  obtain ⟨hlt, hlaw⟩ := hd l hlne
  have hset : {s | ∃ st' s', st.place X.lvl X.model draw scored X.rows i s = .ok (st', s') ∧
      s' ∈ Ev st'} =
      ⋃ p : Fin ls.length, {s | ∃ s' ∈ Ev (sts p), draw (l.map XR.fin) s = .ok (p.1, s')} := by
    ext s
    simp only [Set.mem_setOf_eq, Set.mem_iUnion]
    cases hds : draw (l.map XR.fin) s with
    | ok r =>
      obtain ⟨p, s'⟩ := r
      have hp := hlt s p s' hds
      have e := hpl s
      rw [hds] at e
      simp only [Res.bind, if_pos (hlen ▸ hp)] at e
      rw [e]
      simp only [Res.ok.injEq, Prod.mk.injEq]
      constructor
      · rintro ⟨st', s'', ⟨rfl, rfl⟩, h⟩
        exact ⟨⟨p, hlen ▸ hp⟩, s', h, rfl, rfl⟩
      · rintro ⟨q, s'', h, h1, h2⟩
        exact ⟨_, _, ⟨rfl, rfl⟩, by rw [h1, h2]; exact h⟩
    | fail =>
      have e := hpl s
      rw [hds] at e
      simp [e, Res.bind]
    | ub =>
      have e := hpl s
      rw [hds] at e
      simp [e, Res.bind]
  have hm : ∀ p : Fin ls.length, MeasurableSet (Ev (sts p)) ∧ P (Ev (sts p)) =
      ENNReal.ofReal (κ (put i ls[p].2.toFinset (clusters st.assignments))) * c := by
    intro p
    obtain ⟨h1, h2, h3⟩ := hsts p ls[p] (List.getElem?_eq_getElem p.2)
    have := hEv (sts p) _ h1 h2
    rw [h3] at this
    exact this
  have hpl' : ∀ p : Fin ls.length, p.1 < l.length := fun p => by rw [hlen]; exact p.2
  have hq : ∀ p : Fin ls.length, _ := fun p =>
    hlaw p.1 (hpl' p) (Ev (sts p)) (hm p).1
  rw [hset]
  refine ⟨MeasurableSet.iUnion fun p => (hq p).1, ?_⟩
  rw [measure_iUnion ?_ fun p => (hq p).1, tsum_fintype]
  · set C := clusters st.assignments with hC
    set E := (ls.map fun x => x.2.card).count 0 with hEdef
    have hE' : (0 : ℝ) < (E : ℝ) := by exact_mod_cast hE
    -- exponentials of the scores
    let F : Finset ι → ℝ := fun b => X.W scored (put i b C) / X.W scored C /
      (if b = ∅ then (E : ℝ) else 1)
    have hF0 : ∀ b, 0 ≤ F b := by
      intro b
      have : (0 : ℝ) ≤ if b = ∅ then (E : ℝ) else 1 := by split_ifs <;> linarith
      exact div_nonneg (div_nonneg (X.W_pos _ _).le (X.W_pos _ _).le) this
    have hexp : l.map Real.exp = ls.map fun x => F x.2.toFinset := by
      rw [hl, List.map_map]
      apply List.map_congr_left
      intro x _
      have : (0 : ℝ) < if x.2.toFinset = ∅ then (E : ℝ) else 1 := by
        split_ifs <;> linarith
      simp only [Function.comp, F, W]
      rw [Real.exp_sub, Real.exp_sub, Real.exp_log this]
    have hCe : ∅ ∉ C := (clusters_parts st.assignments).empty
    have htot : ∀ κ' : Finset (Finset ι) → ℝ,
        (ls.map fun x => F x.2.toFinset * κ' (put i x.2.toFinset C)).sum =
        (∑ b ∈ insert ∅ C, X.W scored (put i b C) * κ' (put i b C)) / X.W scored C := by
      intro κ'
      rw [hsum ℝ (fun b => F b * κ' (put i b C)), sum_insert hCe, add_div]
      congr 1
      · simp only [F, if_true, nsmul_eq_mul]
        rw [hEdef] at hE' ⊢
        field_simp
      · rw [sum_div]
        apply sum_congr rfl
        intro b hb
        have hb0 : b ≠ ∅ := by rintro rfl; exact hCe hb
        simp only [F, hb0, if_false, div_one]
        ring
    have htot1 : (l.map Real.exp).sum = X.Z scored i C / X.W scored C := by
      rw [hexp]
      have := htot fun _ => 1
      simp only [mul_one] at this
      exact this
    have hterm : ∀ p : Fin ls.length,
        P {s | ∃ s' ∈ Ev (sts p), draw (l.map XR.fin) s = .ok (p.1, s')} =
        ENNReal.ofReal (F ls[p].2.toFinset * κ (put i ls[p].2.toFinset C) /
          (X.Z scored i C / X.W scored C)) * c := by
      intro p
      rw [(hq p).2, (hm p).2, ← mul_assoc, ← ENNReal.ofReal_mul, htot1]
      · congr 2
        have : Real.exp l[p.1] = F ls[p].2.toFinset := by
          have h1 : (l.map Real.exp)[p.1]? = (ls.map fun x => F x.2.toFinset)[p.1]? := by rw [hexp]
          rw [List.getElem?_map, List.getElem?_map, List.getElem?_eq_getElem p.2,
            List.getElem?_eq_getElem (by omega)] at h1
          simpa using h1
        rw [this]; ring
      · exact div_nonneg (Real.exp_pos _).le (by
          rw [htot1]; exact div_nonneg (X.Z_pos _ _ _).le (X.W_pos _ _).le)
    rw [sum_congr rfl fun p _ => hterm p, ← sum_mul, ← ENNReal.ofReal_sum_of_nonneg]
    · congr 2
      rw [← sum_div]
      have : ∑ p : Fin ls.length, F ls[p].2.toFinset * κ (put i ls[p].2.toFinset C) =
          (ls.map fun x => F x.2.toFinset * κ (put i x.2.toFinset C)).sum :=
        Fin.sum_univ_fun_getElem ls fun x => F x.2.toFinset * κ (put i x.2.toFinset C)
      rw [this, htot]
      unfold placeK
      have hW := (X.W_pos scored C).ne'
      have hZ := (X.Z_pos scored i C).ne'
      rw [div_div_div_cancel_right₀ hW, sum_div]
      apply sum_congr rfl
      intro b _
      ring
    · intro p _
      exact div_nonneg (mul_nonneg (hF0 _) (hκ _))
        (div_nonneg (X.Z_pos _ _ _).le (X.W_pos _ _).le)
  · intro p q hpq
    rw [Function.onFun, Set.disjoint_left]
    rintro s ⟨s1, _, h1⟩ ⟨s2, _, h2⟩
    rw [h1, Res.ok.injEq, Prod.mk.injEq] at h2
    exact hpq (Fin.ext h2.1)

/-- Resampling an item and going on. -/
theorem Inv.resample_bind (hX : X.Ok) {P : Measure σ} {draw : List XR → σ → Res (Nat × σ)}
    (hd : SoftmaxDraw P draw)
    {st : Inference ι R S G V XR} {k : Nat} (h : X.Inv st k) {i : ι}
    (hi : st.assignments i ≠ none) (hk : k + 1 ≤ 4294967296)
    (Ev : Inference ι R S G V XR → Set σ) (κ : Finset (Finset ι) → ℝ) (hκ : ∀ C, 0 ≤ κ C)
    (c : ENNReal)
    (hEv : ∀ st' g, X.Inv st' (k + 1) → st'.assignments = Inference.assign st.assignments i (some g) →
      MeasurableSet (Ev st') ∧ P (Ev st') = ENNReal.ofReal (κ (clusters st'.assignments)) * c) :
    MeasurableSet {s | ∃ st' s', st.resample X.lvl X.model draw X.rows i s = .ok (st', s') ∧
      s' ∈ Ev st'} ∧
    P {s | ∃ st' s', st.resample X.lvl X.model draw X.rows i s = .ok (st', s') ∧ s' ∈ Ev st'} =
      ENNReal.ofReal (X.placeK true i κ (without i (clusters st.assignments))) * c := by
  obtain ⟨g, hg⟩ := Option.ne_none_iff_exists'.mp hi
  obtain ⟨st1, h1, h2, h3⟩ := h.takeOut hX hg
  have ha : ∀ x, Inference.assign st1.assignments i x = Inference.assign st.assignments i x := by
    intro x; rw [h3]; funext j; simp only [Inference.assign]; split_ifs <;> rfl
  have := h2.place_bind hX hd true (i := i) (by rw [h3]; simp [Inference.assign]) hk Ev κ hκ c
    (fun st' g' h4 h5 => hEv st' g' h4 (by rw [h5, ha]))
  simp only [resample_eq h1]
  rw [h3, clusters_unassign] at this
  exact this

end Ctx

end Dist
