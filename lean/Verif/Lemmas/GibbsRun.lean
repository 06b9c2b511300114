import Verif.Lemmas.GibbsLaw
import Verif.Lemmas.GibbsChain
import Verif.Lemmas.PYScores

/-! # The law of the inference loops -/

namespace Dist

open Spec FloatOps FloatNotation Finset MeasureTheory PitmanYor

variable {ι R S G V σ : Type} [DecidableEq ι] [Fintype ι] [DecidableEq V] [MeasurableSpace σ]

/-! ### Loops -/

omit [DecidableEq ι] [Fintype ι] [DecidableEq V] [MeasurableSpace σ] in
theorem event_ok {F : Type} (st : Inference ι R S G V F) (Ev : Inference ι R S G V F → Set σ) :
    {s | ∃ st' s', (Res.ok (st, s) : Res (Inference ι R S G V F × σ)) = .ok (st', s') ∧
      s' ∈ Ev st'} = Ev st := by
  ext s
  simp only [Res.ok.injEq, Prod.mk.injEq, Set.mem_setOf_eq]
  constructor
  · rintro ⟨st', s', ⟨rfl, rfl⟩, h⟩; exact h
  · intro h; exact ⟨st, s, ⟨rfl, rfl⟩, h⟩

omit [DecidableEq ι] [Fintype ι] [DecidableEq V] [MeasurableSpace σ] in
theorem event_bind {F : Type} (f : σ → Res (Inference ι R S G V F × σ))
    (g : Inference ι R S G V F → σ → Res (Inference ι R S G V F × σ))
    (Ev : Inference ι R S G V F → Set σ) :
    {s | ∃ st' s', ((f s).bind fun r => g r.1 r.2) = .ok (st', s') ∧ s' ∈ Ev st'} =
    {s | ∃ st1 s1, f s = .ok (st1, s1) ∧
      s1 ∈ {s | ∃ st' s', g st1 s = .ok (st', s') ∧ s' ∈ Ev st'}} := by
  ext s
  simp only [Set.mem_setOf_eq]
  constructor
  · rintro ⟨st', s', h, h'⟩
    obtain ⟨r, hr, h⟩ := Res.bind_eq_ok.mp h
    exact ⟨r.1, r.2, hr, st', s', h, h'⟩
  · rintro ⟨st1, s1, h1, st', s', h, h'⟩
    exact ⟨st', s', by rw [h1]; exact h, h'⟩

namespace Ctx

variable {X : Ctx ι R S G V}

theorem Inv.resampleAll_bind (hX : X.Ok) {P : Measure σ} {draw : List XR → σ → Res (Nat × σ)}
    (hd : SoftmaxDraw P draw) (items : List ι) {st : Inference ι R S G V XR} {k : Nat}
    (h : X.Inv st k) (hit : ∀ i ∈ items, st.assignments i ≠ none)
    (hk : k + items.length ≤ 4294967296) (Ev : Inference ι R S G V XR → Set σ)
    (κ : Finset (Finset ι) → ℝ) (hκ : ∀ C, 0 ≤ κ C) (c : ENNReal)
    (hEv : ∀ st', X.Inv st' (k + items.length) →
      (∀ j, st'.assignments j = none ↔ st.assignments j = none) →
      MeasurableSet (Ev st') ∧ P (Ev st') = ENNReal.ofReal (κ (clusters st'.assignments)) * c) :
    MeasurableSet {s | ∃ st' s', st.resampleAll X.lvl X.model draw X.rows items s = .ok (st', s') ∧
      s' ∈ Ev st'} ∧
    P {s | ∃ st' s', st.resampleAll X.lvl X.model draw X.rows items s = .ok (st', s') ∧
      s' ∈ Ev st'} =
      ENNReal.ofReal (sweepMean (X.W true) items κ (clusters st.assignments)) * c := by
  induction items generalizing st k with
  | nil =>
    simp only [Inference.resampleAll]
    rw [event_ok]
    exact hEv st (h.mono (by simp)) fun _ => Iff.rfl
  | cons i is ih =>
    simp only [Inference.resampleAll]
    have he := event_bind (fun s => st.resample X.lvl X.model draw X.rows i s)
      (fun st1 s => st1.resampleAll X.lvl X.model draw X.rows is s) Ev
    have he' : {s | ∃ st' s', (do
        let (st, s) ← st.resample X.lvl X.model draw X.rows i s
        st.resampleAll X.lvl X.model draw X.rows is s) = Res.ok (st', s') ∧ s' ∈ Ev st'} = _ := he
    rw [he']
    rw [List.length_cons] at hk hEv
    refine h.resample_bind hX hd (hit i (by simp)) (by omega)
      (fun st1 => {s | ∃ st' s', st1.resampleAll X.lvl X.model draw X.rows is s = .ok (st', s') ∧
        s' ∈ Ev st'}) (sweepMean (X.W true) is κ) (sweepMean_nonneg (X.W_pos true) is hκ) c ?_
    intro st1 g h1 ha
    have hnone : ∀ j, st1.assignments j = none ↔ st.assignments j = none := by
      intro j
      rw [ha]
      unfold Inference.assign
      split_ifs with hj
      · subst hj
        have := hit j (by simp)
        simp [this]
      · rfl
    exact ih h1 (fun j hj h0 => hit j (by simp [hj]) ((hnone j).mp h0)) (by omega)
      fun st' h' hn => hEv st' (by rw [show k + (is.length + 1) = k + 1 + is.length by omega]; exact h')
        fun j => (hn j).trans (hnone j)

theorem Inv.passes_bind (hX : X.Ok) {P : Measure σ} {draw : List XR → σ → Res (Nat × σ)}
    (hd : SoftmaxDraw P draw) (items : List ι) (n : Nat) {st : Inference ι R S G V XR} {k : Nat}
    (h : X.Inv st k) (hit : ∀ i ∈ items, st.assignments i ≠ none)
    (hk : k + n * items.length ≤ 4294967296) (Ev : Inference ι R S G V XR → Set σ)
    (κ : Finset (Finset ι) → ℝ) (hκ : ∀ C, 0 ≤ κ C) (c : ENNReal)
    (hEv : ∀ st', X.Inv st' (k + n * items.length) →
      (∀ j, st'.assignments j = none ↔ st.assignments j = none) →
      MeasurableSet (Ev st') ∧ P (Ev st') = ENNReal.ofReal (κ (clusters st'.assignments)) * c) :
    MeasurableSet {s | ∃ st' s', st.passes X.lvl X.model draw X.rows items n s = .ok (st', s') ∧
      s' ∈ Ev st'} ∧
    P {s | ∃ st' s', st.passes X.lvl X.model draw X.rows items n s = .ok (st', s') ∧
      s' ∈ Ev st'} =
      ENNReal.ofReal (passMean (X.W true) items n κ (clusters st.assignments)) * c := by
  induction n generalizing st k with
  | zero =>
    simp only [Inference.passes]
    rw [event_ok]
    exact hEv st (h.mono (by simp)) fun _ => Iff.rfl
  | succ n ih =>
    simp only [Inference.passes]
    have he := event_bind (fun s => st.resampleAll X.lvl X.model draw X.rows items s)
      (fun st1 s => st1.passes X.lvl X.model draw X.rows items n s) Ev
    have he' : {s | ∃ st' s', (do
        let (st, s) ← st.resampleAll X.lvl X.model draw X.rows items s
        st.passes X.lvl X.model draw X.rows items n s) = Res.ok (st', s') ∧ s' ∈ Ev st'} = _ := he
    rw [he']
    have hl : k + (n + 1) * items.length = k + items.length + n * items.length := by ring
    rw [hl] at hk hEv
    refine h.resampleAll_bind hX hd items hit (by omega)
      (fun st1 => {s | ∃ st' s', st1.passes X.lvl X.model draw X.rows items n s = .ok (st', s') ∧
        s' ∈ Ev st'}) (passMean (X.W true) items n κ) (passMean_nonneg (X.W_pos true) items n hκ) c ?_
    intro st1 h1 hn1
    exact ih h1 (fun j hj h0 => hit j hj ((hn1 j).mp h0)) hk
      fun st' h' hn => hEv st' h' fun j => (hn j).trans (hn1 j)

theorem Inv.placeAll_bind (hX : X.Ok) {P : Measure σ} {draw : List XR → σ → Res (Nat × σ)}
    (hd : SoftmaxDraw P draw) (scored : Bool) (items : List ι) (hnd : items.Nodup)
    {st : Inference ι R S G V XR} {k : Nat}
    (h : X.Inv st k) (hit : ∀ i ∈ items, st.assignments i = none)
    (hk : k + items.length ≤ 4294967296) (Ev : Inference ι R S G V XR → Set σ)
    (κ : Finset (Finset ι) → ℝ) (hκ : ∀ C, 0 ≤ κ C) (c : ENNReal)
    (hEv : ∀ st', X.Inv st' (k + items.length) →
      (∀ j, st'.assignments j = none ↔ st.assignments j = none ∧ j ∉ items) →
      MeasurableSet (Ev st') ∧ P (Ev st') = ENNReal.ofReal (κ (clusters st'.assignments)) * c) :
    MeasurableSet {s | ∃ st' s',
      st.placeAll X.lvl X.model draw scored X.rows items s = .ok (st', s') ∧ s' ∈ Ev st'} ∧
    P {s | ∃ st' s', st.placeAll X.lvl X.model draw scored X.rows items s = .ok (st', s') ∧
      s' ∈ Ev st'} =
      ENNReal.ofReal (startMean (X.W scored) items κ (clusters st.assignments)) * c := by
  induction items generalizing st k with
  | nil =>
    simp only [Inference.placeAll]
    rw [event_ok]
    exact hEv st (h.mono (by simp)) fun _ => by simp
  | cons i is ih =>
    simp only [Inference.placeAll]
    have he := event_bind (fun s => st.place X.lvl X.model draw scored X.rows i s)
      (fun st1 s => st1.placeAll X.lvl X.model draw scored X.rows is s) Ev
    have he' : {s | ∃ st' s', (do
        let (st, s) ← st.place X.lvl X.model draw scored X.rows i s
        st.placeAll X.lvl X.model draw scored X.rows is s) = Res.ok (st', s') ∧ s' ∈ Ev st'} = _ := he
    rw [he']
    rw [List.length_cons] at hk hEv
    rw [List.nodup_cons] at hnd
    refine h.place_bind hX hd scored (hit i (by simp)) (by omega)
      (fun st1 => {s | ∃ st' s',
        st1.placeAll X.lvl X.model draw scored X.rows is s = .ok (st', s') ∧
        s' ∈ Ev st'}) (startMean (X.W scored) is κ) (startMean_nonneg (X.W_pos scored) is hκ) c ?_
    intro st1 g h1 ha
    have hnone : ∀ j, st1.assignments j = none ↔ st.assignments j = none ∧ j ≠ i := by
      intro j
      rw [ha]
      unfold Inference.assign
      split_ifs with hj
      · simp [hj]
      · simp [hj]
    refine ih hnd.2 h1 (fun j hj => (hnone j).mpr ⟨hit j (by simp [hj]), ?_⟩) (by omega)
      fun st' h' hn => hEv st' (by rw [show k + (is.length + 1) = k + 1 + is.length by omega]; exact h')
        fun j => ?_
    · rintro rfl; exact hnd.1 hj
    · rw [hn j, hnone j, List.mem_cons]; tauto

/-! ### The states -/

theorem reached_inv (hX : X.Ok) {st : Inference ι R S G V XR} {k : Nat}
    (h : Reached X.lvl X.model X.feats X.rows st k) (hk : k ≤ 4294967296) : X.Inv st k := by
  have hplace : ∀ {st st' : Inference ι R S G V XR} {k p : Nat} {i : ι} {scored : Bool},
      X.Inv st k → st.assignments i = none → k + 1 ≤ 4294967296 →
      st.place X.lvl X.model (fun _ s => .ok (p, s)) scored X.rows i () = .ok (st', ()) →
      X.Inv st' (k + 1) := by
    intro st st' k p i scored h hi hk he
    unfold Inference.place at he
    obtain ⟨sc, hsc, he⟩ := Res.bind_eq_ok.mp he
    simp only [Res.ok_bind] at he
    obtain ⟨w, hw, he⟩ := Res.bind_eq_ok.mp he
    obtain ⟨g, hg, he⟩ := Res.bind_eq_ok.mp he
    rw [Res.pure_eq, Res.ok.injEq, Prod.mk.injEq] at he
    obtain ⟨he, _⟩ := he
    subst he
    obtain ⟨s, ls, h, hs⟩ := h
    have hp : p < ls.length := by
      have hw' := hw
      unfold FullMixture.addValue PitmanYor.Cached.addValue Driver.addValue at hw'
      simp only [Res.bind_eq_ok] at hw'
      obtain ⟨_, ⟨_, ⟨_, _, _, _, old, hold, _⟩, _⟩, _⟩ := hw'
      rw [getAt_eq_ok, h.clus, PitmanYor.Cached.canon, Driver.ofSizes_counts] at hold
      simpa using (List.getElem?_eq_some_iff.mp hold).1
    obtain ⟨w', s', ls', h1, h2, h3, h4⟩ := h.add hX hi (List.getElem?_eq_getElem hp) (by omega)
    rw [h1, Res.ok.injEq] at hw
    subst hw
    rw [h2, Res.ok.injEq] at hg
    subst hg
    exact ⟨s', ls', h3, by omega⟩
  have htake : ∀ {st st' : Inference ι R S G V XR} {k : Nat} {i : ι},
      X.Inv st k → st.takeOut X.lvl X.model X.rows i = .ok st' →
      X.Inv st' k ∧ st'.assignments i = none := by
    intro st st' k i h he
    cases hi : st.assignments i with
    | none =>
      unfold Inference.takeOut Inference.lookup at he
      rw [hi] at he
      exact absurd he (by simp [bind, Res.bind])
    | some g =>
      obtain ⟨st1, h1, h2, h3⟩ := h.takeOut hX hi
      rw [h1, Res.ok.injEq] at he
      subst he
      exact ⟨h2, by rw [h3]; simp [Inference.assign]⟩
  induction h with
  | @init n w he =>
    have hn : 1 ≤ n := by
      by_contra hn
      unfold FullMixture.init at he
      rw [distAssert0_of_not hn] at he
      exact absurd he (by simp [bind, Res.bind])
    obtain ⟨w', h1, h2⟩ := inv_init hX hn hk
    rw [h1, Res.ok.injEq] at he
    subst he
    exact h2
  | place _ hi he ih => exact hplace (ih (by omega)) hi hk he
  | takeOut _ he ih => exact (htake (ih hk) he).1
  | @resample st k i p st' _ he ih =>
    have hinv := ih (by omega)
    cases hi : st.assignments i with
    | none =>
      unfold Inference.resample Inference.lookup at he
      rw [hi] at he
      exact absurd he (by simp [bind, Res.bind])
    | some g =>
      obtain ⟨st1, h1, h2, h3⟩ := hinv.takeOut hX hi
      rw [resample_eq h1] at he
      exact hplace h2 (by rw [h3]; simp [Inference.assign]) hk he

/-! ### Scores of the specification -/

theorem dataScore_eq (hX : X.Ok) {f : FeatureModel R S G V XR} (hf : f ∈ X.feats) (b : Finset ι) :
    dataScore f (b.val.map fun i => f.col (X.rows i)) = X.dat f (X.vals f b.val) := by
  have hs := hX.sound f hf
  have hle : X.vals f b.val ≤ X.vals f univ.val :=
    Multiset.map_le_map (val_le_iff.mpr (subset_univ b))
  have hlen : (X.vals f b.val).toList.length ≤ 2147483647 := by
    rw [Multiset.length_toList, vals, Multiset.card_map]
    exact (card_le_univ b).trans hX.card
  obtain ⟨g, h1, h2⟩ := addAll_summarises hs.summarises (X.vals f b.val).toList hlen
  rw [Multiset.coe_toList] at h2
  have h3 := hs.data g _ h2 hle
  unfold dataScore
  have h1' : addAll f.ops f.ops.init (b.val.map fun i => f.col (X.rows i)).toList = .ok g := h1
  rw [h1', Res.ok_bind, h3]
  rfl

omit [Fintype ι] [DecidableEq V] in
theorem scoreCounts_value {alpha d : ℝ} (ha : 0 < alpha) (h0 : 0 ≤ d) (h1 : d < 1)
    (counts : List Nat) :
    value (.ok ((⟨.fin alpha, .fin d⟩ : PitmanYor XR).scoreCounts counts)) =
      logEppf alpha d counts := by
  have := PitmanYor.scoreCounts_eq (alpha := alpha) (d := d) ⟨h0, h1, by linarith⟩ counts (.inl ha)
  have h2 : (⟨.fin alpha, .fin d⟩ : PitmanYor XR).scoreCounts counts =
    .fin (logEppf alpha d counts) := this
  rw [h2]; rfl

theorem logPosterior_eq (hX : X.Ok) (C : Finset (Finset ι)) :
    Real.exp (logPosterior X.model X.feats X.rows C) = X.W true C := by
  unfold W
  congr 1
  unfold logPosterior logWeight
  rw [scoreCounts_value hX.alpha hX.d0 hX.d1]
  congr 1
  apply sum_congr rfl
  intro b _
  unfold D
  congr 1
  apply List.map_congr_left
  intro f hf
  exact dataScore_eq hX hf b

theorem posterior_eq (hX : X.Ok) {A : Finset ι} (Q : Finpartition A) :
    posterior X.model X.feats X.rows Q =
      X.W true Q.parts / ∑ Q' : Finpartition A, X.W true Q'.parts := by
  unfold posterior
  rw [logPosterior_eq hX]
  congr 1
  exact sum_congr rfl fun Q' _ => logPosterior_eq hX _

theorem fullConditional_eq (hX : X.Ok) {A : Finset ι} {i : ι} (hi : i ∈ A) (P Q : Finpartition A) :
    fullConditional X.model X.feats X.rows i P Q =
      putMean (X.W true) i (fun C => if C = Q.parts then 1 else 0) (without i P.parts) := by
  have hD := (Parts.of_finpartition P).without i
  unfold putMean
  rw [← sum_fiber hi hD (X.W true)]
  have := sum_fiber hi hD (fun C => X.W true C /
    (∑ Q : Finpartition A with without i Q.parts = without i P.parts, X.W true Q.parts) *
      if C = Q.parts then 1 else 0)
  rw [← this]
  unfold fullConditional
  simp only [logPosterior_eq hX]
  by_cases h : without i Q.parts = without i P.parts
  · rw [if_pos h]
    symm
    rw [sum_eq_single Q]
    · rw [if_pos rfl, mul_one]
    · intro Q' _ hne
      rw [if_neg, mul_zero]
      intro he
      exact hne (Finpartition.ext he)
    · intro hn
      exact absurd (mem_filter.mpr ⟨mem_univ Q, h⟩) hn
  · rw [if_neg h]
    symm
    apply sum_eq_zero
    intro Q' hQ'
    rw [if_neg, mul_zero]
    intro he
    rw [mem_filter, he] at hQ'
    exact h hQ'.2

/-! ### Placing without data -/

theorem prior_total (hX : X.Ok) {A : Finset ι} {C : Finset (Finset ι)} (hC : Parts A C) {i : ι}
    (hi : i ∉ A) : ∑ b ∈ insert ∅ C, X.W false (Spec.put i b C) = X.W false C := by
  have hD := X.D_empty hX false
  have hN : (0 : ℝ) < ((∑ b ∈ C, b.card : ℕ) : ℝ) + X.alpha :=
    add_pos_of_nonneg_of_pos (Nat.cast_nonneg _) hX.alpha
  have hD0 : ∀ b, X.D (X.used false) b = 0 := by intro b; simp [D, used]
  have hterm : ∀ b ∈ insert ∅ C, X.W false (Spec.put i b C) = X.W false C *
      ((if b = ∅ then X.alpha + X.d * C.card else b.card - X.d) /
        (((∑ b ∈ C, b.card : ℕ) : ℝ) + X.alpha)) := by
    intro b hb
    have := logWeight_put hX.alpha hX.d0 hX.d1 (X.D (X.used false)) hD hC hi hb (E := 1) (by norm_num)
    rw [hD0, hD0] at this
    simp only [Nat.cast_one, ite_self, Real.log_one, sub_zero, add_zero] at this
    have h2 : logWeight X.alpha X.d (X.D (X.used false)) (Spec.put i b C) =
        logWeight X.alpha X.d (X.D (X.used false)) C +
          seatScore X.alpha X.d 1 C.card (∑ b ∈ C, b.card) b.card := by rw [this]; ring
    unfold W
    rw [h2, Real.exp_add]
    congr 1
    unfold seatScore
    rw [Real.exp_sub, Real.exp_log hN]
    congr 1
    by_cases hb0 : b = ∅
    · subst hb0
      rw [if_pos card_empty, if_pos rfl, Nat.cast_one, div_one, Real.exp_log]
      exact add_pos_of_pos_of_nonneg hX.alpha (mul_nonneg hX.d0 (Nat.cast_nonneg _))
    · have hc : b.card ≠ 0 := card_ne_zero.mpr (nonempty_iff_ne_empty.mpr hb0)
      rw [if_neg hc, if_neg hb0, Real.exp_log]
      have : (1 : ℝ) ≤ b.card := by exact_mod_cast Nat.one_le_iff_ne_zero.mpr hc
      linarith [hX.d1]
  rw [sum_congr rfl hterm, ← mul_sum, ← sum_div, sum_insert hC.empty]
  have hs : ∑ b ∈ C, (if b = ∅ then X.alpha + X.d * C.card else (b.card : ℝ) - X.d) =
      ((∑ b ∈ C, b.card : ℕ) : ℝ) - X.d * C.card := by
    rw [sum_congr rfl (g := fun b => (b.card : ℝ) - X.d), sum_sub_distrib, sum_const, nsmul_eq_mul,
      Nat.cast_sum, mul_comm]
    intro b hb
    rw [if_neg]
    rintro rfl
    exact hC.empty hb
  rw [hs, if_pos rfl]
  have : X.alpha + X.d * (C.card : ℝ) + (((∑ b ∈ C, b.card : ℕ) : ℝ) - X.d * C.card) =
      ((∑ b ∈ C, b.card : ℕ) : ℝ) + X.alpha := by ring
  rw [this, div_self hN.ne', mul_one]

/-- Take the items out in the reverse of the order they were placed. -/
def withoutAll (items : List ι) (Q : Finset (Finset ι)) : Finset (Finset ι) :=
  items.foldr without Q

omit [Fintype ι] in
theorem parts_withoutAll (items : List ι) {A : Finset ι} (hA : ∀ i ∈ items, i ∉ A)
    {Q : Finset (Finset ι)} (hQ : Parts (A ∪ items.toFinset) Q) : Parts A (withoutAll items Q) := by
  have : ∀ (items : List ι) {B : Finset ι}, Parts B Q →
      Parts (B \ items.toFinset) (withoutAll items Q) := by
    intro items
    induction items with
    | nil => intro B h; simpa [withoutAll] using h
    | cons i is ih =>
      intro B h
      have h1 := (ih h).without i
      have he : (B \ is.toFinset).erase i = B \ (i :: is).toFinset := by
        ext j; simp only [mem_erase, mem_sdiff, List.mem_toFinset, List.mem_cons]; tauto
      rw [he] at h1
      exact h1
  have h := this items hQ
  have he : (A ∪ items.toFinset) \ items.toFinset = A := by
    ext j
    simp only [mem_sdiff, mem_union, List.mem_toFinset]
    constructor
    · rintro ⟨h1 | h1, h2⟩
      · exact h1
      · exact absurd h1 h2
    · intro hj; exact ⟨.inl hj, fun h => hA j h hj⟩
  rw [he] at h
  exact h

theorem startMean_prior (hX : X.Ok) (items : List ι) (hnd : items.Nodup) {A : Finset ι}
    (hA : ∀ i ∈ items, i ∉ A) {C Q : Finset (Finset ι)} (hC : Parts A C)
    (hQ : Parts (A ∪ items.toFinset) Q) :
    startMean (X.W false) items (fun C' => if C' = Q then 1 else 0) C =
      if withoutAll items Q = C then X.W false Q / X.W false C else 0 := by
  induction items generalizing A C with
  | nil =>
    have e : withoutAll ([] : List ι) Q = Q := rfl
    rw [e]
    simp only [startMean]
    by_cases h : C = Q
    · rw [if_pos h, if_pos h.symm, h, div_self (X.W_pos _ _).ne']
    · rw [if_neg h, if_neg (Ne.symm h)]
  | cons i is ih =>
    rw [List.nodup_cons] at hnd
    have hi : i ∉ A := hA i (by simp)
    have hu : A ∪ (i :: is).toFinset = insert i A ∪ is.toFinset := by
      ext j; simp only [mem_union, List.mem_toFinset, List.mem_cons, mem_insert]; tauto
    rw [hu] at hQ
    have hA' : ∀ j ∈ is, j ∉ insert i A := by
      intro j hj
      rw [mem_insert, not_or]
      exact ⟨fun h => hnd.1 (h ▸ hj), hA j (by simp [hj])⟩
    have hR := parts_withoutAll is hA' hQ
    rw [startMean]
    rw [putMean_congr (X.W false) hi hC
      (κ' := fun C' => if withoutAll is Q = C' then X.W false Q / X.W false C' else 0)
      fun C' hC' => ih hnd.2 hA' hC' hQ]
    unfold putMean
    rw [prior_total hX hC hi]
    have hwc : withoutAll (i :: is) Q = without i (withoutAll is Q) := rfl
    rw [hwc]
    have hterm : ∀ b ∈ insert ∅ C, X.W false (Spec.put i b C) / X.W false C *
        (if withoutAll is Q = Spec.put i b C then X.W false Q / X.W false (Spec.put i b C) else 0) =
        if withoutAll is Q = Spec.put i b C then X.W false Q / X.W false C else 0 := by
      intro b _
      split_ifs
      · have := (X.W_pos false (Spec.put i b C)).ne'
        field_simp
      · rw [mul_zero]
    rw [sum_congr rfl hterm]
    by_cases h : without i (withoutAll is Q) = C
    · rw [if_pos h]
      obtain ⟨b, hb, hbe⟩ := hR.exists_put (mem_insert_self i A)
      rw [h] at hb hbe
      rw [sum_eq_single b]
      · rw [if_pos hbe.symm]
      · intro b' hb' hne
        rw [if_neg]
        intro he
        exact hne (hC.put_inj hi hb' hb (by rw [← he, hbe]))
      · intro hn; exact absurd hb hn
    · rw [if_neg h]
      apply sum_eq_zero
      intro b hb
      rw [if_neg]
      intro he
      apply h
      rw [he]
      exact hC.without_put hi hb

omit [DecidableEq V] [Fintype ι] in
theorem parts_empty {C : Finset (Finset ι)} (h : Parts ∅ C) : C = ∅ := by
  rw [eq_empty_iff_forall_notMem]
  intro b hb
  obtain ⟨j, hj⟩ := nonempty_iff_ne_empty.mpr fun h0 : b = ∅ => h.empty (h0 ▸ hb)
  exact absurd ((h.cover j).mpr ⟨b, hb, hj⟩) (notMem_empty j)

omit [DecidableEq V] in
theorem startMean_prior_empty [DecidableEq V] (hX : X.Ok) (items : List ι) (hnd : items.Nodup)
    (Q : Finpartition items.toFinset) :
    startMean (X.W false) items (fun C' => if C' = Q.parts then 1 else 0) ∅ =
      Real.exp (logEppf X.alpha X.d (Q.parts.toList.map card)) := by
  have hC : Parts (∅ : Finset ι) ∅ := ⟨by simp, by simp, by simp⟩
  have hQ : Parts (∅ ∪ items.toFinset) Q.parts := by
    rw [empty_union]; exact Parts.of_finpartition Q
  rw [startMean_prior hX items hnd (by simp) hC hQ, if_pos (parts_empty (parts_withoutAll items (by simp) hQ))]
  have h1 : X.W false ∅ = 1 := by
    unfold W logWeight
    rw [logEppf_finset _ _ (by simp)]
    simp [tableTerm, totalTerm]
  have h2 : X.W false Q.parts = Real.exp (logEppf X.alpha X.d (Q.parts.toList.map card)) := by
    unfold W logWeight
    simp [D, used]
  rw [h1, h2, div_one]

/-! ### Reaching every clustering -/

theorem Inv.place_to (hX : X.Ok) {st : Inference ι R S G V XR} {k : Nat} (h : X.Inv st k) {i : ι}
    (hi : st.assignments i = none) (hk : k + 1 ≤ 4294967296) {b : Finset ι}
    (hb : b ∈ insert ∅ (clusters st.assignments)) (scored : Bool) :
    ∃ p st' g, st.place X.lvl X.model (fun _ s => .ok (p, s)) scored X.rows i () = .ok (st', ()) ∧
      clusters st'.assignments = Spec.put i b (clusters st.assignments) ∧
      st'.assignments = Inference.assign st.assignments i (some g) := by
  obtain ⟨s0, ls, h, hk0⟩ := h
  obtain ⟨l, hl, _⟩ := h.scores hX hi scored
  have hex : ∃ x ∈ ls, x.2.toFinset = b := by
    by_contra hn
    push Not at hn
    have hs := h.sum_groups (F := fun b' => if b' = b then 1 else (0 : ℕ))
    rw [List.sum_eq_zero] at hs
    · rcases mem_insert.mp hb with rfl | hb
      · have := List.count_pos_iff.mpr h.base.empty
        simp only [if_true, smul_eq_mul, mul_one] at hs
        omega
      · rw [sum_ite_eq' (clusters st.assignments) b, if_pos hb] at hs
        omega
    · intro y hy
      obtain ⟨x, hx, rfl⟩ := List.mem_map.mp hy
      exact if_neg (hn x hx)
  obtain ⟨⟨g, M⟩, hx, rfl⟩ := hex
  obtain ⟨p, hp⟩ := List.mem_iff_getElem?.mp hx
  obtain ⟨w', s', ls', h1, h2, h3, h4⟩ := h.add hX hi hp (by omega)
  refine ⟨p, ⟨w', Inference.assign st.assignments i (some g)⟩, g, ?_, ?_, rfl⟩
  · unfold Inference.place
    rw [hl, Res.ok_bind]
    simp only [Res.ok_bind]
    rw [h1, Res.ok_bind, h2]
    rfl
  · simp only
    rw [clusters_assign hi]
    congr 1
    have hM : M = (univ.filter fun j => st.assignments j = some g).val := h.assign (g, M) hx
    simp only [hM, val_toFinset]

theorem reached_all (hX : X.Ok) {n : Nat} (hn : 1 ≤ n) (items : List ι) (hnd : items.Nodup)
    (hk : n + items.length ≤ 4294967296) {Q : Finset (Finset ι)} (hQ : Parts items.toFinset Q) :
    ∃ st, Reached X.lvl X.model X.feats X.rows st (n + items.length) ∧
      clusters st.assignments = Q ∧ ∀ j, st.assignments j = none ↔ j ∉ items := by
  induction items generalizing Q with
  | nil =>
    obtain ⟨w, h1, _⟩ := inv_init hX hn (by simpa using hk)
    refine ⟨⟨w, fun _ => none⟩, .init h1, ?_, by simp⟩
    have h0 : Q = ∅ := parts_empty (by simpa using hQ)
    rw [h0]
    simp [clusters]
  | cons i is ih =>
    rw [List.nodup_cons] at hnd
    rw [List.length_cons] at hk
    have hi : i ∈ (i :: is).toFinset := by simp
    have hQ' := hQ.without i
    have he : (i :: is).toFinset.erase i = is.toFinset := by
      rw [List.toFinset_cons, erase_insert]
      simpa using hnd.1
    rw [he] at hQ'
    obtain ⟨st, h1, h2, h3⟩ := ih hnd.2 (by omega) hQ'
    obtain ⟨b, hb, hbe⟩ := hQ.exists_put hi
    rw [← h2] at hb hbe
    have hi0 : st.assignments i = none := (h3 i).mpr hnd.1
    obtain ⟨p, st', g, h4, h5, h6⟩ :=
      (reached_inv hX h1 (by omega)).place_to hX hi0 (by omega) hb true
    refine ⟨st', .place h1 hi0 h4, by rw [h5, hbe], ?_⟩
    intro j
    rw [h6, List.mem_cons, not_or, ← h3 j]
    unfold Inference.assign
    split_ifs with hj <;> simp [hj]

/-! ### Events -/

omit [DecidableEq V] in
theorem event_measure (P : Measure σ) (Q : Finset (Finset ι)) {B : Set σ} (hB : MeasurableSet B)
    (st' : Inference ι R S G V XR) :
    MeasurableSet {s' | clusters st'.assignments = Q ∧ s' ∈ B} ∧
    P {s' | clusters st'.assignments = Q ∧ s' ∈ B} =
      ENNReal.ofReal ((fun C => if C = Q then 1 else 0) (clusters st'.assignments)) * P B := by
  by_cases h : clusters st'.assignments = Q
  · simp [h, hB]
  · simp [h]

end Ctx

omit [Fintype ι] in
theorem passMean_const {W : Finset (Finset ι) → ℝ} (hW : ∀ C, 0 < W C) (items : List ι) (n : Nat)
    (c : ℝ) (C : Finset (Finset ι)) : passMean W items n (fun _ => c) C = c := by
  induction n generalizing C with
  | zero => rfl
  | succ n ih =>
    rw [passMean]
    have : passMean W items n (fun _ => c) = fun _ => c := funext ih
    rw [this, sweepMean_const hW]

omit [Fintype ι] in
theorem startMean_const {W : Finset (Finset ι) → ℝ} (hW : ∀ C, 0 < W C) (items : List ι)
    (c : ℝ) (C : Finset (Finset ι)) : startMean W items (fun _ => c) C = c := by
  induction items generalizing C with
  | nil => rfl
  | cons i is ih =>
    rw [startMean]
    have : startMean W is (fun _ => c) = fun _ => c := funext ih
    rw [this, putMean_const hW]

/-! ### Whole runs -/

namespace Ctx

variable {X : Ctx ι R S G V}

theorem run_law (hX : X.Ok) {P : Measure σ} {draw : List XR → σ → Res (Nat × σ)}
    (hd : SoftmaxDraw P draw) (scored : Bool) {w : FullMixture R S G V XR} {n : Nat}
    (hw : (FullMixture.raw X.feats).init X.lvl X.model n = .ok w) (items : List ι)
    (hnd : items.Nodup) (c : Nat) (hk : n + (c + 1) * items.length ≤ 4294967296)
    (Ev : Inference ι R S G V XR → Set σ) (κ : Finset (Finset ι) → ℝ) (hκ : ∀ C, 0 ≤ κ C)
    (hEv : ∀ st', MeasurableSet (Ev st') ∧
      P (Ev st') = ENNReal.ofReal (κ (clusters st'.assignments)) * P Set.univ) :
    P {s | ∃ st' s', ((Inference.placeAll X.lvl X.model draw scored X.rows items
        ⟨w, fun _ => none⟩ s).bind fun r =>
          Inference.passes X.lvl X.model draw X.rows items c r.1 r.2) = .ok (st', s') ∧
        s' ∈ Ev st'} =
      ENNReal.ofReal (startMean (X.W scored) items (passMean (X.W true) items c κ) ∅) *
        P Set.univ := by
  have hk' : n + items.length + c * items.length ≤ 4294967296 := by
    have : (c + 1) * items.length = items.length + c * items.length := by ring
    omega
  have hinv : X.Inv ⟨w, fun _ => none⟩ n := reached_inv hX (.init hw) (by omega)
  rw [event_bind]
  have := (hinv.placeAll_bind hX hd scored items hnd (fun _ _ => rfl) (by omega)
    (fun st1 => {s | ∃ st' s', Inference.passes X.lvl X.model draw X.rows items c st1 s =
      .ok (st', s') ∧ s' ∈ Ev st'}) (passMean (X.W true) items c κ)
    (passMean_nonneg (X.W_pos true) items c hκ) (P Set.univ) ?_).2
  · have he : clusters (fun _ : ι => (none : Option Nat)) = ∅ := by simp [clusters]
    simp only [he] at this
    exact this
  · intro st1 h1 hn1
    refine h1.passes_bind hX hd items c (fun i hi h0 => ?_) hk' Ev κ hκ _ fun st' _ _ => hEv st'
    exact ((hn1 i).mp h0).2 hi

theorem run_converges (hX : X.Ok) {P : Measure σ} [IsProbabilityMeasure P]
    {draw : List XR → σ → Res (Nat × σ)}
    (hd : SoftmaxDraw P draw) (scored : Bool) {n : Nat} (hn : 1 ≤ n) (items : List ι)
    (hnd : items.Nodup) :
    ∃ ε : ℝ, 0 < ε ∧ ε ≤ 1 ∧ ∀ (c : Nat) (w : FullMixture R S G V XR),
      (FullMixture.raw X.feats).init X.lvl X.model n = .ok w →
      n + (c + 1) * items.length ≤ 4294967296 →
      P {s | ∃ st' s', ((Inference.placeAll X.lvl X.model draw scored X.rows items
        ⟨w, fun _ => none⟩ s).bind fun r =>
          Inference.passes X.lvl X.model draw X.rows items c r.1 r.2) = .ok (st', s')} = 1 ∧
      ∀ Q : Finpartition items.toFinset,
      |P.real {s | ∃ st' s', ((Inference.placeAll X.lvl X.model draw scored X.rows items
        ⟨w, fun _ => none⟩ s).bind fun r =>
          Inference.passes X.lvl X.model draw X.rows items c r.1 r.2) = .ok (st', s') ∧
        clusters st'.assignments = Q.parts} - posterior X.model X.feats X.rows Q| ≤ (1 - ε) ^ c := by
  obtain ⟨ε, h0, h1, hε⟩ := passMean_converges (W := X.W true) (X.W_pos true)
    (A := items.toFinset) items (fun i hi => by simpa using hi) (fun i hi => by simpa using hi)
  refine ⟨ε, h0, h1, ?_⟩
  intro c w hw hk
  constructor
  · have := run_law hX hd scored hw items hnd c hk (fun _ => Set.univ) (fun _ => 1)
      (fun _ => zero_le_one) (fun _ => by simp)
    have hp : passMean (X.W true) items c (fun _ => 1) = fun _ => 1 :=
      funext fun C => passMean_const (X.W_pos true) items c 1 C
    rw [hp, startMean_const (X.W_pos scored)] at this
    simpa using this
  · intro Q
    have := run_law hX hd scored hw items hnd c hk
      (fun st' => {s' | clusters st'.assignments = Q.parts ∧ s' ∈ Set.univ})
      (fun C => if C = Q.parts then 1 else 0) (fun C => by split_ifs <;> norm_num)
      (fun st' => event_measure P Q.parts MeasurableSet.univ st')
    simp only [Set.mem_univ, and_true, Set.mem_setOf_eq, measure_univ, mul_one] at this
    rw [Measure.real, this, ENNReal.toReal_ofReal (startMean_nonneg (X.W_pos scored) items
      (passMean_nonneg (X.W_pos true) items c (fun C => by split_ifs <;> norm_num)) _),
      posterior_eq hX]
    refine startMean_sub_le (X.W_pos scored) items (A := ∅) hnd (by simp)
      ⟨by simp, by simp, by simp⟩ ?_
    intro C' hC'
    rw [empty_union] at hC'
    exact hε c hC'.toFinpartition Q

end Ctx

end Dist
