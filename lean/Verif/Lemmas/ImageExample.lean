import Verif.Model.ImageExample
import Verif.Lemmas.RefSample
import Verif.Lemmas.GibbsDraw

/-! # Drawing pixels -/

namespace Dist

open Spec FloatOps FloatNotation MeasureTheory

variable {σ : Type} [MeasurableSpace σ]

namespace Dbg

/-- The states that give an index form a measurable set. -/
theorem attempts_meas (I : IdealRng σ) (l : List ℝ) (total : ℝ) (p : ℕ) {B : Set σ} (hB : MeasurableSet B)
    (n : ℕ) : MeasurableSet {s | ∃ s' ∈ B, attempts I.toRng (l.map XR.fin) (.fin total) n s = .ok (p, s')} := by
  induction n with
  | zero =>
    have : {s | ∃ s' ∈ B, attempts I.toRng (l.map XR.fin) (.fin total) 0 s = .ok (p, s')} = ∅ := by
      ext s; simp [attempts]
    rw [this]; exact MeasurableSet.empty
  | succ n ih =>
    let U : Set ℝ := (fun u => u * total) ⁻¹' {u | dartLoop (l.map XR.fin) 0 (.fin u) = some p}
    let N : Set ℝ := (fun u => u * total) ⁻¹' {u | dartLoop (l.map XR.fin) 0 (.fin u) = none}
    let A : Set σ := {s | ∃ s' ∈ B, attempts I.toRng (l.map XR.fin) (.fin total) n s = .ok (p, s')}
    have hU : MeasurableSet U := (measurable_id.mul_const total) (dartLoop_meas l 0 _)
    have hN : MeasurableSet N := (measurable_id.mul_const total) (dartLoop_meas l 0 _)
    have hset : {s | ∃ s' ∈ B, attempts I.toRng (l.map XR.fin) (.fin total) (n + 1) s = .ok (p, s')} =
        I.unif ⁻¹' (U ×ˢ B) ∪ I.unif ⁻¹' (N ×ˢ A) := by
      ext s
      simp only [Set.mem_setOf_eq, attempts, IdealRng.toRng, XR.fin_mul, Set.mem_union,
        Set.mem_preimage, Set.mem_prod, U, N, A]
      cases hd : dartLoop (l.map XR.fin) 0 (.fin ((I.unif s).1 * total)) with
      | none => simp
      | some j =>
        simp only [Res.ok.injEq, Prod.mk.injEq, Option.some.injEq, reduceCtorEq, false_and, or_false]
        constructor
        · rintro ⟨s', hs', rfl, rfl⟩; exact ⟨rfl, hs'⟩
        · rintro ⟨rfl, hs⟩; exact ⟨_, hs, rfl, rfl⟩
    rw [hset]
    exact (I.unif_meas (hU.prod hB)).union (I.unif_meas (hN.prod ih))

/-- The reference `sample_discrete` draws an index in proportion to its weight. -/
theorem sampleDiscrete_law (I : IdealRng σ) (p : List ℝ) (hp : ∀ x ∈ p, 0 ≤ x) (hs : 0 < p.sum)
    {i : ℕ} (hi : i < p.length) {B : Set σ} (hB : MeasurableSet B) :
    I.P {s | ∃ s' ∈ B, sampleDiscrete I.toRng s (p.map XR.fin) (.fin p.sum) = .ok (i, s')} =
      ENNReal.ofReal (p[i] / p.sum) * I.P B := by
  haveI := I.prob
  have e : I.P {s | ∃ s' ∈ B, sampleDiscrete I.toRng s (p.map XR.fin) (.fin p.sum) = .ok (i, s')} =
      I.P (I.unif ⁻¹' (Set.Ioc (cum p i / p.sum) (cum p (i + 1) / p.sum) ×ˢ B)) := by
    apply measure_congr
    filter_upwards [unif_pos_ae I] with s hu
    apply propext
    exact (sampleDiscrete_iff I p hp hs i B s hu).trans ⟨fun h => h.2, fun h => ⟨hi, h⟩⟩
  rw [e, ← Measure.map_apply I.unif_meas (measurableSet_Ioc.prod hB), I.unif_law, Measure.prod_prod,
    Measure.restrict_apply measurableSet_Ioc]
  congr 1
  have h0 : 0 ≤ cum p i / p.sum := div_nonneg (by
    have := cum_mono hp (Nat.zero_le i); rwa [cum_zero] at this) hs.le
  have h1 : cum p (i + 1) / p.sum ≤ 1 := by
    rw [div_le_one hs, ← cum_length]
    exact cum_mono hp hi
  have hle : volume (Set.Ioc (cum p i / p.sum) (cum p (i + 1) / p.sum) ∩ Set.Ico (0 : ℝ) 1) =
      volume (Set.Ioc (cum p i / p.sum) (cum p (i + 1) / p.sum)) := by
    apply measure_congr
    filter_upwards [Measure.ae_ne volume (1 : ℝ)] with x hx
    apply propext
    refine ⟨fun h => h.1, fun h => ⟨h, ?_⟩⟩
    obtain ⟨h2, h3⟩ := h
    exact ⟨(h0.trans_lt h2).le, lt_of_le_of_ne (h3.trans h1) hx⟩
  rw [hle, Real.volume_Ioc, cum_succ hi]
  congr 1
  ring

end Dbg

/-- Draws one after the other: if the states that give a value have a measure proportional to that of
the states left, so have those that give a list of values. -/
theorem sampleLoop_law {V α : Type} {P : Measure σ} {eval : σ → Res (V × σ)} (f : α → V) {k : α → ENNReal}
    (he : ∀ a B, MeasurableSet B → MeasurableSet {s | ∃ s' ∈ B, eval s = .ok (f a, s')} ∧
      P {s | ∃ s' ∈ B, eval s = .ok (f a, s')} = k a * P B) (as : List α)
    {B : Set σ} (hB : MeasurableSet B) :
    MeasurableSet {s | ∃ s' ∈ B, sampleLoop eval as.length s = .ok (as.map f, s')} ∧
      P {s | ∃ s' ∈ B, sampleLoop eval as.length s = .ok (as.map f, s')} = (as.map k).prod * P B := by
  induction as with
  | nil =>
    have : {s | ∃ s' ∈ B, sampleLoop eval ([] : List α).length s = .ok (([] : List α).map f, s')} = B := by
      ext s; simp [sampleLoop]
    rw [this]
    exact ⟨hB, by simp⟩
  | cons a as ih =>
    obtain ⟨h1, h2⟩ := ih
    have hset : {s | ∃ s' ∈ B, sampleLoop eval (a :: as).length s = .ok ((a :: as).map f, s')} =
        {s | ∃ s₁ ∈ {s₁ | ∃ s' ∈ B, sampleLoop eval as.length s₁ = .ok (as.map f, s')},
          eval s = .ok (f a, s₁)} := by
      ext s
      simp only [Set.mem_setOf_eq, List.length_cons, sampleLoop, Res.bind_eq_ok, Res.pure_eq, Res.ok.injEq,
        Prod.mk.injEq, Prod.exists, List.map_cons]
      constructor
      · rintro ⟨s', hs', v', s₁, h3, vs', s₂, h4, h5, rfl⟩
        obtain ⟨rfl, rfl⟩ := List.cons.inj h5
        exact ⟨s₁, ⟨_, hs', h4⟩, h3⟩
      · rintro ⟨s₁, ⟨s', hs', h4⟩, h3⟩
        exact ⟨s', hs', f a, s₁, h3, as.map f, s', h4, rfl, rfl⟩
    rw [hset]
    obtain ⟨h3, h4⟩ := he a _ h1
    refine ⟨h3, ?_⟩
    rw [h4, h2, List.map_cons, List.prod_cons, mul_assoc]

namespace Img

theorem minimum_fin {l : List ℝ} (hl : l ≠ []) :
    ∃ m, minimum (l.map XR.fin) = .ok (.fin m) ∧ m ∈ l ∧ ∀ x ∈ l, m ≤ x := by
  obtain ⟨a, l, rfl⟩ := List.exists_cons_of_ne_nil hl
  clear hl
  suffices H : ∀ (l : List ℝ) (a : ℝ), ∃ m, (l.map XR.fin).foldl (fun a b => if lt b a then b else a) (XR.fin a) =
      .fin m ∧ m ∈ a :: l ∧ ∀ x ∈ a :: l, m ≤ x by
    obtain ⟨m, h1, h2⟩ := H l a
    exact ⟨m, by rw [List.map_cons, minimum, h1], h2⟩
  intro l
  induction l with
  | nil => intro a; exact ⟨a, rfl, by simp, by simp⟩
  | cons b l ih =>
    intro a
    rw [List.map_cons, List.foldl_cons]
    by_cases hba : b < a
    · rw [if_pos (by rw [XR.lt_fin]; exact hba)]
      obtain ⟨m, h1, h2, h3⟩ := ih b
      refine ⟨m, h1, List.mem_cons_of_mem _ h2, fun x hx => ?_⟩
      rcases List.mem_cons.1 hx with rfl | hx
      · exact (h3 b (by simp)).trans hba.le
      · exact h3 x hx
    · rw [if_neg (by rw [XR.lt_fin]; exact hba)]
      obtain ⟨m, h1, h2, h3⟩ := ih a
      refine ⟨m, h1, ?_, fun x hx => ?_⟩
      · rcases List.mem_cons.1 h2 with rfl | h2
        · simp
        · simp [h2]
      · rcases List.mem_cons.1 hx with rfl | hx
        · exact h3 x (by simp)
        · rcases List.mem_cons.1 hx with rfl | hx
          · exact (h3 a (by simp)).trans (not_lt.1 hba)
          · exact h3 x (by simp [hx])

theorem maximum_fin {l : List ℝ} (hl : l ≠ []) :
    ∃ m, maximum (l.map XR.fin) = .ok (.fin m) ∧ m ∈ l ∧ ∀ x ∈ l, x ≤ m := by
  obtain ⟨a, l, rfl⟩ := List.exists_cons_of_ne_nil hl
  clear hl
  suffices H : ∀ (l : List ℝ) (a : ℝ), ∃ m, (l.map XR.fin).foldl (fun a b => if lt a b then b else a) (XR.fin a) =
      .fin m ∧ m ∈ a :: l ∧ ∀ x ∈ a :: l, x ≤ m by
    obtain ⟨m, h1, h2⟩ := H l a
    exact ⟨m, by rw [List.map_cons, maximum, h1], h2⟩
  intro l
  induction l with
  | nil => intro a; exact ⟨a, rfl, by simp, by simp⟩
  | cons b l ih =>
    intro a
    rw [List.map_cons, List.foldl_cons]
    by_cases hba : a < b
    · rw [if_pos (by rw [XR.lt_fin]; exact hba)]
      obtain ⟨m, h1, h2, h3⟩ := ih b
      refine ⟨m, h1, List.mem_cons_of_mem _ h2, fun x hx => ?_⟩
      rcases List.mem_cons.1 hx with rfl | hx
      · exact hba.le.trans (h3 b (by simp))
      · exact h3 x hx
    · rw [if_neg (by rw [XR.lt_fin]; exact hba)]
      obtain ⟨m, h1, h2, h3⟩ := ih a
      refine ⟨m, h1, ?_, fun x hx => ?_⟩
      · rcases List.mem_cons.1 h2 with rfl | h2
        · simp
        · simp [h2]
      · rcases List.mem_cons.1 hx with rfl | hx
        · exact h3 x (by simp)
        · rcases List.mem_cons.1 hx with rfl | hx
          · exact (not_lt.1 hba).trans (h3 a (by simp))
          · exact h3 x (by simp [hx])

theorem entries_fin {h w : ℕ} (im : Fin h → Fin w → ℝ) :
    entries (fun i j => XR.fin (im i j)) = (entries im).map XR.fin := by
  unfold entries
  rw [List.map_flatten, List.map_ofFn]
  congr 2
  funext i
  simp only [Function.comp, List.map_ofFn]
  rfl

theorem mem_entries {h w : ℕ} {α : Type} (im : Fin h → Fin w → α) (x : α) :
    x ∈ entries im ↔ ∃ i j, im i j = x := by
  unfold entries
  simp only [List.mem_flatten, List.mem_ofFn', Set.mem_range]
  constructor
  · rintro ⟨_, ⟨i, rfl⟩, hx⟩
    obtain ⟨j, hj⟩ := (List.mem_ofFn' _ _).1 hx
    exact ⟨i, j, hj⟩
  · rintro ⟨i, j, rfl⟩
    exact ⟨_, ⟨i, rfl⟩, (List.mem_ofFn' _ _).2 ⟨j, rfl⟩⟩

theorem forAll_ok {α : Type} (n : ℕ) (f : Fin n → Res α) (g : Fin n → α) (h : ∀ i, f i = .ok (g i)) :
    forAll n f = .ok g := by
  induction n with
  | zero => rw [forAll]; congr 1; funext i; exact i.elim0
  | succ n ih =>
    rw [forAll, h 0, Res.ok_bind, ih (fun i => f i.succ) (fun i => g i.succ) fun i => h i.succ, Res.ok_bind,
      Res.pure_eq, Res.ok.injEq]
    funext i
    refine Fin.cases ?_ (fun i => ?_) i <;> rfl

end Img

end Dist
