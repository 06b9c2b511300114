import Verif.Lemmas.ImageExample
import Verif.Spec.Image
import Verif.Lemmas.IdealRngExists
import Verif.Props.Gibbs

/-!
# C90: the images of the example

`sample_from_image`, the counting loop of `visualize_dataset` and `synthesize_image` over exact reals.
-/

namespace Dist.Img

open Spec FloatOps FloatNotation MeasureTheory

variable {σ : Type} [MeasurableSpace σ] {h w : ℕ}

/-- The sample of a pixel. -/
noncomputable def sampleOf (h w : ℕ) (p : Fin h × Fin w) : XR × XR :=
  (.fin (coordinate h p.1), .fin (coordinate w p.2))

theorem scale_fin {n : ℕ} (hn : 2 ≤ n) : scale n = .ok (XR.fin (2 / ((n : ℝ) - 1))) := by
  have h1 : ((n : ℝ) - 1) ≠ 0 := by
    have : (2 : ℝ) ≤ n := by exact_mod_cast hn
    linarith
  rw [scale, if_neg (by omega), Res.ok.injEq, XR.lit_eq, XR.ofInt_eq, XR.fin_div _ _ (by push_cast; exact h1)]
  norm_num

theorem coord_fin {n : ℕ} (i : ℕ) :
    (ofInt (i : ℕ) : XR) * XR.fin (2 / ((n : ℝ) - 1)) - lit 1 1 = .fin (coordinate n i) := by
  rw [XR.ofInt_eq, XR.lit_eq, XR.fin_mul, XR.fin_sub]
  unfold coordinate
  congr 1
  push_cast
  ring

theorem coordinate_inj {n i j : ℕ} (hn : 2 ≤ n) (e : coordinate n i = coordinate n j) : i = j := by
  have h1 : (0 : ℝ) < (n : ℝ) - 1 := by
    have : (2 : ℝ) ≤ n := by exact_mod_cast hn
    linarith
  unfold coordinate at e
  have e : 2 * (i : ℝ) / (n - 1) = 2 * j / (n - 1) := by linarith
  rw [div_left_inj' h1.ne'] at e
  have : (i : ℝ) = j := by linarith
  exact_mod_cast this

theorem dark_nonneg (image : Fin h → Fin w → ℕ) (p : Fin h × Fin w) : 0 ≤ dark image p := by
  unfold dark
  have : image p.1 p.2 ≤ brightest image :=
    Finset.le_sup (f := fun p : Fin h × Fin w => image p.1 p.2) (Finset.mem_univ p)
  have : (image p.1 p.2 : ℝ) ≤ brightest image := by exact_mod_cast this
  linarith

theorem darkness_fin (image : Fin h → Fin w → ℕ) (hh : 0 < h) (hw : 0 < w) :
    darkness (F := XR) image = .ok fun i j => .fin (dark image (i, j)) := by
  have e : (fun (i : Fin h) (j : Fin w) => (lit (-1) 1 : XR) * ofInt (image i j)) =
      fun i j => XR.fin (-(image i j : ℝ)) := by
    funext i j
    rw [XR.lit_eq, XR.ofInt_eq, XR.fin_mul]
    congr 1; push_cast; ring
  have hne : entries (fun (i : Fin h) (j : Fin w) => -(image i j : ℝ)) ≠ [] := by
    intro h0
    have : -(image ⟨0, hh⟩ ⟨0, hw⟩ : ℝ) ∈ entries (fun (i : Fin h) (j : Fin w) => -(image i j : ℝ)) :=
      (mem_entries _ _).2 ⟨_, _, rfl⟩
    rw [h0] at this
    simp at this
  obtain ⟨m, h1, h2, h3⟩ := minimum_fin hne
  unfold darkness
  rw [e]
  simp only
  rw [entries_fin, h1, Res.ok_bind, Res.pure_eq, Res.ok.injEq]
  funext i j
  rw [XR.fin_sub]
  congr 1
  obtain ⟨i₀, j₀, h2⟩ := (mem_entries _ _).1 h2
  have hb : brightest image = image i₀ j₀ := by
    apply le_antisymm
    · apply Finset.sup_le
      intro p _
      have := h3 _ ((mem_entries _ _).2 ⟨p.1, p.2, rfl⟩)
      rw [← h2] at this
      have : (image p.1 p.2 : ℝ) ≤ image i₀ j₀ := by linarith
      exact_mod_cast this
    · exact Finset.le_sup (f := fun p : Fin h × Fin w => image p.1 p.2) (Finset.mem_univ (i₀, j₀))
  unfold dark
  rw [hb, ← h2]
  ring

theorem map_fin {n : ℕ} (f : Fin n → ℝ) : (List.ofFn fun i => XR.fin (f i)) = (List.ofFn f).map XR.fin := by
  rw [List.map_ofFn]; rfl

theorem yPmf_fin (row : Fin w → ℝ) (hr : ∀ j, 0 ≤ row j) :
    yPmf (fun j => XR.fin (row j)) =
      (List.ofFn fun j => row j / ((List.ofFn row).sum + 1 / 100000000)).map XR.fin := by
  have hs : 0 ≤ (List.ofFn row).sum := by rw [List.sum_ofFn]; exact Finset.sum_nonneg fun j _ => hr j
  unfold yPmf
  simp only
  rw [map_fin, Dbg.npSum_fin, XR.lit_eq, XR.fin_add, ← map_fin]
  congr 1
  funext j
  have e : (List.ofFn row).sum + ((1 : ℤ) : ℝ) / ((100000000 : ℕ) : ℝ) =
      (List.ofFn row).sum + 1 / 100000000 := by norm_num
  rw [e, XR.fin_div _ _ (by positivity)]

/-- **C90 (sampling).** `sample_from_image` yields every list of pixels with the product of the
probabilities that are proportional to their darkness, independently of what is drawn afterwards. -/
theorem C90_sample (I : IdealRng σ) (image : Fin h → Fin w → ℕ) (hh : 2 ≤ h) (hw : 2 ≤ w)
    (hne : ∃ p, dark image p ≠ 0) (ps : List (Fin h × Fin w)) {B : Set σ} (hB : MeasurableSet B) :
    I.P {s | ∃ s' ∈ B, sampleFromImage I.toRng image ps.length s = .ok (ps.map (sampleOf h w), s')} =
      ENNReal.ofReal (ps.map fun p => dark image p / ∑ q, dark image q).prod * I.P B := by
  set S : Fin h → ℝ := fun i => (List.ofFn fun j => dark image (i, j)).sum with hS
  have hS0 : ∀ i, 0 ≤ S i := fun i => by
    simp only [hS, List.sum_ofFn]; exact Finset.sum_nonneg fun j _ => dark_nonneg image _
  have hT : (List.ofFn S).sum = ∑ q, dark image q := by
    rw [List.sum_ofFn, Fintype.sum_prod_type]
    simp only [hS, List.sum_ofFn]
  have hT0 : 0 < (List.ofFn S).sum := by
    rw [hT]
    obtain ⟨p, hp⟩ := hne
    exact Finset.sum_pos' (fun q _ => dark_nonneg image q)
      ⟨p, Finset.mem_univ p, lt_of_le_of_ne (dark_nonneg image p) (Ne.symm hp)⟩
  set Y : Fin h → List ℝ := fun i => List.ofFn fun j => dark image (i, j) / (S i + 1 / 100000000) with hY
  have hYn : ∀ i, ∀ x ∈ Y i, 0 ≤ x := by
    intro i x hx
    obtain ⟨j, rfl⟩ := (List.mem_ofFn' _ _).1 hx
    exact div_nonneg (dark_nonneg image _) (by have := hS0 i; positivity)
  have hYs : ∀ i, (Y i).sum = S i / (S i + 1 / 100000000) := by
    intro i
    simp only [hY, hS, List.sum_ofFn, Finset.sum_div]
  let eval := samplePoint I.toRng ((List.ofFn S).map XR.fin) (List.ofFn fun i => (Y i).map XR.fin)
    (XR.fin (2 / ((h : ℝ) - 1))) (XR.fin (2 / ((w : ℝ) - 1)))
  have hrun : ∀ s, sampleFromImage I.toRng image ps.length s = sampleLoop eval ps.length s := by
    intro s
    unfold sampleFromImage
    rw [darkness_fin image (by omega) (by omega), Res.ok_bind]
    simp only
    rw [scale_fin hh, Res.ok_bind, scale_fin hw, Res.ok_bind]
    have e1 : (List.ofFn fun i => Dbg.npSum (List.ofFn fun j => XR.fin (dark image (i, j)))) =
        (List.ofFn S).map XR.fin := by
      rw [← map_fin]
      congr 1
      funext i
      rw [map_fin, Dbg.npSum_fin]
    have e2 : (List.ofFn fun i => yPmf fun j => XR.fin (dark image (i, j))) =
        List.ofFn fun i => (Y i).map XR.fin := by
      congr 1
      funext i
      exact yPmf_fin _ fun j => dark_nonneg image _
    rw [e1, e2]
  have hstep : ∀ p : Fin h × Fin w, ∀ B, MeasurableSet B →
      MeasurableSet {s | ∃ s' ∈ B, eval s = .ok (sampleOf h w p, s')} ∧
      I.P {s | ∃ s' ∈ B, eval s = .ok (sampleOf h w p, s')} =
        ENNReal.ofReal (dark image p / ∑ q, dark image q) * I.P B := by
    rintro ⟨i, j⟩ B hB
    let C : Set σ := {s₁ | ∃ s' ∈ B, Dbg.sampleDiscrete I.toRng s₁ ((Y i).map XR.fin) (.fin (Y i).sum) =
      .ok (j.val, s')}
    have hC : MeasurableSet C := Dbg.attempts_meas I (Y i) _ j.val hB 10
    have hset : {s | ∃ s' ∈ B, eval s = .ok (sampleOf h w (i, j), s')} =
        {s | ∃ s₁ ∈ C, Dbg.sampleDiscrete I.toRng s ((List.ofFn S).map XR.fin) (.fin (List.ofFn S).sum) =
          .ok (i.val, s₁)} := by
      ext s
      simp only [Set.mem_setOf_eq, eval, samplePoint, Dbg.npSum_fin, Res.bind_eq_ok, Prod.exists, C,
        Res.pure_eq, Res.ok.injEq, Prod.mk.injEq, coord_fin, sampleOf, XR.fin.injEq]
      have hrow : ∀ x : ℕ, getAt (List.ofFn fun i => (Y i).map XR.fin) x =
          if hx : x < h then .ok ((Y ⟨x, hx⟩).map XR.fin) else .ub := by
        intro x
        unfold getAt
        split_ifs with hx
        · rw [List.getElem?_ofFn, dif_pos hx]
        · rw [List.getElem?_ofFn, dif_neg hx]
      constructor
      · rintro ⟨s', hs', x, s₁, h1, row, h2, y, s₂, h3, ⟨h4, h5⟩, rfl⟩
        have hx := coordinate_inj hh h4
        have hy := coordinate_inj hw h5
        subst hx hy
        rw [hrow, dif_pos i.isLt, Res.ok.injEq] at h2
        rw [← h2, Dbg.npSum_fin] at h3
        exact ⟨s₁, ⟨_, hs', h3⟩, h1⟩
      · rintro ⟨s₁, ⟨s', hs', h3⟩, h1⟩
        refine ⟨s', hs', i, s₁, h1, (Y i).map XR.fin, ?_, j, s', ?_, ⟨rfl, rfl⟩, rfl⟩
        · rw [hrow, dif_pos i.isLt]
        · rw [Dbg.npSum_fin]; exact h3
    rw [hset]
    refine ⟨Dbg.attempts_meas I (List.ofFn S) _ i.val hC 10, ?_⟩
    rw [Dbg.sampleDiscrete_law I (List.ofFn S) (fun x hx => by
      obtain ⟨k, rfl⟩ := (List.mem_ofFn' _ _).1 hx
      exact hS0 k) hT0 (by simp) hC]
    rw [List.getElem_ofFn, hT]
    rcases eq_or_lt_of_le (hS0 i) with h0 | h0
    · have hd : dark image (i, j) = 0 := by
        have h0 : ∑ j, dark image (i, j) = 0 := by
          rw [← List.sum_ofFn]; exact h0.symm
        exact (Finset.sum_eq_zero_iff_of_nonneg fun j _ => dark_nonneg image _).1 h0 j (Finset.mem_univ j)
      show ENNReal.ofReal (S i / _) * _ = _
      rw [← h0, hd]
      simp
    · have hYp : 0 < (Y i).sum := by rw [hYs]; positivity
      have := Dbg.sampleDiscrete_law I (Y i) (hYn i) hYp (i := j.val) (by simp [hY]) hB
      show ENNReal.ofReal (S i / _) * I.P C = _
      rw [this, ← mul_assoc, ← ENNReal.ofReal_mul (div_nonneg h0.le (by rw [← hT]; exact hT0.le)), hYs]
      congr 2
      have e : (Y i)[j.val]'(by simp [hY]) = dark image (i, j) / (S i + 1 / 100000000) := by
        simp [hY]
      rw [e]
      have h1 : (0 : ℝ) < S i + 1 / 100000000 := by positivity
      rw [hT] at hT0
      field_simp
  have hl := (sampleLoop_law (P := I.P) (sampleOf h w)
    (k := fun p => ENNReal.ofReal (dark image p / ∑ q, dark image q)) hstep ps hB).2
  simp only [hrun]
  rw [hl]
  congr 1
  have hn : 0 ≤ ∑ q, dark image q := Finset.sum_nonneg fun q _ => dark_nonneg image q
  clear hl hrun
  induction ps with
  | nil => simp
  | cons p ps ih =>
    rw [List.map_cons, List.prod_cons, List.map_cons, List.prod_cons, ENNReal.ofReal_mul
      (div_nonneg (dark_nonneg image p) hn), ih]

/-- The coordinates run from `-1` to `1`, both included. -/
theorem C90_coordinates {n : ℕ} (hn : 2 ≤ n) : coordinate n 0 = -1 ∧ coordinate n (n - 1) = 1 ∧
    ∀ i < n, -1 ≤ coordinate n i ∧ coordinate n i ≤ 1 := by
  have h1 : (0 : ℝ) < (n : ℝ) - 1 := by
    have : (2 : ℝ) ≤ n := by exact_mod_cast hn
    linarith
  refine ⟨by simp [coordinate], ?_, fun i hi => ?_⟩
  · unfold coordinate
    rw [Nat.cast_sub (by omega), Nat.cast_one, mul_div_assoc, div_self h1.ne']
    norm_num
  · have hi' : (i : ℝ) ≤ (n : ℝ) - 1 := by
      have : ((i + 1 : ℕ) : ℝ) ≤ n := by exact_mod_cast hi
      push_cast at this
      linarith
    unfold coordinate
    have h2 : 0 ≤ 2 * (i : ℝ) / (n - 1) := by positivity
    have h3 : 2 * (i : ℝ) / (n - 1) ≤ 2 := by rw [div_le_iff₀ h1]; linarith
    constructor <;> linarith

omit [MeasurableSpace σ] in
/-- **C90 (a blank image).** On an image of one colour nothing is darker than anything else, and every
sample is the first pixel, whatever is drawn. -/
theorem C90_blank (rng : Rng XR σ) (hu : ∀ s, ∃ u, (rng.unif01 s).1 = .fin u) (c : ℕ) (hh : 2 ≤ h)
    (hw : 2 ≤ w) (n : ℕ) (s : σ) :
    ∃ s', sampleFromImage rng (fun (_ : Fin h) (_ : Fin w) => c) n s =
      .ok (List.replicate n (.fin (-1), .fin (-1)), s') := by
  have hd : ∀ p, dark (fun (_ : Fin h) (_ : Fin w) => c) p = 0 := by
    intro p
    have : brightest (fun (_ : Fin h) (_ : Fin w) => c) = c := by
      unfold brightest
      exact Finset.sup_const ⟨p, Finset.mem_univ p⟩ c
    rw [dark, this, sub_self]
  have hdraw : ∀ (l : List ℝ), l ≠ [] → (∀ x ∈ l, x = 0) → ∀ s,
      Dbg.sampleDiscrete rng s (l.map XR.fin) (Dbg.npSum (l.map XR.fin)) = .ok (0, (rng.unif01 s).2) := by
    intro l hl h0 s
    have hsum : l.sum = 0 := List.sum_eq_zero h0
    obtain ⟨u, hu⟩ := hu s
    obtain ⟨x, l, rfl⟩ := List.exists_cons_of_ne_nil hl
    rw [Dbg.npSum_fin, hsum, Dbg.sampleDiscrete, Dbg.attempts]
    have hx : x = 0 := h0 x (by simp)
    subst hx
    simp only [hu, XR.fin_mul, mul_zero, List.map_cons, Dbg.dartLoop, XR.fin_sub, sub_zero, XR.ofInt_eq,
      Int.cast_zero]
    rw [if_pos (by rw [XR.le_fin])]
  unfold sampleFromImage
  rw [darkness_fin _ (by omega) (by omega), Res.ok_bind]
  simp only
  rw [scale_fin hh, Res.ok_bind, scale_fin hw, Res.ok_bind]
  simp only [hd]
  have e1 : (List.ofFn fun _ : Fin h => Dbg.npSum (List.ofFn fun _ : Fin w => XR.fin 0)) =
      (List.replicate h (0 : ℝ)).map XR.fin := by
    have : (List.ofFn fun _ : Fin w => XR.fin 0) = (List.replicate w (0 : ℝ)).map XR.fin := by
      rw [List.ofFn_const, List.map_replicate]
    rw [this, Dbg.npSum_fin, List.ofFn_const, List.map_replicate, List.sum_replicate]
    simp
  have e2 : yPmf (fun _ : Fin w => XR.fin 0) = (List.replicate w (0 : ℝ)).map XR.fin := by
    rw [yPmf_fin _ fun _ => le_refl _]
    simp only [zero_div, List.ofFn_const]
  rw [e1, e2]
  have step : ∀ s, ∃ s', samplePoint rng ((List.replicate h (0 : ℝ)).map XR.fin)
      (List.ofFn fun _ : Fin h => (List.replicate w (0 : ℝ)).map XR.fin) (XR.fin (2 / ((h : ℝ) - 1)))
      (XR.fin (2 / ((w : ℝ) - 1))) s = .ok ((.fin (-1), .fin (-1)), s') := by
    intro s
    have hz : ∀ n, 2 ≤ n → List.replicate n (0 : ℝ) ≠ [] := by
      intro n hn h0
      have := congrArg List.length h0
      simp at this
      omega
    have hc : ∀ n, coordinate n 0 = -1 := fun n => by simp [coordinate]
    refine ⟨(rng.unif01 (rng.unif01 s).2).2, ?_⟩
    unfold samplePoint
    rw [hdraw _ (hz h hh) (fun x hx => (List.mem_replicate.1 hx).2), Res.ok_bind]
    simp only
    have hg : getAt (List.ofFn fun _ : Fin h => (List.replicate w (0 : ℝ)).map XR.fin) 0 =
        .ok ((List.replicate w (0 : ℝ)).map XR.fin) := by
      unfold getAt
      rw [List.getElem?_ofFn, dif_pos (by omega)]
    rw [hg, Res.ok_bind, hdraw _ (hz w hw) (fun x hx => (List.mem_replicate.1 hx).2), Res.ok_bind]
    simp only [coord_fin, hc, Res.pure_eq]
  induction n generalizing s with
  | zero => exact ⟨s, rfl⟩
  | succ n ih =>
    obtain ⟨s₁, h1⟩ := step s
    obtain ⟨s₂, h2⟩ := ih s₁
    refine ⟨s₂, ?_⟩
    rw [sampleLoop, h1, Res.ok_bind]
    simp only
    rw [h2, Res.ok_bind]
    simp only [Res.pure_eq, List.replicate_succ]

theorem axis_ok {n : ℕ} (i : Fin n) : axis n (i.val : ℤ) = .ok i := by
  unfold axis
  rw [dif_pos ⟨by omega, by exact_mod_cast i.isLt⟩]
  congr 1

omit [MeasurableSpace σ] in
/-- **C90 (the picture of the samples).** `visualize_dataset` finds the pixel of every sample again: it
counts how often each pixel was drawn. -/
theorem C90_tally (round : XR → ℤ) (hround : ∀ z : ℤ, round (.fin z) = z) (hh : 2 ≤ h) (hw : 2 ≤ w)
    (ps : List (Fin h × Fin w)) :
    tally round (ps.map (sampleOf h w)) (fun _ _ => 0) = .ok fun i j => ps.count (i, j) := by
  have inv : ∀ {n : ℕ}, 2 ≤ n → ∀ i : ℕ, (XR.fin (coordinate n i) + lit 1 1) / XR.fin (2 / ((n : ℝ) - 1)) =
      .fin ((i : ℤ) : ℝ) := by
    intro n hn i
    have h1 : (0 : ℝ) < (n : ℝ) - 1 := by
      have : (2 : ℝ) ≤ n := by exact_mod_cast hn
      linarith
    rw [XR.lit_eq, XR.fin_add, XR.fin_div _ _ (by positivity)]
    congr 1
    unfold coordinate
    push_cast
    field_simp
    ring
  have gen : ∀ (ps : List (Fin h × Fin w)) (im : Fin h → Fin w → ℕ),
      tally round (ps.map (sampleOf h w)) im = .ok fun i j => im i j + ps.count (i, j) := by
    intro ps
    induction ps with
    | nil => intro im; rfl
    | cons p ps ih =>
      intro im
      rw [List.map_cons]
      unfold sampleOf tally
      rw [scale_fin hh, Res.ok_bind, scale_fin hw, Res.ok_bind, inv hh, hround, inv hw, hround, axis_ok,
        Res.ok_bind, axis_ok, Res.ok_bind]
      refine (ih _).trans ?_
      rw [Res.ok.injEq]
      funext i j
      rw [List.count_cons]
      by_cases hp : i = p.1 ∧ j = p.2
      · rw [if_pos hp, if_pos (by rw [hp.1, hp.2]; simp)]
        ring
      · rw [if_neg hp, if_neg (by
          intro hq
          rw [beq_iff_eq] at hq
          exact hp ⟨by rw [hq], by rw [hq]⟩), add_zero]
  rw [gen]
  simp

section synthesis

open Finset

variable {ι R S G V : Type} [DecidableEq ι] [Fintype ι] {lvl : Nat} {alpha d : ℝ}

/-- How much more likely the data are with item `i` than without it, given the clustering of the others:
the sum over all clusterings that agree with `C` on the others. -/
noncomputable def predictive (m : PitmanYor XR) (fs : List (FeatureModel R S G V XR)) (rows : ι → R)
    (C : Finset (Finset ι)) (i : ι) : ℝ :=
  (∑ b ∈ insert ∅ C, Real.exp (logPosterior m fs rows (put i b C))) / Real.exp (logPosterior m fs rows C)

variable (ha : 0 < alpha) (hd0 : 0 ≤ d) (hd1 : d < 1) {rows : ι → R}
  {fs : List (FeatureModel R S G V XR)} (hf : LibraryFeatures lvl rows fs)
  (hcard : Fintype.card ι ≤ 2147483647)

include ha hd0 hd1 hf hcard

/-- **C90 (density).** In every state of the inference loops, the sum of the exponentials of the scores
of an item that is not placed is its predictive density given the items that are. -/
theorem C90_density {st : Inference ι R S G V XR} {k : Nat}
    (hst : Reached lvl ⟨.fin alpha, .fin d⟩ fs rows st k) (hk : k ≤ 4294967296) {i : ι}
    (hi : st.assignments i = none) :
    density lvl ⟨.fin alpha, .fin d⟩ st.mixture (rows i) =
      .ok (.fin (predictive ⟨.fin alpha, .fin d⟩ fs rows (clusters st.assignments) i)) := by
  obtain ⟨_, Sm, Coh, dat, hs⟩ := library_sound hf hcard
  let X : Ctx ι R S G V := ⟨lvl, alpha, d, rows, fs, Sm, Coh, dat⟩
  have hX : X.Ok := ⟨ha, hd0, hd1, hcard, hs⟩
  obtain ⟨s, ls, hco, -⟩ : X.Inv st k := Ctx.reached_inv hX hst hk
  obtain ⟨l, h1, h2⟩ := hco.scores hX hi true
  rw [if_pos rfl] at h1
  have h1 : st.mixture.scoreValue lvl ⟨.fin alpha, .fin d⟩ (rows i) = .ok (l.map .fin) := h1
  unfold density
  rw [h1, Res.ok_bind, Res.pure_eq]
  have e : (l.map XR.fin).map FloatOps.exp = (l.map Real.exp).map XR.fin := by
    rw [List.map_map, List.map_map]
    apply List.map_congr_left
    intro x _
    exact XR.exp_fin x
  rw [e, Dbg.npSum_fin, Res.ok.injEq]
  congr 1
  set C := clusters st.assignments with hC
  set E := (ls.map fun x => x.2.card).count 0 with hEdef
  have hE : 0 < E := List.count_pos_iff.mpr hco.base.empty
  have hE' : (0 : ℝ) < (E : ℝ) := by exact_mod_cast hE
  let F : Finset ι → ℝ := fun b => X.W true (put i b C) / X.W true C / (if b = ∅ then (E : ℝ) else 1)
  have hexp : l.map Real.exp = ls.map fun x => F x.2.toFinset := by
    rw [h2, List.map_map]
    apply List.map_congr_left
    intro x _
    have : (0 : ℝ) < if x.2.toFinset = ∅ then (E : ℝ) else 1 := by
      split_ifs <;> linarith
    simp only [Function.comp, F, Ctx.W]
    rw [Real.exp_sub, Real.exp_sub, Real.exp_log this]
  have hCe : ∅ ∉ C := (clusters_parts st.assignments).empty
  rw [hexp, hco.sum_groups, ← hEdef, ← hC]
  unfold predictive
  have hW : ∀ C, Real.exp (logPosterior ⟨.fin alpha, .fin d⟩ fs rows C) = X.W true C :=
    fun C => Ctx.logPosterior_eq hX C
  simp only [hW]
  rw [sum_insert hCe, add_div]
  congr 1
  · simp only [F, if_true, nsmul_eq_mul]
    field_simp
  · rw [sum_div]
    apply sum_congr rfl
    intro b hb
    have hb0 : b ≠ ∅ := by rintro rfl; exact hCe hb
    simp only [F, hb0, if_false, div_one]

/-- **C90 (synthesis).** `synthesize_image` paints a pixel at the shade `255 (1 - p / max p)`, where `p` is
the predictive density of its place: between 0 and 255, and 0 exactly where the density is largest. -/
theorem C90_synthesis {st : Inference ι R S G V XR} {k : Nat}
    (hst : Reached lvl ⟨.fin alpha, .fin d⟩ fs rows st k) (hk : k ≤ 4294967296) {h w : ℕ} (hh : 2 ≤ h)
    (hw : 2 ≤ w) (row : XR × XR → R) (item : Fin h → Fin w → ι)
    (hi : ∀ x y, st.assignments (item x y) = none)
    (hrow : ∀ x y, rows (item x y) = row (sampleOf h w (x, y))) :
    ∃ v : Fin h → Fin w → ℝ,
      synthesizeImage lvl ⟨.fin alpha, .fin d⟩ st.mixture row h w = .ok (fun x y => .fin (v x y)) ∧
      (∀ x y, 0 ≤ v x y ∧ v x y ≤ 255) ∧ (∃ x y, v x y = 0) ∧
      ∃ top, (∀ x y, predictive ⟨.fin alpha, .fin d⟩ fs rows (clusters st.assignments) (item x y) ≤ top) ∧
        ∀ x y, v x y = 255 * (1 -
          predictive ⟨.fin alpha, .fin d⟩ fs rows (clusters st.assignments) (item x y) / top) := by
  set p : Fin h → Fin w → ℝ := fun x y =>
    predictive ⟨.fin alpha, .fin d⟩ fs rows (clusters st.assignments) (item x y) with hp
  have hp0 : ∀ x y, 0 < p x y := fun x y =>
    div_pos (sum_pos (fun _ _ => Real.exp_pos _) ⟨∅, mem_insert_self _ _⟩) (Real.exp_pos _)
  have hden : forAll h (fun x => forAll w fun y => density lvl (⟨.fin alpha, .fin d⟩ : PitmanYor XR) st.mixture
      (row (ofInt x.val * XR.fin (2 / ((h : ℝ) - 1)) - lit 1 1,
        ofInt y.val * XR.fin (2 / ((w : ℝ) - 1)) - lit 1 1))) = .ok fun x y => .fin (p x y) := by
    apply forAll_ok
    intro x
    apply forAll_ok
    intro y
    rw [coord_fin, coord_fin]
    have := C90_density ha hd0 hd1 hf hcard hst hk (hi x y)
    rw [hrow] at this
    exact this
  have hne : entries p ≠ [] := by
    intro h0
    have : p ⟨0, by omega⟩ ⟨0, by omega⟩ ∈ entries p := (mem_entries _ _).2 ⟨_, _, rfl⟩
    rw [h0] at this
    simp at this
  obtain ⟨top, t1, t2, t3⟩ := maximum_fin hne
  obtain ⟨x₀, y₀, ht⟩ := (mem_entries _ _).1 t2
  have htop : 0 < top := ht ▸ hp0 x₀ y₀
  have hle : ∀ x y, p x y ≤ top := fun x y => t3 _ ((mem_entries _ _).2 ⟨x, y, rfl⟩)
  refine ⟨fun x y => 255 * (1 - p x y / top), ?_, fun x y => ⟨?_, ?_⟩, ⟨x₀, y₀, ?_⟩, top, hle, fun x y => rfl⟩
  · unfold synthesizeImage
    rw [scale_fin hh, Res.ok_bind, scale_fin hw, Res.ok_bind, hden, Res.ok_bind]
    unfold shade
    rw [entries_fin, t1, Res.ok_bind, Res.pure_eq, Res.ok.injEq]
    funext x y
    rw [XR.fin_div _ _ htop.ne', XR.lit_eq, XR.fin_sub, XR.lit_eq, XR.fin_mul]
    congr 1
    push_cast
    ring
  · have : p x y / top ≤ 1 := (div_le_one htop).2 (hle x y)
    linarith
  · have : 0 ≤ p x y / top := div_nonneg (hp0 x y).le htop.le
    linarith
  · show 255 * (1 - p x₀ y₀ / top) = 0
    rw [ht, div_self htop.ne']; ring

end synthesis

omit [MeasurableSpace σ] in
/-- An image that is one pixel high or wide, and not empty, cannot be sampled from: the division by zero
raises. -/
theorem C90_narrow (rng : Rng XR σ) {h w : ℕ} (image : Fin h → Fin w → ℕ) (hh : 0 < h) (hw : 0 < w)
    (h1 : h = 1 ∨ w = 1) (n : ℕ) (s : σ) : sampleFromImage rng image n s = .fail := by
  unfold sampleFromImage
  rw [darkness_fin image hh hw, Res.ok_bind]
  rcases h1 with rfl | rfl
  · simp [scale, Bind.bind, Res.bind]
  · by_cases h' : h = 1 <;> simp [scale, h', Bind.bind, Res.bind]

/-- Three samples, two of them of one pixel, are counted as such. -/
example : tally (fun x : XR => match x with | .fin v => round v | _ => 0)
    ([((0 : Fin 3), (1 : Fin 2)), (2, 0), (0, 1)].map (sampleOf 3 2)) (fun _ _ => 0) =
    .ok fun i j => [((0 : Fin 3), (1 : Fin 2)), (2, 0), (0, 1)].count (i, j) :=
  C90_tally _ (fun z => by simp) (by norm_num) (le_refl 2) _

/-- Two by two pixels: a sample is the black one with probability two thirds and the grey one with
probability one third, so that two samples are the black and the grey one with probability two ninths. -/
example : ∃ (τ : Type) (_ : MeasurableSpace τ) (I : IdealRng τ),
    I.P {s | ∃ s', sampleFromImage I.toRng ![![0, 100], ![200, 200]] 2 s =
      .ok ([(.fin (-1), .fin (-1)), (.fin (-1), .fin 1)], s')} = ENNReal.ofReal (2 / 9) := by
  obtain ⟨I⟩ := idealRng_exists
  refine ⟨_, _, I, ?_⟩
  haveI := I.prob
  have hb : brightest ![![0, 100], ![200, 200]] = 200 := by decide
  have hd : ∀ p, dark ![![0, 100], ![200, 200]] p = 200 - (![![0, 100], ![200, 200]] p.1 p.2 : ℕ) := by
    intro p; rw [dark, hb]; norm_num
  have h := C90_sample I ![![0, 100], ![200, 200]] (le_refl 2) (le_refl 2)
    ⟨(0, 0), by rw [hd]; norm_num⟩ [(0, 0), (0, 1)] MeasurableSet.univ
  have e : [(0, 0), ((0 : Fin 2), (1 : Fin 2))].map (sampleOf 2 2) =
      [(.fin (-1), .fin (-1)), (.fin (-1), .fin 1)] := by
    simp [sampleOf, coordinate]
    norm_num
  rw [e] at h
  simp only [Set.mem_univ, true_and, measure_univ, mul_one] at h
  refine h.trans ?_
  congr 1
  simp only [Fintype.sum_prod_type, Fin.sum_univ_two, hd, List.map_cons, List.map_nil, List.prod_cons,
    List.prod_nil]
  norm_num

/-- Three samples in one cluster: there are states of the loops of the example from which the image of
two by two pixels can be synthesized. -/
example (data : Fin 3 → ℝ × ℝ) : ∃ (rows : Fin 3 ⊕ (Fin 2 × Fin 2) → ℝ × ℝ)
    (st : Inference (Fin 3 ⊕ (Fin 2 × Fin 2)) (ℝ × ℝ) _ _ _ XR) (row : XR × XR → ℝ × ℝ) (k : ℕ),
    Reached 0 ⟨.fin 100, .fin (1 / 10)⟩ ([(0, 1 / 10, 1 / 100, 1, Prod.fst),
      (0, 1 / 10, 1 / 100, 1, Prod.snd)].map (nichFeature 0)) rows st k ∧ k ≤ 4294967296 ∧
    (∀ x, rows (.inl x) = data x) ∧ clusters st.assignments = {Finset.univ.image Sum.inl} ∧
    (∀ x y, st.assignments (.inr (x, y)) = none) ∧
    ∀ x y, rows (.inr (x, y)) = row (sampleOf 2 2 (x, y)) := by
  let toReal : XR → ℝ := fun x => match x with | .fin v => v | _ => 0
  let row : XR × XR → ℝ × ℝ := fun q => (toReal q.1, toReal q.2)
  let rows : Fin 3 ⊕ (Fin 2 × Fin 2) → ℝ × ℝ := fun i => match i with
    | .inl x => data x
    | .inr p => row (sampleOf 2 2 p)
  let A : Finset (Fin 3 ⊕ (Fin 2 × Fin 2)) := Finset.univ.image Sum.inl
  have hA : A ≠ ⊥ := Finset.Nonempty.ne_empty ⟨.inl 0, by simp [A]⟩
  obtain ⟨st, h1, h2⟩ := C66_reached (lvl := 0) (alpha := 100) (d := 1 / 10) (by norm_num) (by norm_num)
    (by norm_num) (rows := rows) (fs := [(0, 1 / 10, 1 / 100, 1, Prod.fst),
      (0, 1 / 10, 1 / 100, 1, Prod.snd)].map (nichFeature 0)) (.nich _ (by
      intro x hx
      simp only [List.mem_cons, List.not_mem_nil, or_false] at hx
      rcases hx with rfl | rfl <;> norm_num)) (by simp) (n := 10) (by norm_num) (A := A) (by
      have : A.card ≤ 7 := (Finset.card_le_univ A).trans (by simp)
      omega) (Finpartition.indiscrete hA)
  refine ⟨rows, st, row, 10 + A.card, h1, ?_, fun _ => rfl, ?_, fun x y => ?_, fun x y => rfl⟩
  · have : A.card ≤ 7 := (Finset.card_le_univ A).trans (by simp)
    omega
  · rw [h2]; rfl
  · by_contra hne
    have h3 := ((clusters_parts st.assignments).cover (.inr (x, y))).mp (by simp [hne])
    rw [h2] at h3
    have := ((Parts.of_finpartition (Finpartition.indiscrete hA)).cover (.inr (x, y))).mpr h3
    simp [A] at this

end Dist.Img
