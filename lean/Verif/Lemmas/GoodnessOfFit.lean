import Mathlib.Algebra.Order.Floor.Ring
import Mathlib.Algebra.BigOperators.Field
import Mathlib.Tactic.FieldSimp
import Mathlib.Tactic.Ring
import Mathlib.Tactic.Linarith
import Verif.Base.XR
import Verif.Model.Util
import Verif.Spec.GoodnessOfFit

/-! # Lemmas on the goodness-of-fit helpers -/

namespace Dist

open FloatOps FloatNotation

namespace Spec

variable {k : ℕ} {p : Fin k → ℝ}

theorem drawsMean_succ (n : ℕ) (f : (Fin (n + 1) → Fin k) → ℝ) :
    drawsMean p (n + 1) f = ∑ a, p a * drawsMean p n fun x => f (Fin.cons a x) := by
  unfold drawsMean
  rw [← (Fin.consEquiv fun _ => Fin k).sum_comp, Fintype.sum_prod_type]
  refine Finset.sum_congr rfl fun a _ => ?_
  rw [Finset.mul_sum]
  refine Finset.sum_congr rfl fun x _ => ?_
  simp [Fin.consEquiv, Fin.prod_univ_succ, mul_assoc]

theorem occurrences_cons {n : ℕ} (a : Fin k) (x : Fin n → Fin k) (j : Fin k) :
    occurrences (Fin.cons a x : Fin (n + 1) → Fin k) j =
      (if a = j then 1 else 0) + occurrences x j := by
  simp only [occurrences, Finset.card_filter, Fin.sum_univ_succ, Fin.cons_zero, Fin.cons_succ]

theorem drawsMean_add (n : ℕ) (f g : (Fin n → Fin k) → ℝ) :
    drawsMean p n (fun x => f x + g x) = drawsMean p n f + drawsMean p n g := by
  simp [drawsMean, mul_add, Finset.sum_add_distrib]

theorem drawsMean_mul (n : ℕ) (c : ℝ) (f : (Fin n → Fin k) → ℝ) :
    drawsMean p n (fun x => c * f x) = c * drawsMean p n f := by
  rw [drawsMean, drawsMean, Finset.mul_sum]
  exact Finset.sum_congr rfl fun x _ => by ring

theorem drawsMean_one (hp : ∑ a, p a = 1) (n : ℕ) : drawsMean p n (fun _ => 1) = 1 := by
  induction n with
  | zero => simp [drawsMean]
  | succ n ih => rw [drawsMean_succ]; simp [ih, hp]

theorem drawsMean_const (hp : ∑ a, p a = 1) (n : ℕ) (c : ℝ) :
    drawsMean p n (fun _ => c) = c := by
  have := drawsMean_mul (p := p) n c fun _ => 1
  simpa [drawsMean_one hp] using this

theorem drawsMean_sum {ι : Type} (s : Finset ι) (n : ℕ) (f : ι → (Fin n → Fin k) → ℝ) :
    drawsMean p n (fun x => ∑ i ∈ s, f i x) = ∑ i ∈ s, drawsMean p n (f i) := by
  simp only [drawsMean, Finset.mul_sum]
  exact Finset.sum_comm

theorem drawsMean_listSum {ι : Type} (l : List ι) (n : ℕ) (f : ι → (Fin n → Fin k) → ℝ)
    (c : ι → ℝ) (h : ∀ i ∈ l, drawsMean p n (f i) = c i) :
    drawsMean p n (fun x => (l.map fun i => f i x).sum) = (l.map c).sum := by
  induction l with
  | nil => simp [drawsMean]
  | cons i l ih =>
    simp only [List.map_cons, List.sum_cons]
    rw [drawsMean_add, ih fun j hj => h j (List.mem_cons_of_mem _ hj), h i (by simp)]

theorem sum_ite_mul (hp : ∑ a, p a = 1) (j : Fin k) (u v : ℝ) :
    ∑ a, p a * (if a = j then u else v) = p j * u + (1 - p j) * v := by
  have : ∀ a, p a * (if a = j then u else v) = (if a = j then p a * (u - v) else 0) + p a * v := by
    intro a; split_ifs <;> ring
  simp only [this, Finset.sum_add_distrib, ← Finset.sum_mul, hp]
  simp; ring

theorem drawsMean_dev (hp : ∑ a, p a = 1) (j : Fin k) (n : ℕ) :
    drawsMean p n (fun x => (occurrences x j : ℝ) - n * p j) = 0 := by
  induction n with
  | zero => simp [drawsMean, occurrences]
  | succ n ih =>
    rw [drawsMean_succ]
    have : ∀ a, (drawsMean p n fun x =>
        ((occurrences (Fin.cons a x : Fin (n + 1) → Fin k) j : ℝ) - ((n + 1 : ℕ) : ℝ) * p j)) =
        if a = j then 1 - p j else - p j := by
      intro a
      have e : (fun x : Fin n → Fin k =>
          ((occurrences (Fin.cons a x : Fin (n + 1) → Fin k) j : ℝ) - ((n + 1 : ℕ) : ℝ) * p j)) =
          fun x => ((occurrences x j : ℝ) - n * p j) + (if a = j then 1 - p j else - p j) := by
        funext x
        rw [occurrences_cons]
        split_ifs <;> push_cast <;> ring
      rw [e, drawsMean_add, ih, drawsMean_const hp, zero_add]
    simp only [this, sum_ite_mul hp]
    ring

theorem drawsMean_sq (hp : ∑ a, p a = 1) (j : Fin k) (n : ℕ) :
    drawsMean p n (fun x => ((occurrences x j : ℝ) - n * p j) ^ 2) = n * p j * (1 - p j) := by
  induction n with
  | zero => simp [drawsMean, occurrences]
  | succ n ih =>
    rw [drawsMean_succ]
    have : ∀ a, (drawsMean p n fun x =>
        ((occurrences (Fin.cons a x : Fin (n + 1) → Fin k) j : ℝ) - ((n + 1 : ℕ) : ℝ) * p j) ^ 2) =
        if a = j then n * p j * (1 - p j) + (1 - p j) ^ 2
        else n * p j * (1 - p j) + p j ^ 2 := by
      intro a
      have e : (fun x : Fin n → Fin k =>
          ((occurrences (Fin.cons a x : Fin (n + 1) → Fin k) j : ℝ) -
            ((n + 1 : ℕ) : ℝ) * p j) ^ 2) =
          fun x => ((occurrences x j : ℝ) - n * p j) ^ 2 +
            ((2 * (if a = j then 1 - p j else - p j)) * ((occurrences x j : ℝ) - n * p j) +
            (if a = j then 1 - p j else - p j) ^ 2) := by
        funext x
        rw [occurrences_cons]
        split_ifs <;> push_cast <;> ring
      rw [e, drawsMean_add, ih, drawsMean_add, drawsMean_mul, drawsMean_dev hp,
        drawsMean_const hp]
      split_ifs <;> ring
    simp only [this, sum_ite_mul hp]
    push_cast; ring

theorem drawsMean_scaled (hp : ∑ a, p a = 1) (j : Fin k) (h0 : 0 < p j) (h1 : p j < 1) {n : ℕ}
    (hn : 0 < n) : drawsMean p n (fun x => scaledDeviation n (p j) (occurrences x j)) = 1 := by
  have hn' : (0 : ℝ) < n := by exact_mod_cast hn
  have : 0 < n * p j * (1 - p j) := by have := sub_pos.2 h1; positivity
  have e : (fun x : Fin n → Fin k => scaledDeviation n (p j) (occurrences x j)) =
      fun x => (n * p j * (1 - p j))⁻¹ * ((occurrences x j : ℝ) - n * p j) ^ 2 := by
    funext x; rw [scaledDeviation]; field_simp
  rw [e, drawsMean_mul, drawsMean_sq hp, inv_mul_cancel₀ this.ne']

theorem drawsMean_pearson (hp : ∑ a, p a = 1) (j : Fin k) (h0 : 0 < p j) {n : ℕ}
    (hn : 0 < n) : drawsMean p n (fun x => pearsonTerm n (p j) (occurrences x j)) = 1 - p j := by
  have hn' : (0 : ℝ) < n := by exact_mod_cast hn
  have : 0 < n * p j := by positivity
  have e : (fun x : Fin n → Fin k => pearsonTerm n (p j) (occurrences x j)) =
      fun x => (n * p j)⁻¹ * ((occurrences x j : ℝ) - n * p j) ^ 2 := by
    funext x; rw [pearsonTerm]; field_simp
  rw [e, drawsMean_mul, drawsMean_sq hp]
  field_simp

theorem sum_occurrences {n : ℕ} (x : Fin n → Fin k) : ∑ j, occurrences x j = n := by
  have := Finset.card_eq_sum_card_fiberwise (f := x) (s := Finset.univ) (t := Finset.univ)
    (by intro a _; simp)
  simpa [occurrences] using this.symm

end Spec

namespace Util

theorem eqf_fin (a b : ℝ) : eqf (XR.fin a) (XR.fin b) = true ↔ a = b := by
  rw [eqf, Bool.and_eq_true, XR.le_fin, XR.le_fin, le_antisymm_iff]

theorem eqf_fin_false {a b : ℝ} (h : a ≠ b) : eqf (XR.fin a) (XR.fin b) = false := by
  rw [Bool.eq_false_iff]; exact fun h' => h ((eqf_fin a b).1 h')

/-- The loop over categories whose probabilities are inside `(0, 1)`. -/
theorem gofLoop_eq (total : ℤ) (pc : List (ℝ × ℤ))
    (hp : ∀ e ∈ pc, 0 < e.1 ∧ e.1 < 1 ∧ 1 < total * e.1 * (1 - e.1)) (chi : ℝ) (dof : ℤ) :
    gofLoop total (pc.map fun e => (XR.fin e.1, e.2)) (XR.fin chi) dof =
      .ok (.inr (XR.fin (chi + (pc.map fun e => Spec.scaledDeviation total e.1 e.2).sum),
        dof + pc.length)) := by
  induction pc generalizing chi dof with
  | nil => simp [gofLoop]
  | cons e pc ih =>
    obtain ⟨h0, h1, hv⟩ := hp e (by simp)
    have e1 : lt (XR.fin e.1) (ofInt 1) = true := by simpa using h1
    have e2 : lt (ofInt 0) (XR.fin e.1) = true := by simpa using h0
    have e0 : eqf (XR.fin e.1) (ofInt 1) = false := by
      have := eqf_fin_false (b := 1) h1.ne
      simpa using this
    have ev : (ofInt total * XR.fin e.1 * (ofInt 1 - XR.fin e.1) : XR) =
        XR.fin (total * e.1 * (1 - e.1)) := by simp
    have e3 : lt (ofInt 1) (XR.fin (total * e.1 * (1 - e.1))) = true := by simpa using hv
    rw [List.map_cons, gofLoop]
    simp only [e0, e1, e2, ev, e3, Bool.not_true, if_true, Bool.false_eq_true, if_false]
    have ec : (XR.fin chi + (ofInt e.2 - ofInt total * XR.fin e.1) *
        (ofInt e.2 - ofInt total * XR.fin e.1) / XR.fin (total * e.1 * (1 - e.1)) : XR) =
        XR.fin (chi + Spec.scaledDeviation total e.1 e.2) := by
      rw [Spec.scaledDeviation]
      simp only [XR.ofInt_eq, XR.fin_mul, XR.fin_sub]
      rw [XR.fin_div _ _ (by linarith), XR.fin_add, sq]
    rw [ec, ih (fun e' he' => hp e' (List.mem_cons_of_mem _ he'))]
    simp only [List.map_cons, List.sum_cons, List.length_cons, Nat.cast_add, Nat.cast_one]
    rw [add_assoc chi, add_assoc dof, add_comm (1 : ℤ)]

theorem multinomialGof_eq (sp : Scipy XR) (pc : List (ℝ × ℤ)) (total : ℤ) (truncated : Bool)
    (hp : ∀ e ∈ pc, 0 < e.1 ∧ e.1 < 1 ∧ 1 < total * e.1 * (1 - e.1))
    (ht : truncated = true ∨ total = (pc.map Prod.snd).sum) :
    multinomialGof sp (pc.map fun e => XR.fin e.1) (pc.map Prod.snd) total truncated =
      .ok (some (sp.sf (XR.fin (pc.map fun e => Spec.scaledDeviation total e.1 e.2).sum)
        (if truncated then pc.length else pc.length - 1))) := by
  have hz : (pc.map fun e => XR.fin e.1).zip (pc.map Prod.snd) =
      pc.map fun e => (XR.fin e.1, e.2) := by
    rw [List.zip_map']
  have hl := gofLoop_eq total pc hp 0 0
  rw [multinomialGof]
  have ht' : (!(truncated || decide (total = (pc.map Prod.snd).sum))) = false := by
    rcases ht with h | h <;> simp [h]
  simp only [List.length_map, ne_eq, not_true_eq_false, if_false, ht', hz, Bool.false_eq_true]
  have h0 : (ofInt 0 : XR) = XR.fin 0 := by simp
  rw [h0, hl, Res.ok_bind]
  simp

theorem npIncr_range {B : ℕ} (f : ℕ → ℤ) {i : ℕ} (hi : i < B) :
    npIncr ((List.range B).map f) i =
      .ok ((List.range B).map fun b => f b + if i = b then 1 else 0) := by
  have hneg : ¬ ((i : ℤ) < 0) := by omega
  simp only [npIncr, hneg, if_false, List.length_map, List.length_range]
  rw [if_pos ⟨by omega, by exact_mod_cast hi⟩]
  congr 1
  refine List.ext_getElem (by simp) fun b h1 h2 => ?_
  simp only [Int.toNat_natCast, List.getElem_modify, List.getElem_map, List.getElem_range]
  split_ifs <;> simp

theorem npIncr_fail {v : List ℤ} {i : ℕ} (hi : v.length ≤ i) : npIncr v i = .fail := by
  have hneg : ¬ ((i : ℤ) < 0) := by omega
  simp only [npIncr, hneg, if_false]
  rw [if_neg (by omega)]

/-- The samples in bin `b` of `B`. -/
noncomputable def inBin (B : ℕ) (xs : List ℝ) (b : ℕ) : ℤ :=
  (xs.countP fun x => decide (⌊(B : ℝ) * x⌋ = (b : ℤ)) : ℕ)

theorem floor_bin {B : ℕ} (hB : 0 < B) {x : ℝ} (h0 : 0 ≤ x) (h1 : x < 1) :
    ∃ i : ℕ, i < B ∧ ⌊(B : ℝ) * x⌋ = i := by
  have hB' : (0 : ℝ) < B := by exact_mod_cast hB
  have hn : 0 ≤ ⌊(B : ℝ) * x⌋ := Int.floor_nonneg.2 (by positivity)
  have hl : ⌊(B : ℝ) * x⌋ < (B : ℤ) := by
    rw [Int.floor_lt]; push_cast; nlinarith
  exact ⟨⌊(B : ℝ) * x⌋.toNat, by omega, by omega⟩

/-- Binning the samples of `[0, 1)`. -/
theorem binLoop_eq (sp : Scipy XR) (htr : ∀ r : ℝ, 0 ≤ r → sp.trunc (XR.fin r) = ⌊r⌋)
    {B : ℕ} (hB : 0 < B) (xs : List ℝ) (h : ∀ x ∈ xs, 0 ≤ x ∧ x < 1) (f : ℕ → ℤ) :
    binLoop sp B (xs.map XR.fin) ((List.range B).map f) =
      .ok ((List.range B).map fun b => f b + inBin B xs b) := by
  induction xs generalizing f with
  | nil => simp [binLoop, inBin]
  | cons x xs ih =>
    obtain ⟨h0, h1⟩ := h x (by simp)
    obtain ⟨i, hi, hf⟩ := floor_bin hB h0 h1
    have e : sp.trunc (ofInt (B : ℤ) * XR.fin x) = i := by
      rw [← hf, ← htr _ (by positivity)]; simp
    rw [List.map_cons, binLoop, e, npIncr_range f hi, Res.ok_bind,
      ih fun y hy => h y (List.mem_cons_of_mem _ hy)]
    congr 1
    refine List.map_congr_left fun b _ => ?_
    simp only [inBin, List.countP_cons, hf]
    by_cases hb : i = b
    · simp [hb]; ring
    · simp [hb]

/-- A sample equal to one has no bin. -/
theorem binLoop_fail (sp : Scipy XR) (htr : ∀ r : ℝ, 0 ≤ r → sp.trunc (XR.fin r) = ⌊r⌋)
    {B : ℕ} (hB : 0 < B) (xs : List ℝ) (h : ∀ x ∈ xs, 0 ≤ x ∧ x ≤ 1) (h1 : 1 ∈ xs) (f : ℕ → ℤ) :
    binLoop sp B (xs.map XR.fin) ((List.range B).map f) = .fail := by
  induction xs generalizing f with
  | nil => simp at h1
  | cons x xs ih =>
    obtain ⟨h0, hx⟩ := h x (by simp)
    rw [List.map_cons, binLoop]
    rcases hx.lt_or_eq with hlt | rfl
    · obtain ⟨i, hi, hf⟩ := floor_bin hB h0 hlt
      have e : sp.trunc (ofInt (B : ℤ) * XR.fin x) = i := by
        rw [← hf, ← htr _ (by positivity)]; simp
      rw [e, npIncr_range f hi, Res.ok_bind]
      refine ih (fun y hy => h y (List.mem_cons_of_mem _ hy)) ?_ _
      rcases List.mem_cons.1 h1 with rfl | h1
      · exact absurd rfl hlt.ne
      · exact h1
    · have e : sp.trunc (ofInt (B : ℤ) * XR.fin 1) = B := by
        have := htr (B : ℝ) (by positivity)
        rw [Int.floor_natCast] at this
        simpa using this
      rw [e, npIncr_fail (by simp)]
      rfl

theorem listSum_range {M : Type} [AddCommMonoid M] (B : ℕ) (f : ℕ → M) :
    ((List.range B).map f).sum = ∑ b ∈ Finset.range B, f b := by
  induction B with
  | zero => simp
  | succ B ih => rw [List.range_succ, List.map_append, List.sum_append, ih,
      Finset.sum_range_succ]; simp

theorem sum_inBin {B : ℕ} (hB : 0 < B) (xs : List ℝ) (h : ∀ x ∈ xs, 0 ≤ x ∧ x < 1) :
    ((List.range B).map (inBin B xs)).sum = xs.length := by
  induction xs with
  | nil => simp [listSum_range, inBin]
  | cons x xs ih =>
    obtain ⟨h0, h1⟩ := h x (by simp)
    obtain ⟨i, hi, hf⟩ := floor_bin hB h0 h1
    have e : inBin B (x :: xs) = fun b => inBin B xs b + if i = b then 1 else 0 := by
      funext b
      simp only [inBin, List.countP_cons, hf]
      by_cases hb : i = b <;> simp [hb]
    rw [e, List.sum_map_add, ih fun y hy => h y (List.mem_cons_of_mem _ hy)]
    have : ((List.range B).map fun b => if i = b then (1 : ℤ) else 0).sum = 1 := by
      rw [listSum_range]
      simp [hi]
    rw [this]; simp

theorem unif01Gof_eq (sp : Scipy XR) (htr : ∀ r : ℝ, 0 ≤ r → sp.trunc (XR.fin r) = ⌊r⌋)
    (xs : List ℝ) (h : ∀ x ∈ xs, 0 ≤ x ∧ x < 1) {B : ℕ} (hBn : sp.cubeRoot xs.length = B)
    (hB : 7 ≤ B) (hv : 1 < (xs.length : ℝ) * (1 / B) * (1 - 1 / B)) :
    unif01Gof sp (xs.map XR.fin) = .ok (some (sp.sf (XR.fin
      ((List.range B).map fun b => Spec.scaledDeviation xs.length (1 / B) (inBin B xs b)).sum)
        ((B : ℤ) - 1))) := by
  have hne : xs ≠ [] := by
    rintro rfl; simp at hv; linarith
  have hB' : (7 : ℝ) ≤ B := by exact_mod_cast hB
  have a0 : (xs.map XR.fin).all (fun x => le (ofInt 0) x) = true := by
    simp only [List.all_eq_true, List.mem_map, forall_exists_index, and_imp]
    rintro _ x hx rfl
    simpa using (h x hx).1
  have a1 : (xs.map XR.fin).all (fun x => le x (ofInt 1)) = true := by
    simp only [List.all_eq_true, List.mem_map, forall_exists_index, and_imp]
    rintro _ x hx rfl
    simpa using (h x hx).2.le
  have hemp : (xs.map XR.fin).isEmpty = false := by simp [hne]
  rw [unif01Gof]
  simp only [hemp, a0, a1, Bool.not_true, Bool.false_eq_true, if_false, List.length_map, hBn]
  rw [if_neg (by omega)]
  have hr : List.replicate B (0 : ℤ) = (List.range B).map fun _ => 0 := by
    simp [List.map_const']
  rw [hr, binLoop_eq sp htr (by omega) xs h, Res.ok_bind]
  have hm := multinomialGof_eq sp ((List.range B).map fun b => ((1 / B : ℝ), inBin B xs b))
    (xs.length : ℤ) false (by
      simp only [List.mem_map, List.mem_range, forall_exists_index, and_imp]
      rintro _ b _ rfl
      refine ⟨by positivity, ?_, by push_cast; exact hv⟩
      rw [div_lt_one (by linarith)]; linarith) (by
      right
      rw [List.map_map]
      exact (sum_inBin (by omega) xs h).symm)
  simp only [List.map_map, Function.comp_def, List.length_map, List.length_range] at hm
  simp only [zero_add]
  have hp : (List.replicate B (ofInt 1 / ofInt (B : ℤ) : XR)) =
      (List.range B).map fun _ => XR.fin (1 / (B : ℝ)) := by
    rw [List.map_const', List.length_range]
    congr 1
    simp only [XR.ofInt_eq]
    rw [XR.fin_div _ _ (by push_cast; linarith)]
    simp
  rw [hp]
  simpa using hm

end Util

end Dist
