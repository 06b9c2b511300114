import Mathlib.Algebra.BigOperators.Group.List.Basic
import Mathlib.Algebra.Order.BigOperators.Group.List
import Mathlib.Algebra.BigOperators.Ring.List
import Mathlib.MeasureTheory.Measure.Lebesgue.Basic
import Verif.Spec.Sampling
import Verif.Lemmas.VectorMath

/-! # Lemmas for the sampling properties -/

namespace Dist

open Spec FloatOps FloatNotation

theorem cum_zero (p : List ℝ) : cum p 0 = 0 := by simp [cum]

theorem cum_succ {p : List ℝ} {i : Nat} (h : i < p.length) : cum p (i + 1) = cum p i + p[i] := by
  rw [cum, cum, List.sum_take_succ p i h]

theorem cum_length (p : List ℝ) : cum p p.length = p.sum := by simp [cum]

theorem cum_mono {p : List ℝ} (hp : ∀ x ∈ p, 0 ≤ x) {i j : Nat} (h : i ≤ j) : cum p i ≤ cum p j := by
  induction j, h using Nat.le_induction with
  | base => exact le_refl _
  | succ j _ ih =>
    by_cases hj : j < p.length
    · rw [cum_succ hj]
      have := hp _ (List.getElem_mem hj)
      linarith
    · have : cum p (j + 1) = cum p j := by
        rw [cum, cum, List.take_of_length_le (by omega), List.take_of_length_le (by omega)]
      rw [this]; exact ih

theorem cum_cons (x : ℝ) (p : List ℝ) (i : Nat) : cum (x :: p) (i + 1) = x + cum p i := by
  simp [cum]

/-! ## `sample_discrete` -/

theorem discreteLoop_spec (last : Nat) : ∀ (ps : List ℝ) (i : Nat) (t : ℝ), 0 ≤ t →
    (∃ j < ps.length, discreteLoop last (ps.map XR.fin) i (.fin t) = i + j ∧ cum ps j ≤ t ∧
      t < cum ps (j + 1)) ∨
    (discreteLoop last (ps.map XR.fin) i (.fin t) = last ∧ ps.sum ≤ t)
  | [], _, t, ht => .inr ⟨rfl, by simpa using ht⟩
  | p :: ps, i, t, ht => by
    simp only [List.map_cons, discreteLoop, XR.fin_sub, XR.ofInt_eq, Int.cast_zero, XR.lt_fin]
    by_cases h : t - p < 0
    · left
      refine ⟨0, by simp, by rw [if_pos h]; rfl, by rw [cum_zero]; exact ht, ?_⟩
      rw [cum_cons, cum_zero]; linarith
    · rw [if_neg h]
      rcases discreteLoop_spec last ps (i + 1) (t - p) (by linarith) with
        ⟨j, hj, e, h1, h2⟩ | ⟨e, h1⟩
      · left
        refine ⟨j + 1, by simp [hj], by rw [e]; ring, ?_, ?_⟩
        · rw [cum_cons]; linarith
        · rw [cum_cons]; linarith
      · right
        exact ⟨e, by rw [List.sum_cons]; linarith⟩

theorem discreteLoop_lt {F : Type} [FloatOps F] (n : Nat) : ∀ (ps : List F) (i : Nat) (t : F),
    i + ps.length < n → discreteLoop (n - 1) ps i t < n
  | [], i, t, h => by simp only [discreteLoop]; simp at h; omega
  | p :: ps, i, t, h => by
    simp only [discreteLoop]
    simp only [List.length_cons] at h
    split_ifs
    · omega
    · exact discreteLoop_lt n ps (i + 1) _ (by omega)

/-! ## `sample_from_likelihoods` -/

theorem likelihoodLoop_spec (n : Nat) : ∀ (ls : List ℝ) (i : Nat) (t : ℝ), t ≤ ls.sum →
    ls ≠ [] →
    ∃ j < ls.length, likelihoodLoop n (ls.map XR.fin) i (.fin t) = i + j ∧ t ≤ cum ls (j + 1) ∧
      (j = 0 ∨ cum ls j < t)
  | [], _, _, _, h => absurd rfl h
  | l :: ls, i, t, ht, _ => by
    simp only [List.map_cons, likelihoodLoop, XR.fin_sub, XR.ofInt_eq, Int.cast_zero, XR.le_fin]
    by_cases h : t - l ≤ 0
    · refine ⟨0, by simp, by rw [if_pos h]; rfl, ?_, .inl rfl⟩
      rw [cum_cons, cum_zero]; linarith
    · rw [if_neg h]
      rw [List.sum_cons] at ht
      have hne : ls ≠ [] := by
        rintro rfl
        apply h; simp at ht; linarith
      obtain ⟨j, hj, e, h1, h2⟩ := likelihoodLoop_spec n ls (i + 1) (t - l) (by linarith) hne
      refine ⟨j + 1, by simp [hj], by rw [e]; ring, by rw [cum_cons]; linarith, .inr ?_⟩
      rw [cum_cons]
      rcases h2 with rfl | h2
      · rw [cum_zero]; linarith
      · linarith

/-! ## Measures of intervals -/

open MeasureTheory in
theorem volume_of_between {S : Set ℝ} {a b : ℝ} (h1 : Set.Ioo a b ⊆ S) (h2 : S ⊆ Set.Icc a b) :
    volume S = ENNReal.ofReal (b - a) := by
  apply le_antisymm
  · calc volume S ≤ volume (Set.Icc a b) := measure_mono h2
      _ = ENNReal.ofReal (b - a) := Real.volume_Icc
  · calc ENNReal.ofReal (b - a) = volume (Set.Ioo a b) := Real.volume_Ioo.symm
      _ ≤ volume S := measure_mono h1

/-! ## Scores -/

theorem foldl_fin (xs : List ℝ) (a : ℝ) :
    (xs.map XR.fin).foldl (fun acc x => acc + x) (.fin a) = .fin (a + xs.sum) := by
  induction xs generalizing a with
  | nil => simp
  | cons x xs ih => simp only [List.map_cons, List.foldl_cons, XR.fin_add, ih, List.sum_cons]; congr 1; ring

section
variable {F : Type} [FloatOps F]

/-- Loops that overwrite the vector and accumulate. -/
theorem forLoop_both (body : Nat → List F × F → Res (List F × F)) (f g : F → F)
    (hb : ∀ k io t z, io[k]? = some z → body k (io, t) = .ok (io.set k (f z), t + g z)) :
    ∀ (zs pre : List F) (t : F),
      forLoop body pre.length zs.length (pre ++ zs, t) =
        .ok (pre ++ zs.map f, (zs.map g).foldl (fun acc x => acc + x) t)
  | [], _, _ => by simp [forLoop]
  | z :: zs, pre, t => by
    rw [List.length_cons, forLoop, hb pre.length (pre ++ z :: zs) t z (by simp), Res.ok_bind]
    have hset : (pre ++ z :: zs).set pre.length (f z) = (pre ++ [f z]) ++ zs := by
      rw [List.set_append_right _ _ (le_refl _)]; simp
    have := forLoop_both body f g hb zs (pre ++ [f z]) (t + g z)
    simp only [List.length_append, List.length_cons, List.length_nil, Nat.zero_add] at this
    rw [hset, this]
    simp

end

theorem map_fin_comp (f : ℝ → ℝ) (xs : List ℝ) (g : XR → XR) (h : ∀ x, g (.fin x) = .fin (f x)) :
    (xs.map XR.fin).map g = (xs.map f).map XR.fin := by
  rw [List.map_map, List.map_map]
  exact List.map_congr_left fun x _ => h x

end Dist
