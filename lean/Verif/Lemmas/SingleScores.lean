import Verif.Model.Scores
import Verif.Lemmas.Single
import Verif.Lemmas.Sampling
import Verif.Props.FastExp
import Mathlib.Analysis.Complex.ExponentialBounds
import Mathlib.Algebra.Order.BigOperators.Group.List

/-! # Scores converted to likelihoods in single precision -/

namespace Dist

open Spec FloatOps FloatNotation

namespace nearest

theorem zero : nearest 0 = 0 := by simp [nearest]

theorem le_zero_of {x : ℝ} (h : nearest x ≤ 0) : x ≤ 1 / 2 ^ 149 := by
  by_contra hc
  have hx : 0 < x := lt_trans (by positivity) (not_le.1 hc)
  have h1 := nearest.error x
  rw [abs_of_pos hx, abs_le] at h1
  have h2 : (2⁻¹ : ℝ) ^ 150 = 1 / 2 ^ 149 * (1 / 2) := by norm_num
  have h3 : (2⁻¹ : ℝ) ^ 24 * x ≤ 1 / 4 * x := by gcongr; norm_num
  rw [h2] at h1
  have : (0 : ℝ) < 1 / 2 ^ 149 := by positivity
  linarith [h1.1, not_le.1 hc]

end nearest

namespace Single

variable {lib : Libm}

theorem expf_near (hl : LogNear lib.expVar) (hp : PowAccurate lib.expVar) {x : ℝ} (h0 : -87 ≤ x)
    (h1 : x ≤ 88) : |expf lib x - Real.exp x| < 2⁻¹ ^ 16 * Real.exp x := by
  obtain ⟨y, hy, hn⟩ := C49_accuracy_rounded nearest.rounding hl hp h0 h1
  unfold expf
  rw [hy]
  exact hn

theorem expf_tiny (hl : LogNear lib.expVar) (hp : PowAccurate lib.expVar) {x : ℝ}
    (h0 : -1028653055 ≤ x) (h1 : x < -87) : 0 ≤ expf lib x ∧ expf lib x ≤ 1 / 2 ^ 124 := by
  obtain ⟨y, hy, hn⟩ := C49_tiny_partial nearest.rounding hl hp h0 h1
  unfold expf
  rw [hy]
  refine ⟨hn.1, hn.2.trans (le_of_eq ?_)⟩
  norm_num

theorem exp_87 : Real.exp (-87) ≤ 1 / 2 ^ 125 := by
  rw [Real.exp_neg, ← one_div]
  apply one_div_le_one_div_of_le (by positivity)
  have h := Real.exp_one_gt_d9
  have : Real.exp 87 = Real.exp 1 ^ 87 := by rw [← Real.exp_nat_mul]; norm_num
  rw [this]
  calc (2 : ℝ) ^ 125 ≤ 2.718 ^ 87 := by norm_num
    _ ≤ Real.exp 1 ^ 87 := by gcongr; linarith

/-- The likelihood of a score `d` below the maximum. -/
theorem lik_near (hl : LogNear lib.expVar) (hp : PowAccurate lib.expVar) {d : ℝ} (h0 : -10 ^ 9 ≤ d)
    (h1 : d ≤ 0) : 0 ≤ expf lib (nearest d) ∧
      |expf lib (nearest d) - Real.exp d| ≤ 26 / 10 ^ 6 * Real.exp d + 1 / 2 ^ 124 := by
  have n0 : nearest d ≤ 0 := nearest.nonpos_of_nonpos h1
  have e87 : nearest (-87) = -87 := by
    have := nearest.int (m := -87) (by norm_num)
    push_cast at this
    exact this
  have hE := Real.exp_pos d
  rcases le_or_gt (-87) d with h | h
  · have n1 : -87 ≤ nearest d := by rw [← e87]; exact nearest.monotone h
    have hn := expf_near hl hp n1 (by linarith)
    have hE' := Real.exp_pos (nearest d)
    have herr := nearest.error d
    have h3 : |nearest d - d| ≤ 52 / 10 ^ 7 := by
      have : |d| ≤ 87 := by rw [abs_le]; constructor <;> linarith
      have : (2⁻¹ : ℝ) ^ 24 * |d| ≤ 2⁻¹ ^ 24 * 87 := by gcongr
      have : (2⁻¹ : ℝ) ^ 24 * 87 + 2⁻¹ ^ 150 ≤ 52 / 10 ^ 7 := by norm_num
      linarith
    have h4 := Real.abs_exp_sub_one_le (x := nearest d - d) (h3.trans (by norm_num))
    have h5 : |Real.exp (nearest d) - Real.exp d| ≤ 104 / 10 ^ 7 * Real.exp d := by
      have : Real.exp (nearest d) - Real.exp d = (Real.exp (nearest d - d) - 1) * Real.exp d := by
        rw [sub_mul, one_mul, ← Real.exp_add, sub_add_cancel]
      rw [this, abs_mul, abs_of_pos hE]
      gcongr
      linarith
    have h6 : (2⁻¹ : ℝ) ^ 16 ≤ 1526 / 10 ^ 8 := by norm_num
    have h5' := abs_le.1 h5
    have h7 : |expf lib (nearest d) - Real.exp (nearest d)| ≤ 1526 / 10 ^ 8 * Real.exp (nearest d) :=
      hn.le.trans (by gcongr)
    have h7' := abs_le.1 h7
    refine ⟨by nlinarith, ?_⟩
    have h8 : (0 : ℝ) < 1 / 2 ^ 124 := by positivity
    rw [abs_le]
    constructor <;> nlinarith
  · have n1 : nearest d ≤ -87 := by rw [← e87]; exact nearest.monotone h.le
    have hd : Real.exp d ≤ 1 / 2 ^ 125 := (Real.exp_le_exp.2 h.le).trans exp_87
    have key : 0 ≤ expf lib (nearest d) ∧ expf lib (nearest d) ≤ 1 / 2 ^ 124 := by
      rcases eq_or_lt_of_le n1 with h2 | h2
      · have hn := expf_near hl hp (x := nearest d) (by linarith) (by linarith)
        rw [h2] at hn ⊢
        have hn' := abs_lt.1 hn
        have h3 := exp_87
        have h4 := Real.exp_pos (-87)
        have h5 : (2⁻¹ : ℝ) ^ 16 * Real.exp (-87) ≤ 1 / 2 * Real.exp (-87) := by gcongr; norm_num
        have h6 : (1 : ℝ) / 2 ^ 124 = 2 * (1 / 2 ^ 125) := by norm_num
        constructor
        · linarith
        · rw [h6]; linarith
      · refine expf_tiny hl hp ?_ h2
        have : nearest (-10 ^ 9) = -10 ^ 9 := by
          have := nearest.exact_of_le (m := -1953125) (e := 9) (by norm_num) (by norm_num)
          have e : ((-1953125 : ℤ) : ℝ) * 2 ^ (9 : ℤ) = -10 ^ 9 := by norm_num
          rwa [e] at this
        have h3 := nearest.monotone h0
        rw [this] at h3
        linarith
    refine ⟨key.1, ?_⟩
    have h6 : (1 : ℝ) / 2 ^ 124 = 2 * (1 / 2 ^ 125) := by norm_num
    have h7 : (0 : ℝ) < 26 / 10 ^ 6 * Real.exp d := by positivity
    rw [abs_le]
    constructor
    · linarith [key.1, Real.exp_pos d]
    · linarith [key.2]

/-- A sum accumulated in single precision. -/
noncomputable def sumf (ls : List ℝ) : ℝ := ls.foldl (fun a l => nearest (a + l)) 0

theorem sumf_concat (ls : List ℝ) (l : ℝ) : sumf (ls ++ [l]) = nearest (sumf ls + l) := by
  simp [sumf]

theorem sumf_nonneg {ls : List ℝ} (h : ∀ l ∈ ls, 0 ≤ l) : 0 ≤ sumf ls := by
  induction ls using List.reverseRecOn with
  | nil => simp [sumf]
  | append_singleton ls l ih =>
    rw [sumf_concat]
    apply nearest.neg_le_of_nonneg
    have := ih fun y hy => h y (by simp [hy])
    have := h l (by simp)
    linarith

theorem sumf_near {ls : List ℝ} (h : ∀ l ∈ ls, 0 ≤ l) (hn : ls.length ≤ 2 ^ 20) :
    |sumf ls - ls.sum| ≤ ls.length / 2 ^ 23 * ls.sum + ls.length / 2 ^ 149 := by
  induction ls using List.reverseRecOn with
  | nil => simp [sumf]
  | append_singleton ls l ih =>
    rw [List.length_append, List.length_singleton] at hn
    have hl0 : 0 ≤ l := h l (by simp)
    have hls : ∀ y ∈ ls, 0 ≤ y := fun y hy => h y (by simp [hy])
    have ih := ih hls (by omega)
    have hs := List.sum_nonneg hls
    have hf := sumf_nonneg hls
    have herr := nearest.error (sumf ls + l)
    rw [sumf_concat, List.sum_append, List.sum_singleton, List.length_append, List.length_singleton]
    rw [abs_of_nonneg (by linarith : 0 ≤ sumf ls + l)] at herr
    set k : ℝ := (ls.length : ℝ) with hk
    have hk0 : 0 ≤ k := by positivity
    have hk1 : k ≤ 2 ^ 20 := by rw [hk]; exact_mod_cast (by omega : ls.length ≤ 2 ^ 20)
    set t : ℝ := 1 / 2 ^ 149 with ht
    have ht0 : 0 < t := by positivity
    have e1 : k / 2 ^ 149 = k * t := by rw [ht]; ring
    have e2 : (2⁻¹ : ℝ) ^ 150 = t / 2 := by rw [ht]; norm_num
    rw [e1] at ih
    rw [e2] at herr
    push_cast
    rw [← hk]
    have e3 : (k + 1) / 2 ^ 149 = (k + 1) * t := by rw [ht]; ring
    rw [e3]
    clear_value t k
    clear e1 e2 e3 ht hk
    have ih' := abs_le.1 ih
    have herr' := abs_le.1 herr
    have hks : k / 2 ^ 23 * ls.sum ≤ 1 / 8 * ls.sum := by
      apply mul_le_mul_of_nonneg_right _ hs
      rw [div_le_div_iff₀ (by positivity) (by positivity)]
      linarith
    have hkl : 0 ≤ k / 2 ^ 23 * l := by positivity
    have hkt : k * t ≤ 2 ^ 20 * t := by gcongr
    have e4 : (k + 1) / 2 ^ 23 * (ls.sum + l) =
        k / 2 ^ 23 * ls.sum + k / 2 ^ 23 * l + 1 / 2 ^ 23 * (ls.sum + l) := by ring
    have e5 : (2⁻¹ : ℝ) ^ 24 * (sumf ls + l) ≤ 1 / 2 ^ 23 * (ls.sum + l) + t / 2 := by
      have : (2⁻¹ : ℝ) ^ 24 = 1 / 2 ^ 23 * (1 / 2) := by norm_num
      rw [this]
      have h1 : sumf ls + l ≤ 2 * (ls.sum + l) + 2 ^ 20 * t := by
        linarith [ih'.2]
      have : (1 : ℝ) / 2 ^ 23 * (1 / 2) * (sumf ls + l) ≤
          1 / 2 ^ 23 * (1 / 2) * (2 * (ls.sum + l) + 2 ^ 20 * t) := by gcongr
      have : (1 : ℝ) / 2 ^ 23 * (1 / 2) * (2 ^ 20 * t) ≤ t / 2 := by
        have : (1 : ℝ) / 2 ^ 23 * (1 / 2) * (2 ^ 20 * t) = t / 16 := by ring
        linarith
      linarith
    rw [e4, abs_le]
    constructor <;> linarith

theorem add_mk (a b : ℝ) : (⟨a⟩ : Single lib) + ⟨b⟩ = ⟨nearest (a + b)⟩ := rfl
theorem sub_mk (a b : ℝ) : (⟨a⟩ : Single lib) - ⟨b⟩ = ⟨nearest (a - b)⟩ := rfl
theorem mul_mk (a b : ℝ) : (⟨a⟩ : Single lib) * ⟨b⟩ = ⟨nearest (a * b)⟩ := rfl
theorem div_mk (a b : ℝ) : (⟨a⟩ : Single lib) / ⟨b⟩ = ⟨nearest (a / b)⟩ := rfl
theorem exp_mk (a : ℝ) : exp (⟨a⟩ : Single lib) = ⟨expf lib a⟩ := rfl
theorem log_mk (a : ℝ) : log (⟨a⟩ : Single lib) = ⟨logf a⟩ := rfl
theorem zero_mk : (ofInt 0 : Single lib) = ⟨0⟩ := by
  change (⟨nearest ((0 : ℤ) : ℝ)⟩ : Single lib) = _
  rw [Int.cast_zero, nearest.zero]
theorem one_mk : (lit 1 1 : Single lib) = ⟨1⟩ := by
  change (⟨nearest (((1 : ℤ) : ℝ) / ((1 : ℕ) : ℝ))⟩ : Single lib) = _
  have := nearest.int (m := 1) (by norm_num)
  norm_num at this ⊢
  exact this
theorem le_mk (a b : ℝ) : le (⟨a⟩ : Single lib) ⟨b⟩ = true ↔ a ≤ b := by
  change decide _ = true ↔ _
  simp
theorem lt_mk (a b : ℝ) : lt (⟨a⟩ : Single lib) ⟨b⟩ = true ↔ a < b := by
  change decide _ = true ↔ _
  simp

theorem foldl_max (xs : List ℝ) (a : ℝ) :
    ∃ m, (xs.map (Single.mk (lib := lib))).foldl (fun r x => if lt r x then x else r) ⟨a⟩ = ⟨m⟩ ∧
      (m = a ∨ m ∈ xs) ∧ a ≤ m ∧ ∀ y ∈ xs, y ≤ m := by
  induction xs generalizing a with
  | nil => exact ⟨a, rfl, .inl rfl, le_rfl, by simp⟩
  | cons x xs ih =>
    rw [List.map_cons, List.foldl_cons]
    by_cases h : a < x
    · rw [if_pos ((lt_mk a x).2 h)]
      obtain ⟨m, e, h1, h2, h3⟩ := ih x
      refine ⟨m, e, ?_, by linarith, ?_⟩
      · rcases h1 with h1 | h1 <;> simp [h1]
      · intro y hy
        rcases List.mem_cons.1 hy with rfl | hy
        · exact h2
        · exact h3 y hy
    · rw [if_neg (fun hc => h ((lt_mk a x).1 hc))]
      obtain ⟨m, e, h1, h2, h3⟩ := ih a
      refine ⟨m, e, ?_, h2, ?_⟩
      · rcases h1 with h1 | h1 <;> simp [h1]
      · intro y hy
        rcases List.mem_cons.1 hy with rfl | hy
        · linarith
        · exact h3 y hy

theorem max_mk (x : List ℝ) (hne : x ≠ []) :
    ∃ m, VectorMath.max (x.map (Single.mk (lib := lib))).length (x.map (Single.mk (lib := lib))) =
      .ok ⟨m⟩ ∧ m ∈ x ∧ ∀ y ∈ x, y ≤ m := by
  obtain ⟨a, xs, rfl⟩ := List.exists_cons_of_ne_nil hne
  obtain ⟨m, e, h1, h2, h3⟩ := foldl_max (lib := lib) (a :: xs) a
  refine ⟨m, ?_, ?_, h3⟩
  · rw [VectorMath.max]
    rw [show getAt (List.map (Single.mk (lib := lib)) (a :: xs)) 0 = .ok ⟨a⟩ from rfl, Res.ok_bind]
    rw [forLoop_fold _ (fun r x => if lt r x then x else r)]
    · rw [e]
    · intro k y hk s
      rw [Nat.zero_add, getAt_eq_ok.2 hk, Res.ok_bind]; rfl
  · rcases h1 with rfl | h1
    · simp
    · exact h1

theorem foldl_mk (xs : List ℝ) (a : ℝ) :
    (xs.map (Single.mk (lib := lib))).foldl (fun acc x => acc + x) ⟨a⟩ =
      ⟨xs.foldl (fun a l => nearest (a + l)) a⟩ := by
  induction xs generalizing a with
  | nil => rfl
  | cons x xs ih => rw [List.map_cons, List.foldl_cons, add_mk, ih, List.foldl_cons]

/-- What the conversion to likelihoods computes. -/
theorem scoresToLikelihoods_mk (x : List ℝ) (hne : x ≠ []) :
    ∃ m ∈ x, (∀ y ∈ x, y ≤ m) ∧
      VectorMath.max (x.map (Single.mk (lib := lib))).length (x.map (Single.mk (lib := lib))) =
        .ok ⟨m⟩ ∧
      scoresToLikelihoods (x.map (Single.mk (lib := lib))) =
        .ok ((x.map fun y => expf lib (nearest (y - m))).map Single.mk,
          ⟨sumf (x.map fun y => expf lib (nearest (y - m)))⟩) := by
  obtain ⟨m, hm, h1, h2⟩ := max_mk (lib := lib) x hne
  refine ⟨m, h1, h2, hm, ?_⟩
  have := forLoop_both (F := Single lib) (fun i (p : List (Single lib) × Single lib) => do
      let x ← getAt p.1 i
      let e := exp (x - ⟨m⟩)
      let xs ← setAt p.1 i e
      return (xs, p.2 + e)) (fun z => exp (z - ⟨m⟩)) (fun z => exp (z - ⟨m⟩))
      (by
        intro k io t z hz
        simp only
        rw [getAt_eq_ok.mpr hz, Res.ok_bind, setAt_of_getElem? hz]; rfl)
      (x.map Single.mk) [] (ofInt 0)
  simp only [List.length_nil, List.nil_append] at this
  rw [scoresToLikelihoods, hm, Res.ok_bind, this]
  have e : (x.map (Single.mk (lib := lib))).map (fun z => exp (z - ⟨m⟩)) =
      (x.map fun y => expf lib (nearest (y - m))).map Single.mk := by
    rw [List.map_map, List.map_map]
    exact List.map_congr_left fun y _ => by simp only [Function.comp_apply, sub_mk, exp_mk]
  rw [e, zero_mk, foldl_mk]
  rfl

theorem logSumExp_mk (x : List ℝ) (hne : x ≠ []) {m : ℝ}
    (hm : VectorMath.max (x.map (Single.mk (lib := lib))).length (x.map (Single.mk (lib := lib))) =
        .ok ⟨m⟩) :
    logSumExp (x.map (Single.mk (lib := lib))) =
      .ok ⟨nearest (logf (sumf (x.map fun y => expf lib (nearest (y - m)))) + m)⟩ := by
  rw [logSumExp, if_neg (by simpa using hne), hm, Res.ok_bind]
  rw [forLoop_fold _ (fun t x => t + exp (x - ⟨m⟩))]
  · rw [Res.ok_bind]
    have e : (x.map (Single.mk (lib := lib))).foldl (fun t x => t + exp (x - ⟨m⟩)) (ofInt 0) =
        ⟨sumf (x.map fun y => expf lib (nearest (y - m)))⟩ := by
      rw [zero_mk, sumf, ← foldl_mk, List.foldl_map, List.foldl_map, List.foldl_map]
      rfl
    rw [e, log_mk, add_mk]
    rfl
  · intro k y hk s
    rw [Nat.zero_add, getAt_eq_ok.2 hk, Res.ok_bind]; rfl

/-- Likelihoods and their total, against the exponentials they stand for. -/
structure Liks (lib : Libm) (x : List ℝ) (m : ℝ) : Prop where
  mem : m ∈ x
  top : ∀ y ∈ x, y ≤ m
  one_le : 1 ≤ (x.map fun y => Real.exp (y - m)).sum
  sum_le : (x.map fun y => Real.exp (y - m)).sum ≤ x.length
  nonneg : ∀ y ∈ x, 0 ≤ expf lib (nearest (y - m))
  each : ∀ y ∈ x, |expf lib (nearest (y - m)) - Real.exp (y - m)| ≤
    26 / 10 ^ 6 * Real.exp (y - m) + 1 / 2 ^ 124
  total : |sumf (x.map fun y => expf lib (nearest (y - m))) - (x.map fun y => Real.exp (y - m)).sum| ≤
    (27 / 10 ^ 6 + x.length / 2 ^ 22) * (x.map fun y => Real.exp (y - m)).sum

theorem sum_near {f g : ℝ → ℝ} {c t : ℝ} {x : List ℝ}
    (h : ∀ y ∈ x, |f y - g y| ≤ c * g y + t) :
    |(x.map f).sum - (x.map g).sum| ≤ c * (x.map g).sum + x.length * t := by
  induction x with
  | nil => simp
  | cons a x ih =>
    have h1 := h a (by simp)
    have h2 := ih fun y hy => h y (by simp [hy])
    simp only [List.map_cons, List.sum_cons, List.length_cons]
    push_cast
    have e : f a + (x.map f).sum - (g a + (x.map g).sum) =
      (f a - g a) + ((x.map f).sum - (x.map g).sum) := by ring
    rw [e]
    refine (abs_add_le _ _).trans ?_
    linarith

theorem liks (hl : LogNear lib.expVar) (hp : PowAccurate lib.expVar) {x : List ℝ} {m : ℝ}
    (hm : m ∈ x) (htop : ∀ y ∈ x, y ≤ m) (hn : x.length ≤ 2 ^ 20)
    (hs : ∀ y ∈ x, ∀ z ∈ x, y - z ≤ 10 ^ 9) : Liks lib x m := by
  have hd : ∀ y ∈ x, -10 ^ 9 ≤ y - m ∧ y - m ≤ 0 := fun y hy =>
    ⟨by linarith [hs m hm y hy], by linarith [htop y hy]⟩
  have hone : 1 ≤ (x.map fun y => Real.exp (y - m)).sum := by
    have h := List.single_le_sum (l := x.map fun y => Real.exp (y - m)) (by
      intro z hz
      obtain ⟨w, _, rfl⟩ := List.mem_map.mp hz
      exact (Real.exp_pos _).le) 1 (List.mem_map.mpr ⟨m, hm, by simp⟩)
    exact h
  have hle : (x.map fun y => Real.exp (y - m)).sum ≤ x.length := by
    have h := List.sum_le_card_nsmul (x.map fun y => Real.exp (y - m)) 1 (by
      intro z hz
      obtain ⟨w, hw, rfl⟩ := List.mem_map.mp hz
      exact Real.exp_le_one_iff.2 (hd w hw).2)
    simpa using h
  have hnn : ∀ y ∈ x, 0 ≤ expf lib (nearest (y - m)) := fun y hy => (lik_near hl hp (hd y hy).1 (hd y hy).2).1
  have heach : ∀ y ∈ x, |expf lib (nearest (y - m)) - Real.exp (y - m)| ≤
    26 / 10 ^ 6 * Real.exp (y - m) + 1 / 2 ^ 124 := fun y hy => (lik_near hl hp (hd y hy).1 (hd y hy).2).2
  refine ⟨hm, htop, hone, hle, hnn, heach, ?_⟩
  have h1 := sum_near heach
  have h2 := sumf_near (ls := x.map fun y => expf lib (nearest (y - m))) (by
    intro z hz
    obtain ⟨w, hw, rfl⟩ := List.mem_map.mp hz
    exact hnn w hw) (by simpa using hn)
  rw [List.length_map] at h2
  generalize (x.map fun y => Real.exp (y - m)).sum = E at *
  generalize (x.map fun y => expf lib (nearest (y - m))).sum = S at *
  generalize sumf (x.map fun y => expf lib (nearest (y - m))) = T at *
  have hk1 : (x.length : ℝ) ≤ 2 ^ 20 := by exact_mod_cast hn
  have hk0 : (0 : ℝ) ≤ x.length := by positivity
  generalize (x.length : ℝ) = k at *
  have ht : k * (1 / 2 ^ 124) ≤ 1 / 10 ^ 8 := by
    calc k * (1 / 2 ^ 124) ≤ 2 ^ 20 * (1 / 2 ^ 124) := by gcongr
      _ ≤ _ := by norm_num
  have ht' : k / 2 ^ 149 ≤ 1 / 10 ^ 8 := by
    calc k / 2 ^ 149 ≤ 2 ^ 20 / 2 ^ 149 := by gcongr
      _ ≤ _ := by norm_num
  have h1' := abs_le.1 h1
  have h2' := abs_le.1 h2
  have hS : S ≤ 2 * E := by linarith [h1'.2]
  have hkS : k / 2 ^ 23 * S ≤ k / 2 ^ 22 * E := by
    calc k / 2 ^ 23 * S ≤ k / 2 ^ 23 * (2 * E) := by gcongr
      _ = _ := by ring
  rw [abs_le, add_mul]
  constructor <;> linarith [h1'.1, h1'.2, h2'.1, h2'.2]

theorem recip_near {E T k : ℝ} (hE1 : 1 ≤ E) (hEk : E ≤ k) (hk : k ≤ 2 ^ 20)
    (hT : |T - E| ≤ (27 / 10 ^ 6 + k / 2 ^ 22) * E) :
    |nearest (1 / T) * E - 1| ≤ 38 / 10 ^ 6 + 7 / 5 * (k / 2 ^ 22) ∧
      |1 / T * E - 1| ≤ 38 / 10 ^ 6 + 7 / 5 * (k / 2 ^ 22) ∧ 0.7499 * E ≤ T := by
  have hk0 : 0 ≤ k := by linarith
  set δ := 27 / 10 ^ 6 + k / 2 ^ 22 with hδ
  have hδ1 : δ ≤ 1 / 4 + 27 / 10 ^ 6 := by
    have : k / 2 ^ 22 ≤ 2 ^ 20 / 2 ^ 22 := by gcongr
    rw [hδ]; linarith
  have hδ0 : 0 < δ := by positivity
  have hT' := abs_le.1 hT
  have hT0 : 0.7499 * E ≤ T := by nlinarith [hT'.1]
  have hTp : 0 < T := by nlinarith
  have herr := nearest.error (1 / T)
  rw [abs_of_pos (by positivity : 0 < 1 / T)] at herr
  have hq : |1 / T * E - 1| ≤ 4 / 3 * (1 + 3 / 10 ^ 4) * δ := by
    have : 1 / T * E - 1 = (E - T) / T := by field_simp
    rw [this, abs_div, abs_of_pos hTp, div_le_iff₀ hTp, abs_sub_comm]
    refine hT.trans ?_
    have : δ * E ≤ δ * (4 / 3 * (1 + 3 / 10 ^ 4) * T) := by
      apply mul_le_mul_of_nonneg_left _ hδ0.le
      linarith
    linarith
  have hq' := abs_le.1 hq
  have h2 : |nearest (1 / T) * E - 1 / T * E| ≤ 2⁻¹ ^ 24 * (1 / T * E) + 2⁻¹ ^ 150 * E := by
    rw [← sub_mul, abs_mul, abs_of_pos (by linarith : 0 < E)]
    calc |nearest (1 / T) - 1 / T| * E ≤ (2⁻¹ ^ 24 * (1 / T) + 2⁻¹ ^ 150) * E := by gcongr
      _ = _ := by ring
  have h3 : (2⁻¹ : ℝ) ^ 150 * E ≤ 1 / 10 ^ 9 := by
    calc (2⁻¹ : ℝ) ^ 150 * E ≤ 2⁻¹ ^ 150 * 2 ^ 20 := by gcongr; linarith
      _ ≤ _ := by norm_num
  have h4 : (2⁻¹ : ℝ) ^ 24 * (1 / T * E) ≤ 2⁻¹ ^ 24 * 2 := by
    gcongr
    nlinarith [hq'.2]
  have h5 : (2⁻¹ : ℝ) ^ 24 * 2 ≤ 2 / 10 ^ 7 := by norm_num
  have h6 : |nearest (1 / T) * E - 1 / T * E| ≤ 3 / 10 ^ 7 := by linarith
  have h6' := abs_le.1 h6
  have h7 : 4 / 3 * (1 + 3 / 10 ^ 4) * δ ≤ 37 / 10 ^ 6 + 7 / 5 * (k / 2 ^ 22) := by
    rw [hδ]
    have : 0 ≤ k / 2 ^ 22 := by positivity
    linarith
  refine ⟨?_, by linarith, hT0⟩
  rw [abs_le]
  constructor <;> linarith [h6'.1, h6'.2, hq'.1, hq'.2]

theorem prob_near {E l e r k : ℝ} (hE1 : 1 ≤ E) (he : 0 ≤ e) (hk0 : 0 ≤ k) (hk : k ≤ 2 ^ 20)
    (hl : |l - e| ≤ 26 / 10 ^ 6 * e + 1 / 2 ^ 124)
    (hr : |r * E - 1| ≤ 38 / 10 ^ 6 + 7 / 5 * (k / 2 ^ 22)) :
    |nearest (l * r) - e / E| ≤ (80 / 10 ^ 6 + k / 2 ^ 21) * (e / E) + 1 / 2 ^ 120 := by
  set p := e / E with hp
  have hE : 0 < E := by linarith
  have hp0 : 0 ≤ p := by positivity
  set b := 7 / 5 * (k / 2 ^ 22) with hb
  have hb0 : 0 ≤ b := by positivity
  have hb1 : b ≤ 7 / 20 := by
    have : k / 2 ^ 22 ≤ 2 ^ 20 / 2 ^ 22 := by gcongr
    rw [hb]; linarith
  have hbk : b ≤ k / 2 ^ 21 := by
    have : 0 ≤ k / 2 ^ 22 := by positivity
    have : k / 2 ^ 21 = 2 * (k / 2 ^ 22) := by ring
    rw [this, hb]; linarith
  have hr' := abs_le.1 hr
  have hrE : |r * E| ≤ 1.36 := by rw [abs_le]; constructor <;> linarith [hr'.1, hr'.2]
  obtain ⟨t, ht⟩ : ∃ t : ℝ, t = 1 / 2 ^ 124 := ⟨_, rfl⟩
  have ht0 : 0 < t := by rw [ht]; positivity
  rw [← ht] at hl
  have hE' : |1 / E| ≤ 1 := by
    rw [abs_of_pos (by positivity)]; rw [div_le_one hE]; exact hE1
  have key : |l * r - p| ≤ 1.36 * (26 / 10 ^ 6 * p + t) + (38 / 10 ^ 6 + b) * p := by
    have e1 : l * r - p = (l - e) * (1 / E) * (r * E) + p * (r * E - 1) := by
      rw [hp]; field_simp; ring
    rw [e1]
    refine (abs_add_le _ _).trans (add_le_add ?_ ?_)
    · rw [abs_mul, mul_comm (1.36 : ℝ)]
      apply mul_le_mul _ hrE (abs_nonneg _) (by positivity)
      rw [abs_mul, abs_of_pos (by positivity : 0 < 1 / E)]
      calc |l - e| * (1 / E) ≤ (26 / 10 ^ 6 * e + t) * (1 / E) := by gcongr
        _ = 26 / 10 ^ 6 * p + t * (1 / E) := by rw [hp]; ring
        _ ≤ 26 / 10 ^ 6 * p + t * 1 := by
          have := (abs_le.1 hE').2
          gcongr
        _ = _ := by ring
    · rw [abs_mul, abs_of_nonneg hp0, mul_comm]
      gcongr
  have herr := nearest.error (l * r)
  have hv : |l * r| ≤ 2 * p + 2 * t := by
    have h1 : |l * r| ≤ |l * r - p| + |p| := by
      calc |l * r| = |(l * r - p) + p| := by rw [sub_add_cancel]
        _ ≤ _ := abs_add_le _ _
    rw [abs_of_nonneg hp0] at h1
    have h2 : b * p ≤ 7 / 20 * p := by gcongr
    linarith
  have e2 : (2⁻¹ : ℝ) ^ 150 ≤ t := by rw [ht]; norm_num
  have e3 : (1 : ℝ) / 2 ^ 120 = 16 * t := by rw [ht]; norm_num
  have e4 : (2⁻¹ : ℝ) ^ 24 * |l * r| ≤ 1 / 10 ^ 7 * (2 * p + 2 * t) := by
    apply mul_le_mul _ hv (abs_nonneg _) (by positivity)
    norm_num
  rw [e3]
  have h3 : b * p ≤ k / 2 ^ 21 * p := by gcongr
  clear_value b p
  clear e3 ht
  calc |nearest (l * r) - p| = |(nearest (l * r) - l * r) + (l * r - p)| := by rw [sub_add_sub_cancel]
    _ ≤ _ := abs_add_le _ _
    _ ≤ (1 / 10 ^ 7 * (2 * p + 2 * t) + t) +
        (1.36 * (26 / 10 ^ 6 * p + t) + (38 / 10 ^ 6 + b) * p) := by
      refine add_le_add ?_ key
      linarith
    _ ≤ _ := by linarith

/-- The loop of `sample_from_likelihoods`: up to a few roundings, it stops in the interval of the
cumulative likelihoods the threshold lies in. -/
theorem likelihoodLoop_mk (n : ℕ) {B η : ℝ} (hη : B / 2 ^ 23 ≤ η) (hB : 1 / 2 ≤ B) :
    ∀ (ls : List ℝ) (i : ℕ) (t : ℝ), ls ≠ [] → (∀ l ∈ ls, 0 ≤ l) → nearest t = t → t ≤ B →
      i + ls.length = n →
      ∃ j < ls.length, likelihoodLoop n (ls.map (Single.mk (lib := lib))) i ⟨t⟩ = i + j ∧
        (j = 0 ∨ cum ls j - j * η ≤ t) ∧ (t ≤ cum ls (j + 1) + (j + 1) * η ∨ j + 1 = ls.length)
  | [], _, _, h, _, _, _, _ => absurd rfl h
  | l :: ls, i, t, _, hnn, ht, htB, hi => by
    have hl0 : 0 ≤ l := hnn l (by simp)
    have hη0 : 1 / 2 ^ 24 ≤ η := by
      refine le_trans ?_ hη
      rw [div_le_div_iff₀ (by positivity) (by positivity)]
      linarith
    simp only [List.map_cons, likelihoodLoop, sub_mk, zero_mk]
    by_cases h : nearest (t - l) ≤ 0
    · rw [if_pos ((le_mk _ _).2 h)]
      refine ⟨0, by simp, rfl, .inl rfl, .inl ?_⟩
      have := nearest.le_zero_of h
      rw [cum_cons, cum_zero]
      have e : (1 : ℝ) / 2 ^ 149 ≤ 1 / 2 ^ 24 := by norm_num
      push_cast
      linarith
    · rw [if_neg (fun hc => h ((le_mk _ _).1 hc))]
      have hpos : 0 < t - l := by
        by_contra hc
        exact h (nearest.nonpos_of_nonpos (not_lt.1 hc))
      have herr := nearest.error (t - l)
      rw [abs_of_pos hpos] at herr
      have herr2 : |nearest (t - l) - (t - l)| ≤ η := by
        refine herr.trans (le_trans ?_ hη)
        have h1 : (2⁻¹ : ℝ) ^ 24 * (t - l) ≤ 2⁻¹ ^ 24 * B := by gcongr; linarith
        have h2 : (2⁻¹ : ℝ) ^ 150 ≤ 2⁻¹ ^ 24 * B := by
          calc (2⁻¹ : ℝ) ^ 150 ≤ 2⁻¹ ^ 24 * (1 / 2) := by norm_num
            _ ≤ _ := by gcongr
        have h3 : B / 2 ^ 23 = 2⁻¹ ^ 24 * B + 2⁻¹ ^ 24 * B := by ring
        rw [h3]
        linarith
      have herr' := abs_le.1 herr2
      have hle : nearest (t - l) ≤ t := by
        rw [← ht]
        calc nearest (nearest t - l) ≤ nearest t := by
              conv_rhs => rw [← nearest.idem t]
              exact nearest.monotone (by linarith)
          _ = _ := rfl
      rcases eq_or_ne ls [] with rfl | hne
      · refine ⟨0, by simp, ?_, .inl rfl, .inr rfl⟩
        simp only [List.map_nil, likelihoodLoop]
        simp at hi
        omega
      · obtain ⟨j, hj, e, h1, h2⟩ := likelihoodLoop_mk n hη hB ls (i + 1) (nearest (t - l)) hne
          (fun y hy => hnn y (by simp [hy])) (nearest.idem _) (by linarith)
          (by simp only [List.length_cons] at hi; omega)
        refine ⟨j + 1, by simpa using hj, by rw [e]; ring, .inr ?_, ?_⟩
        · rw [cum_cons]
          push_cast
          rcases h1 with rfl | h1
          · rw [cum_zero]
            push_cast
            linarith
          · linarith
        · rcases h2 with h2 | h2
          · left
            rw [cum_cons]
            push_cast
            linarith
          · right
            simp [h2]

end Single

end Dist
