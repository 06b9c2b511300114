import Mathlib.LinearAlgebra.Matrix.SchurComplement
import Mathlib.Analysis.Matrix.PosDef
import Mathlib.Analysis.Complex.Order
import Mathlib.Data.Real.StarOrdered
import Mathlib.Tactic.FieldSimp
import Mathlib.Tactic.Linarith
import Verif.Spec.MvNormal
import Verif.Lemmas.Features
import Verif.Lemmas.PYScores

/-! # Lemmas about Normal-Inverse-Wishart groups in exact arithmetic -/

namespace Dist

open Spec FloatOps FloatNotation Matrix

namespace NIW

variable {d : Nat}

/-- A vector of exact numbers. -/
abbrev vec (v : Fin d → ℝ) : Vec XR d := fun i => .fin (v i)

/-- A matrix of exact numbers. -/
abbrev mat (m : Matrix (Fin d) (Fin d) ℝ) : Mat XR d := fun i j => .fin (m i j)

/-- A group with exact statistics. -/
abbrev mk (n : Int) (s : Fin d → ℝ) (q : Matrix (Fin d) (Fin d) ℝ) : Group XR d :=
  ⟨n, vec s, mat q⟩

/-- Exact hyperparameters. -/
abbrev real (mu : Fin d → ℝ) (kappa : ℝ) (psi : Matrix (Fin d) (Fin d) ℝ) (nu : ℝ) :
    Shared XR d := ⟨vec mu, .fin kappa, mat psi, .fin nu⟩

/-- The group operations on exact values. -/
noncomputable def opsReal : GroupOps (Group XR d) (Fin d → ℝ) :=
  ⟨mk 0 0 0, fun g v => g.addValue (vec v), fun g v => g.removeValue (vec v)⟩

theorem init_eq (lvl : Nat) (hd : 0 < d) :
    (Group.init lvl : Res (Group XR d)) = .ok (mk 0 0 0) := by
  rw [Group.init, distAssert_of hd]
  simp only [Res.ok_bind, Res.pure_eq, XR.ofInt_eq, Int.cast_zero]; rfl

theorem add_eq (n : Int) (hn : InInt32 (n + 1)) (s : Fin d → ℝ) (q) (v : Fin d → ℝ) :
    (mk n s q).addValue (vec v) = .ok (mk (n + 1) (s + v) (q + vecMulVec v v)) := by
  simp only [Group.addValue, i32_of hn]
  simp only [Res.ok_bind, Res.pure_eq, XR.ofInt_eq, XR.fin_mul, XR.fin_add, XR.fin_sub]; rfl

theorem remove_eq (n : Int) (hn : InInt32 (n - 1)) (s : Fin d → ℝ) (q) (v : Fin d → ℝ) :
    (mk n s q).removeValue (vec v) = .ok (mk (n - 1) (s - v) (q - vecMulVec v v)) := by
  simp only [Group.removeValue, i32_of hn]
  simp only [Res.ok_bind, Res.pure_eq, XR.ofInt_eq, XR.fin_mul, XR.fin_add, XR.fin_sub]; rfl

theorem repeat_eq (n c : Int) (hn : InInt32 (n + c)) (s : Fin d → ℝ) (q) (v : Fin d → ℝ) :
    (mk n s q).addRepeatedValue (vec v) c =
      .ok (mk (n + c) (s + (c : ℝ) • v) (q + (c : ℝ) • vecMulVec v v)) := by
  simp only [Group.addRepeatedValue, i32_of hn]
  simp only [Res.ok_bind, Res.pure_eq, XR.ofInt_eq, XR.fin_mul, XR.fin_add, XR.fin_sub]; rfl

theorem merge_eq (n m : Int) (hn : InInt32 (n + m)) (s t : Fin d → ℝ) (q r) :
    (mk n s q).merge (mk m t r) = .ok (mk (n + m) (s + t) (q + r)) := by
  simp only [Group.merge, i32_of hn]
  simp only [Res.ok_bind, Res.pure_eq, XR.fin_add]; rfl

theorem run_eq (h : List (ValueOp (Fin d → ℝ))) (n : Int) (hn : |n| + h.length ≤ 2147483647)
    (s : Fin d → ℝ) (q : Matrix (Fin d) (Fin d) ℝ) :
    runGroup opsReal (mk n s q) h = .ok (mk (n + signedSum (fun _ => (1 : Int)) h)
      (s + signedSum id h) (q + signedSum (fun v => vecMulVec v v) h)) := by
  induction h generalizing n s q with
  | nil => simp [runGroup, signedSum]
  | cons op h ih =>
    have hb := abs_le.mp (show |n| ≤ 2147483646 by simp only [List.length_cons] at hn; push_cast at hn; omega)
    cases op with
    | add v =>
      simp only [runGroup, signedSum]
      show (mk n s q).addValue (vec v) >>= _ = _
      rw [add_eq n (by unfold InInt32 int32Min int32Max; omega), Res.ok_bind, ih]
      · simp only [id, add_assoc]
      · have := abs_add_le n 1
        simp only [List.length_cons] at hn; push_cast at hn
        rw [abs_one] at this; omega
    | remove v =>
      simp only [runGroup, signedSum]
      show (mk n s q).removeValue (vec v) >>= _ = _
      rw [remove_eq n (by unfold InInt32 int32Min int32Max; omega), Res.ok_bind, ih]
      · simp only [id, sub_eq_add_neg, add_assoc]
      · have := abs_add_le n (-1)
        simp only [List.length_cons] at hn; push_cast at hn
        rw [abs_neg, abs_one] at this; simp only [Int.sub_eq_add_neg]; omega

theorem signedSum_adds {V A : Type} [AddCommGroup A] (f : V → A) (xs : List V) :
    signedSum f (xs.map .add) = (xs.map f).sum := by
  induction xs with
  | nil => rfl
  | cons v vs ih => simp [signedSum, ih]

/-- The group of a data set. -/
noncomputable abbrev stats (xs : List (Fin d → ℝ)) : Group XR d :=
  mk xs.length (vecSum xs) (outerSum xs)

theorem addAll_eq (xs : List (Fin d → ℝ)) (hl : xs.length ≤ 2147483647) :
    addAll opsReal (mk 0 0 0) xs = .ok (stats xs) := by
  rw [addAll_eq_runGroup, run_eq _ _ (by simpa using hl)]
  simp only [signedSum_adds, zero_add]
  simp [vecSum, outerSum]

/-- Posterior scale matrix. -/
noncomputable def postPsi (mu : Fin d → ℝ) (kappa : ℝ) (psi : Matrix (Fin d) (Fin d) ℝ) (n : ℝ)
    (s : Fin d → ℝ) (q : Matrix (Fin d) (Fin d) ℝ) : Matrix (Fin d) (Fin d) ℝ :=
  psi + kappa • vecMulVec mu mu + q -
    (1 / (kappa + n)) • vecMulVec (kappa • mu + s) (kappa • mu + s)

theorem postPsi_apply (mu : Fin d → ℝ) (kappa : ℝ) (psi : Matrix (Fin d) (Fin d) ℝ) (n : ℝ)
    (s : Fin d → ℝ) (q : Matrix (Fin d) (Fin d) ℝ) (i j : Fin d) :
    postPsi mu kappa psi n s q i j = psi i j + kappa * (mu i * mu j) + q i j -
      1 / (kappa + n) * ((kappa * mu i + s i) * (kappa * mu j + s j)) := by
  simp only [postPsi, Matrix.add_apply, Matrix.sub_apply, Matrix.smul_apply,
        vecMulVec_apply, Pi.smul_apply, smul_eq_mul, Pi.add_apply]

theorem plusGroup_eq (lvl : Nat) (hd : 0 < d) (mu : Fin d → ℝ) (kappa : ℝ)
    (psi : Matrix (Fin d) (Fin d) ℝ) (nu : ℝ) (n : Int) (s : Fin d → ℝ)
    (q : Matrix (Fin d) (Fin d) ℝ) (h0 : n = 0 → s = 0) (hk : kappa + n ≠ 0) :
    (real mu kappa psi nu).plusGroup lvl (mk n s q) =
      .ok (real ((1 / (kappa + n)) • (kappa • mu + s)) (kappa + n)
        (postPsi mu kappa psi n s q) (nu + n)) := by
  rw [Shared.plusGroup, distAssert_of hd]
  simp only [Res.ok_bind, Res.pure_eq, Res.ok.injEq, XR.ofInt_eq, XR.fin_add, Shared.mk.injEq,
    true_and, and_true]
  by_cases hn : n = 0
  · have hs := h0 hn
    subst hn hs
    simp only [Int.cast_zero, add_zero] at hk
    constructor
    · funext i
      simp only [ne_eq, not_true, if_false, Int.cast_zero, add_zero, XR.fin_mul, XR.fin_add]
      rw [XR.fin_div _ _ hk, XR.fin_div _ _ hk]
      simp [hk]
    · funext i j
      rw [show mat (postPsi mu kappa psi _ _ q) i j = XR.fin _ from congrArg XR.fin (postPsi_apply ..)]
      simp only [ne_eq, not_true, if_false, Int.cast_zero, add_zero, XR.fin_mul, XR.fin_add,
        XR.fin_sub, outer, Pi.zero_apply]
      rw [XR.fin_div _ _ hk]
      simp only [XR.fin_mul, XR.fin_add, XR.fin_inj]
      field_simp; ring
  · have hn' : (n : ℝ) ≠ 0 := by exact_mod_cast hn
    constructor
    · funext i
      simp only [ne_eq, hn, not_false_eq_true, if_true]
      rw [XR.fin_div _ _ hk, XR.fin_div _ _ hk, XR.fin_div _ _ hn']
      simp only [XR.fin_mul, XR.fin_add, XR.fin_inj, Pi.smul_apply, smul_eq_mul, Pi.add_apply]
      field_simp
    · funext i j
      rw [show mat (postPsi mu kappa psi _ _ q) i j = XR.fin _ from congrArg XR.fin (postPsi_apply ..)]
      simp only [ne_eq, hn, not_false_eq_true, if_true, outer, XR.fin_mul]
      rw [XR.fin_div _ _ hk, XR.fin_div _ _ hn', XR.fin_div _ _ hn']
      simp only [XR.fin_mul, XR.fin_add, XR.fin_sub, XR.fin_inj]
      field_simp; ring

/-- Updating twice is updating with the sums. -/
theorem postPsi_postPsi (mu : Fin d → ℝ) (kappa : ℝ) (psi : Matrix (Fin d) (Fin d) ℝ) (n m : ℝ)
    (s t : Fin d → ℝ) (q r : Matrix (Fin d) (Fin d) ℝ) (hk : kappa + n ≠ 0) :
    postPsi ((1 / (kappa + n)) • (kappa • mu + s)) (kappa + n) (postPsi mu kappa psi n s q) m t r =
      postPsi mu kappa psi (n + m) (s + t) (q + r) := by
  ext i j
  simp only [postPsi, Matrix.add_apply, Matrix.sub_apply, Matrix.smul_apply, vecMulVec_apply,
    Pi.smul_apply, smul_eq_mul, Pi.add_apply, ← add_assoc]
  generalize hK : kappa + n + m = K
  field_simp; ring

theorem postPsi_single (mu : Fin d → ℝ) (kappa : ℝ) (psi : Matrix (Fin d) (Fin d) ℝ)
    (x : Fin d → ℝ) (hk : kappa + 1 ≠ 0) :
    postPsi mu kappa psi 1 x (vecMulVec x x) =
      psi + vecMulVec ((kappa / (kappa + 1)) • (x - mu)) (x - mu) := by
  ext i j
  simp only [postPsi, Matrix.add_apply, Matrix.sub_apply, Matrix.smul_apply, vecMulVec_apply,
    Pi.smul_apply, smul_eq_mul, Pi.add_apply, Pi.sub_apply]
  field_simp; ring

theorem posDef_single (psi : Matrix (Fin d) (Fin d) ℝ) (h : psi.PosDef) (c : ℝ) (hc : 0 ≤ c)
    (y : Fin d → ℝ) : (psi + vecMulVec (c • y) y).PosDef := by
  have e : vecMulVec (c • y) y = c • vecMulVec y (star y) := by
    ext i j; simp [vecMulVec_apply, mul_assoc]
  rw [e]
  exact h.add_posSemidef ((posSemidef_vecMulVec_self_star y).smul hc)

theorem det_single (psi : Matrix (Fin d) (Fin d) ℝ) (h : psi.det ≠ 0) (c : ℝ) (y : Fin d → ℝ) :
    (psi + vecMulVec (c • y) y).det = psi.det * (1 + c * (y ⬝ᵥ (psi⁻¹ *ᵥ y))) := by
  rw [vecMulVec_eq Unit, det_add_replicateCol_mul_replicateRow (isUnit_iff_ne_zero.mpr h)]
  congr 1
  rw [det_unique, Matrix.add_apply, one_apply_eq, Matrix.mul_assoc, ← replicateCol_mulVec,
    replicateRow_mul_replicateCol_apply, mulVec_smul, dotProduct_smul, smul_eq_mul]

/-- Posterior parameters of a data set. -/
theorem post_posDef (mu : Fin d → ℝ) (kappa : ℝ) (psi : Matrix (Fin d) (Fin d) ℝ)
    (hk : 0 < kappa) (hp : psi.PosDef) (xs : List (Fin d → ℝ)) :
    (postPsi mu kappa psi xs.length (vecSum xs) (outerSum xs)).PosDef := by
  induction xs generalizing mu kappa psi with
  | nil =>
    have : postPsi mu kappa psi ((([] : List (Fin d → ℝ)).length : ℕ) : ℝ) (vecSum [])
        (outerSum []) = psi := by
      ext i j
      have := hk.ne'
      simp [postPsi, vecSum, outerSum, vecMulVec_apply]
      field_simp; ring
    rw [this]; exact hp
  | cons x xs ih =>
    have e := postPsi_postPsi mu kappa psi 1 xs.length x (vecSum xs) (vecMulVec x x) (outerSum xs)
      (by positivity)
    have hh := ih ((1 / (kappa + 1)) • (kappa • mu + x)) (kappa + 1)
      (postPsi mu kappa psi 1 x (vecMulVec x x)) (by positivity) (by
        rw [postPsi_single _ _ _ _ (by positivity)]
        exact posDef_single psi hp _ (by positivity) _)
    rw [e] at hh
    have e1 : vecSum (x :: xs) = x + vecSum xs := by simp [vecSum]
    have e2 : outerSum (x :: xs) = vecMulVec x x + outerSum xs := by simp [outerSum]
    rw [e1, e2, List.length_cons, Nat.cast_add, Nat.cast_one, add_comm (xs.length : ℝ)]
    exact hh

/-! ### Scores -/

theorem foldl_add_fin (l : List ι) (f : ι → ℝ) (acc : ℝ) :
    l.foldl (fun a i => a + (XR.fin (f i) : XR)) (.fin acc) = .fin (acc + (l.map f).sum) := by
  induction l generalizing acc with
  | nil => simp
  | cons i l ih => simp [ih, add_assoc]

theorem dot_eq (v w : Fin d → ℝ) : dot (vec v) (vec w) = (.fin (v ⬝ᵥ w) : XR) := by
  simp only [dot, XR.fin_mul, XR.ofInt_eq, Int.cast_zero]
  rw [foldl_add_fin]
  simp [dotProduct, Fin.sum_univ_def, List.ofFn_eq_map]

theorem mulVec_eq (m : Matrix (Fin d) (Fin d) ℝ) (v : Fin d → ℝ) :
    mulVec (mat m) (vec v) = vec (m *ᵥ v) := by
  funext i
  exact dot_eq (m i) v

theorem lmultigamma_eq (lvl : Nat) (hd : 0 < d) {a : ℝ} (ha : ((d : ℝ) - 1) / 2 < a) :
    lmultigamma lvl d (XR.fin a) = .ok (.fin (1 / 4 * ((d * (d - 1) % 4294967296 : Nat) : ℝ) *
      Real.log Real.pi + ∑ j ∈ Finset.range d, Real.log (Real.Gamma (a - j / 2)))) := by
  rw [lmultigamma, distAssert_of hd]
  simp only [Res.ok_bind, Res.pure_eq, Res.ok.injEq, XR.lit_eq, XR.ofInt_eq, XR.logPi_eq,
    XR.fin_mul, XR.fin_add, Int.cast_natCast]
  have : ∀ (l : List ℕ) (acc : ℝ), (∀ j ∈ l, j < d) →
      l.foldl (fun t (j : ℕ) => t + lgamma (XR.fin (a + ((1 : Int) : ℝ) / ((2 : ℕ) : ℝ) *
        ((1 - ((j : Int) + 1) : Int) : ℝ)))) (XR.fin acc) =
      .fin (acc + (l.map fun j : ℕ => Real.log (Real.Gamma (a - j / 2))).sum) := by
    intro l
    induction l with
    | nil => simp
    | cons j l ih =>
      intro acc hl
      have hj : (j : ℝ) + 1 ≤ d := by exact_mod_cast hl j (by simp)
      have e : a + ((1 : Int) : ℝ) / ((2 : ℕ) : ℝ) * ((1 - ((j : Int) + 1) : Int) : ℝ) =
          a - j / 2 := by push_cast; ring
      rw [List.foldl_cons, e, XR.lgamma_fin (by linarith), XR.fin_add,
        ih _ fun k hk => hl k (by simp [hk])]
      simp [add_assoc]
  rw [show ((0 : Int) : ℝ) = 0 by simp, this _ _ (by simp)]
  simp [Finset.sum_range, Fin.sum_univ_def, List.map_ofFn, ← List.map_coe_finRange_eq_range]
  rfl

theorem sum_shift (a : ℝ) (d : ℕ) :
    (∑ j ∈ Finset.range d, Real.log (Real.Gamma ((a + 1 / 2) - j / 2))) +
      Real.log (Real.Gamma (a + 1 / 2 - d / 2)) =
    (∑ j ∈ Finset.range d, Real.log (Real.Gamma (a - j / 2))) +
      Real.log (Real.Gamma (a + 1 / 2)) := by
  induction d with
  | zero => simp
  | succ d ih =>
    rw [Finset.sum_range_succ, Finset.sum_range_succ]
    push_cast
    rw [show a + 1 / 2 - ((d : ℝ) + 1) / 2 = a - d / 2 by ring]
    linarith

end NIW

end Dist
