import Mathlib.Analysis.SpecialFunctions.Log.Deriv
import Mathlib.Tactic.NormNum
import Mathlib.Tactic.Positivity
import Mathlib.Tactic.Linarith
import Mathlib.Tactic.Ring
import Mathlib.Tactic.FieldSimp
import Verif.Base.XR
import Verif.Model.Clustering

/-! Lemmas on the low-entropy model in exact arithmetic. -/

set_option linter.unusedSimpArgs false

namespace Dist

open FloatOps FloatNotation

namespace LowEntropy

/-- The correction term as a real number. -/
noncomputable def corr (N n : ℝ) : ℝ :=
  Real.log (N / n) * (45 / 100 - 1 / 10 / n - 1 / 10 / N)

theorem postpred_eq (lvl : Nat) (m : LowEntropy) (n : Int) (h0 : 0 < n) (hn : n < m.datasetSize) :
    postpredCorrection lvl m (ofInt n : XR) = .ok (.fin (corr m.datasetSize n)) := by
  have h0' : (0 : ℝ) < n := by exact_mod_cast h0
  have hn' : (n : ℝ) < m.datasetSize := by exact_mod_cast hn
  unfold postpredCorrection
  rw [distAssert_of (by simpa using h0'), Res.ok_bind, distAssert_of (by simpa using hn'), Res.ok_bind]
  have hN : (0 : ℝ) < m.datasetSize := by linarith
  simp only [XR.ofInt_eq, XR.lit_eq]
  rw [XR.fin_div _ _ h0'.ne', XR.fin_div _ _ hN.ne', XR.fin_div _ _ h0'.ne',
    XR.log_fin (div_pos hN h0'), XR.fin_sub, XR.fin_sub, XR.fin_mul]
  norm_num [corr]

/-- The correction is positive on incomplete samples. -/
theorem corr_pos {N n : ℝ} (h1 : 1 ≤ n) (hn : n < N) : 0 < corr N n := by
  have h0 : 0 < n := by linarith
  have hN : 0 < N := by linarith
  unfold corr
  apply mul_pos
  · exact Real.log_pos (by rw [lt_div_iff₀ h0]; linarith)
  · have a : 1 / 10 / n ≤ 1 / 10 := by
      rw [div_le_iff₀ h0]; linarith
    have b : 1 / 10 / N ≤ 1 / 10 := by
      rw [div_le_iff₀ hN]; linarith
    linarith

/-- `score_add_value` on an empty group, exactly. -/
theorem scoreAdd_zero (lvl : Nat) (m : LowEntropy) (k n e : Int)
    (h0 : 0 ≤ n) (hn : n < m.datasetSize) (he : 0 < e) (hk : k ≤ n)
    (hm : m.datasetSize ≤ 2147483647) :
    (scoreAddValue lvl m 0 k n e : Res XR) = .ok (.fin (-Real.log e +
      if n + 1 < m.datasetSize then corr m.datasetSize ((n + 1 : Int) : ℝ) else 0)) := by
  unfold scoreAddValue
  rw [distAssert_of hn, Res.ok_bind, distAssert_of he, Res.ok_bind, distAssert_of hk, Res.ok_bind,
    if_pos rfl]
  simp only
  rw [i32_of (by unfold InInt32 int32Min int32Max; omega), Res.ok_bind]
  have he' : (0 : ℝ) < e := by exact_mod_cast he
  simp only [XR.ofInt_eq, XR.log_fin he', XR.fin_neg]
  split_ifs with h
  · have := postpred_eq lvl m (n + 1) (by omega) h
    rw [XR.ofInt_eq] at this
    rw [this, Res.ok_bind, XR.fin_add]; rfl
  · simp

/-- `score_add_value` on a nonempty group, exactly. -/
theorem scoreAdd_pos (lvl : Nat) (m : LowEntropy) (g k n e : Int) (hg : 0 < g)
    (hn : n < m.datasetSize) (he : 0 < e) (hk : k ≤ n) :
    (scoreAddValue lvl m g k n e : Res XR) = .ok (.fin (
      if g > 10000 then 1 + Real.log (1 + g)
      else Real.log ((1 + g) / g) * g + Real.log (1 + g))) := by
  have hg' : (0 : ℝ) < g := by exact_mod_cast hg
  unfold scoreAddValue
  rw [distAssert_of hn, Res.ok_bind, distAssert_of he, Res.ok_bind, distAssert_of hk, Res.ok_bind,
    if_neg (by omega)]
  simp only [XR.ofInt_eq, XR.lit_eq, XR.fin_add]
  norm_num
  have h1 : (0 : ℝ) < 1 + g := by linarith
  rw [XR.log_fin h1, XR.fin_div _ _ hg'.ne', XR.log_fin (div_pos h1 hg'), XR.fin_mul, XR.fin_add,
    XR.fin_add]
  split_ifs <;> rfl

/-- `n log n` with the convention of the code (`0` for `n ≤ 1`). -/
noncomputable def xlogx (c : Int) : ℝ := (c : ℝ) * Real.log c

theorem countsLoop_eq (cs : List Nat) (s : ℝ) (n : Nat) (h : n + cs.sum ≤ 2147483647) :
    countsLoop (cs.map Int.ofNat) (XR.fin s) n =
      .ok (XR.fin (s + (cs.map fun c : Nat => (c : ℝ) * Real.log c).sum), ((n + cs.sum : Nat) : Int)) := by
  induction cs generalizing s n with
  | nil => simp [countsLoop]
  | cons c cs ih =>
    simp only [List.sum_cons] at h
    simp only [List.map_cons, countsLoop]
    rw [i32_of (by unfold InInt32 int32Min int32Max; show _ ≤ (n : Int) + (c : Int) ∧ (n : Int) + (c : Int) ≤ _; omega),
      Res.ok_bind]
    have e1 : ((n : Int) + Int.ofNat c) = ((n + c : Nat) : Int) := by simp
    have e2 : (if Int.ofNat c > 1 then XR.fin s + ofInt (Int.ofNat c) * log (ofInt (Int.ofNat c)) else XR.fin s)
        = XR.fin (s + (c : ℝ) * Real.log c) := by
      split_ifs with hc
      · have hc' : (0 : ℝ) < (c : ℝ) := by
          have : 1 < c := by simpa using hc
          exact_mod_cast (by omega : 0 < c)
        simp only [XR.ofInt_eq, Int.ofNat_eq_natCast, Int.cast_natCast]
        rw [XR.log_fin hc', XR.fin_mul, XR.fin_add]
      · have : c = 0 ∨ c = 1 := by
          have : ¬ (1 < c) := by simpa using hc
          omega
        rcases this with rfl | rfl <;> simp
    rw [e1, e2, ih _ _ (by omega)]
    simp only [List.sum_cons, ← add_assoc]

end LowEntropy

end Dist
