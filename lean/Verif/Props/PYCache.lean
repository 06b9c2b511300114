import Mathlib.Tactic.NormNum
import Mathlib.Tactic.Positivity
import Mathlib.Tactic.FieldSimp
import Verif.Base.XR
import Verif.Lemmas.PYCache

/-! # Property C13: the cached Pitman-Yor mixture -/

namespace Dist

open Spec FloatOps FloatNotation

namespace PitmanYor

variable {F : Type} [FloatOps F]

/-- One call on the cached mixture. -/
def Cached.stepOp (lvl : Nat) (m : PitmanYor F) (c : Cached F) : Op → Res (Cached F × Bool)
  | .add g n => c.addValue lvl m g n
  | .remove g n => c.removeValue lvl m g n

/-- A history of calls; the returned flags are collected. -/
def Cached.runOps (lvl : Nat) (m : PitmanYor F) : Cached F → List Op → Res (Cached F × List Bool)
  | c, [] => .ok (c, [])
  | c, op :: ops => do
    let (c, b) ← c.stepOp lvl m op
    let (c, bs) ← Cached.runOps lvl m c ops
    return (c, b :: bs)

theorem Cached.runOps_canon (lvl : Nat) (m : PitmanYor F) {l : List Nat} {ops : List Op}
    (hv : ValidHistory l ops) (he : lvl = 0 ∨ 0 ∈ l) (hs : l.sum ≤ 2147483647) :
    (canon m l).runOps lvl m ops = .ok (canon m (run l ops), flags l ops) ∧
      (lvl = 0 ∨ 0 ∈ run l ops) ∧ (run l ops).sum ≤ 2147483647 := by
  induction ops generalizing l with
  | nil => exact ⟨rfl, he, hs⟩
  | cons op ops ih =>
    obtain ⟨h1, h2⟩ := hv
    obtain ⟨i1, i2, i3⟩ := ih h2 (Driver.has_empty_step h1 he) (Driver.sum_step h1 hs)
    refine ⟨?_, i2, i3⟩
    have hstep : (canon m l).stepOp lvl m op = .ok (canon m (op.step l), op.flag l) := by
      cases op with
      | add g n => exact addValue_canon lvl m h1
      | remove g n => exact removeValue_canon lvl m h1 he hs
    rw [runOps, hstep, Res.ok_bind]
    simp only [i1, Res.ok_bind]
    rfl

end PitmanYor

open PitmanYor

/-- **C13, bit for bit.** For every float type, parameters and debug level: after
`init` on group sizes `l0` (with an empty group unless assertions are off) and any
valid history, every call succeeds and returns the right flag, the counts are those
of the specification, and the whole state of the cached mixture is exactly what
`init` produces on a fresh mixture with these counts, whatever its score vector
contained before.  Nothing is assumed about the floating point operations. -/
theorem C13_cache_coherent {F : Type} [FloatOps F] (lvl : Nat) (m : PitmanYor F)
    (l0 : List Nat) (ops : List Op) (hs : l0.sum ≤ 2147483647) (he : lvl = 0 ∨ 0 ∈ l0)
    (hv : ValidHistory l0 ops) (junk : List F) :
    ∃ c0 c, Cached.init lvl m ⟨Driver.raw (l0.map Int.ofNat), junk⟩ = .ok c0 ∧
      c0.runOps lvl m ops = .ok (c, flags l0 ops) ∧
      c.driver.counts = (run l0 ops).map Int.ofNat ∧
      ∀ junk', Cached.init lvl m ⟨Driver.raw c.driver.counts, junk'⟩ = .ok c := by
  obtain ⟨h1, h2, h3⟩ := Cached.runOps_canon lvl m hv he hs
  exact ⟨Cached.canon m l0, Cached.canon m (run l0 ops), Cached.init_eq lvl m l0 junk hs he, h1, rfl,
    fun junk' => Cached.init_eq lvl m _ junk' h3 h2⟩

/-- **C13, exact arithmetic.** After any valid history the vector written by the
cached `score_value` holds at every position the uncached model's `score_add_value`
of that group's size, the number of nonempty groups, the sample size and the number
of empty groups.  Required: `d < 1` and `alpha` plus the sample size positive; if a
score is undefined in one, it is undefined in the other. -/
theorem C13_cached_equals_uncached (lvl : Nat) (alpha d : ℝ) (hd : d < 1)
    (l0 : List Nat) (ops : List Op) (hs : l0.sum ≤ 2147483647) (he : lvl = 0 ∨ 0 ∈ l0)
    (hv : ValidHistory l0 ops) (ha : 0 < alpha + ((run l0 ops).sum : ℝ))
    (c0 c : Cached XR) (junk : List XR)
    (h0 : Cached.init lvl ⟨.fin alpha, .fin d⟩ ⟨Driver.raw (l0.map Int.ofNat), junk⟩ = .ok c0)
    (h : c0.runOps lvl ⟨.fin alpha, .fin d⟩ ops = .ok (c, flags l0 ops)) :
    c.scoreValue lvl ⟨.fin alpha, .fin d⟩ (run l0 ops).length =
      .ok ((run l0 ops).map fun n : Nat =>
        PitmanYor.scoreAddValue ⟨.fin alpha, .fin d⟩ n
          (((run l0 ops).length - (run l0 ops).count 0 : Nat) : Int)
          (((run l0 ops).sum : Nat) : Int) (((run l0 ops).count 0 : Nat) : Int)) := by
  obtain ⟨h1, h2, h3⟩ := Cached.runOps_canon lvl (⟨.fin alpha, .fin d⟩ : PitmanYor XR) hv he hs
  rw [Cached.init_eq lvl _ l0 junk hs he] at h0
  injection h0 with h0
  subst h0
  rw [h1] at h
  injection h with h
  rw [Prod.mk.injEq] at h
  obtain ⟨rfl, -⟩ := h
  rw [Cached.scoreValue_canon]
  congr 1
  apply List.map_congr_left
  intro n hn
  generalize hl : run l0 ops = l at *
  have hpos : (0 : ℝ) < ((l.sum : ℕ) : ℝ) + alpha := by linarith
  simp only [PitmanYor.scoreAddValue, Cached.cell, XR.ofInt_eq, Int.cast_natCast, XR.fin_add,
    XR.log_fin hpos, XR.fin_neg]
  by_cases h0 : n = 0
  · subst h0
    have hE : (0 : ℝ) < ((l.count 0 : ℕ) : ℝ) := by
      exact_mod_cast List.count_pos_iff.mpr hn
    simp only [Nat.cast_zero, if_true, Cached.emptyScore, XR.ofInt_eq, Int.cast_natCast, XR.fin_mul,
      XR.fin_add]
    rw [XR.fin_div _ _ hE.ne', XR.fin_div _ _ (mul_pos hpos hE).ne']
    generalize alpha + d * ((l.length - l.count 0 : ℕ) : ℝ) = numer
    rcases lt_or_ge 0 numer with hnum | hnum
    · rw [XR.log_fin (div_pos hnum hE), XR.log_fin (div_pos hnum (mul_pos hpos hE)), XR.fin_add]
      congr 1
      rw [Real.log_div hnum.ne' hE.ne', Real.log_div hnum.ne' (mul_pos hpos hE).ne',
        Real.log_mul hpos.ne' hE.ne']
      ring
    · rw [XR.log_fin_nonpos (div_nonpos_of_nonpos_of_nonneg hnum hE.le),
        XR.log_fin_nonpos (div_nonpos_of_nonpos_of_nonneg hnum (mul_pos hpos hE).le)]
      rfl
  · have h0' : ((n : Int) = 0) = False := by simpa using h0
    have hn1 : (1 : ℝ) ≤ (n : ℝ) := by exact_mod_cast Nat.one_le_iff_ne_zero.mpr h0
    have hnd : (0 : ℝ) < (n : ℝ) - d := by linarith
    simp only [h0, h0', if_false, XR.fin_sub]
    rw [XR.fin_div _ _ hpos.ne', XR.log_fin hnd, XR.log_fin (div_pos hnd hpos), XR.fin_add]
    congr 1
    rw [Real.log_div hnd.ne' hpos.ne']
    ring

/-- A history of five calls that creates, grows, shrinks and destroys groups. -/
example : ValidHistory [2, 0, 0] [.add 1 3, .remove 0 2, .add 0 1, .remove 0 1, .add 1 1] ∧
    run [2, 0, 0] [.add 1 3, .remove 0 2, .add 0 1, .remove 0 1, .add 1 1] = [0, 4, 0] ∧
    (0 : ℝ) < -1 / 2 + (([0, 4, 0] : List Nat).sum : ℝ) := by
  refine ⟨by decide, by decide, by norm_num⟩

end Dist
