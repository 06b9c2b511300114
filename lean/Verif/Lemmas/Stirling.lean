import Verif.Model.Stirling
import Verif.Base.XE
import Mathlib.Combinatorics.Enumerative.Stirling
import Mathlib.Tactic.Ring
import Mathlib.Tactic.FieldSimp
import Mathlib.Tactic.Linarith

/-! # Helper lemmas about the Stirling rows -/

namespace Dist.Stirling

open FloatOps FloatNotation

variable {F : Type} [FloatOps F]

/-- The entry the recurrence gives. -/
def entry (L : Lib F) : Nat → Nat → F
  | 0, _ => lit 0 1
  | n + 1, k =>
    if k = n + 1 then lit 0 1 else if k = 0 then L.negInf
    else logSumExp L (L.logf (ofInt (n : Int)) + entry L n k) (entry L n (k - 1))

/-- Row `m` while entries below `k` have been written. -/
def partialRow (L : Lib F) (m k : Nat) : List F :=
  (List.range (m + 1)).map fun j =>
    if j = m then lit 0 1 else if j = 0 then L.negInf
    else if j < k then entry L m j else lit 0 1

def fullRow (L : Lib F) (m : Nat) : List F := (List.range (m + 1)).map (entry L m)

def rows (L : Lib F) (m : Nat) : List (List F) := (List.range m).map (fullRow L)

@[simp] theorem length_rows (L : Lib F) (m : Nat) : (rows L m).length = m := by simp [rows]
@[simp] theorem length_fullRow (L : Lib F) (m : Nat) : (fullRow L m).length = m + 1 := by
  simp [fullRow]
@[simp] theorem length_partialRow (L : Lib F) (m k : Nat) : (partialRow L m k).length = m + 1 := by
  simp [partialRow]

theorem rows_succ (L : Lib F) (m : Nat) : rows L (m + 1) = rows L m ++ [fullRow L m] := by
  simp [rows, List.range_succ]

theorem entry_self (L : Lib F) (m : Nat) : entry L m m = lit 0 1 := by
  cases m <;> simp [entry]

theorem entry_zero (L : Lib F) {m : Nat} (h : m ≠ 0) : entry L m 0 = L.negInf := by
  obtain ⟨m, rfl⟩ := Nat.exists_eq_succ_of_ne_zero h
  simp [entry]

theorem partialRow_full (L : Lib F) {m k : Nat} (h : m ≤ k) : partialRow L m k = fullRow L m := by
  unfold partialRow fullRow
  refine List.map_congr_left ?_
  intro j hj
  have hj := List.mem_range.mp hj
  split_ifs with h1 h2 h3
  · rw [h1, entry_self]
  · rw [h2, entry_zero L (by omega)]
  · rfl
  · omega

theorem partialRow_one (L : Lib F) (m : Nat) :
    setAt (List.replicate (m + 1) (lit 0 1 : F)) 0 L.negInf =
      .ok ((List.replicate (m + 1) (lit 0 1 : F)).set 0 L.negInf) ∧
    setAt ((List.replicate (m + 1) (lit 0 1 : F)).set 0 L.negInf) m (lit 0 1) =
      .ok (partialRow L m 1) := by
  refine ⟨setAt_of (by simp), ?_⟩
  rw [setAt_of (by simp)]
  congr 1
  apply List.ext_getElem
  · simp
  · intro i h1 h2
    simp only [List.getElem_set, List.getElem_replicate, partialRow, List.getElem_map,
      List.getElem_range]
    split_ifs <;> first | rfl | omega

theorem getAt_fullRow (L : Lib F) {m k : Nat} (h : k ≤ m) :
    getAt (fullRow L m) k = .ok (entry L m k) := by
  rw [getAt_of (by simpa using Nat.lt_succ_of_le h)]
  simp [fullRow]

theorem getAt_rows (L : Lib F) {m k : Nat} (h : k < m) (l : List (List F)) :
    getAt (rows L m ++ l) k = .ok (fullRow L k) := by
  rw [getAt_of (by simp; omega)]
  rw [List.getElem_append_left (by simpa using h)]
  simp [rows]

/-- One write of the row loop. -/
theorem setAt_partialRow (L : Lib F) {m k : Nat} (h1 : 1 ≤ k) (h2 : k < m + 1) :
    setAt (partialRow L (m + 1) k) k
      (logSumExp L (L.logf (ofInt (m : Int)) + entry L m k) (entry L m (k - 1))) =
      .ok (partialRow L (m + 1) (k + 1)) := by
  rw [setAt_of (by simp; omega)]
  congr 1
  apply List.ext_getElem
  · simp
  · intro i h3 h4
    simp only [List.getElem_set, partialRow, List.getElem_map, List.getElem_range]
    by_cases hi : k = i
    · subst hi
      rw [if_pos rfl, if_neg (by omega), if_neg (by omega), if_pos (by omega)]
      rw [entry, if_neg (by omega), if_neg (by omega)]
    · rw [if_neg hi]
      split_ifs <;> first | rfl | omega

theorem fillRow_eq (L : Lib F) (m : Nat) : ∀ (fuel k : Nat), 1 ≤ k → k + fuel = m + 1 →
    fillRow L (L.logf (ofInt (m : Int))) (fullRow L m) fuel k (partialRow L (m + 1) k) =
      .ok (fullRow L (m + 1)) := by
  intro fuel
  induction fuel with
  | zero =>
    intro k _ hk
    rw [fillRow, partialRow_full L (by omega)]
  | succ fuel ih =>
    intro k h1 hk
    rw [fillRow, getAt_fullRow L (by omega), Res.ok_bind, getAt_fullRow L (by omega), Res.ok_bind,
      setAt_partialRow L h1 (by omega), Res.ok_bind]
    exact ih (k + 1) (by omega) (by omega)

theorem cacheAdd_rows (L : Lib F) (m : Nat) : cacheAdd L (rows L m) = .ok (rows L (m + 1)) := by
  obtain ⟨h0, h1⟩ := partialRow_one L m
  unfold cacheAdd
  simp only [length_rows]
  rw [h0, Res.ok_bind, h1, Res.ok_bind]
  by_cases hm : 1 < m
  · rw [if_pos hm]
    obtain ⟨p, rfl⟩ : ∃ p, m = p + 1 := ⟨m - 1, by omega⟩
    have := getAt_rows L (m := p + 1) (k := p) (by omega) []
    rw [List.append_nil] at this
    rw [Nat.add_sub_cancel, this, Res.ok_bind, fillRow_eq L p p 1 (le_refl _) (by omega),
      Res.ok_bind, rows_succ L (p + 1)]
    rfl
  · rw [if_neg hm, partialRow_full L (by omega), rows_succ L m]
    rfl

theorem addRows_rows (L : Lib F) : ∀ (fuel m : Nat),
    addRows L fuel (rows L m) = .ok (rows L (m + fuel)) := by
  intro fuel
  induction fuel with
  | zero => intro m; rfl
  | succ fuel ih =>
    intro m
    rw [addRows, cacheAdd_rows, Res.ok_bind, ih, Nat.add_right_comm, Nat.add_assoc]

theorem copyRow_fullRow (L : Lib F) (n : Nat) (row : List F) (h : row.length = n + 1) :
    copyRow (fullRow L n) row = .ok (fullRow L n) := by
  unfold copyRow
  rw [if_pos (by simp [h]), List.drop_eq_nil_of_le (by simp [h]), List.append_nil]

theorem rowExact_rows (L : Lib F) (n m : Nat) (row : List F) (h : row.length = n + 1) :
    rowExact L n (rows L m) row = .ok (rows L (max m (n + 1)), fullRow L n) := by
  unfold rowExact
  rw [addRows_rows, Res.ok_bind]
  have hm : m + (n + 1 - (rows L m).length) = max m (n + 1) := by simp; omega
  rw [hm]
  have := getAt_rows L (m := max m (n + 1)) (k := n) (by omega) []
  rw [List.append_nil] at this
  rw [this, Res.ok_bind, copyRow_fullRow L n row h]
  rfl

/-- The row of the approximation while entries below `k` have been written. -/
def approxPartial (L : Lib F) (n k : Nat) (row : List F) : List F :=
  (List.range (n + 1)).map fun j =>
    if j = n then lit 0 1 else if j = 0 then L.negInf
    else if j < k then approxEntry L n j else row.getD j (lit 0 1)

theorem approxLoop_eq (L : Lib F) (n : Nat) (row : List F) : ∀ (fuel k : Nat), 1 ≤ k →
    k + fuel = n →
    approxLoop L n fuel k (approxPartial L n k row) = .ok (approxPartial L n n row) := by
  intro fuel
  induction fuel with
  | zero => intro k _ hk; rw [approxLoop, ← hk]; rfl
  | succ fuel ih =>
    intro k h1 hk
    have : setAt (approxPartial L n k row) k (approxEntry L n k) =
        .ok (approxPartial L n (k + 1) row) := by
      rw [setAt_of (by simp [approxPartial]; omega)]
      congr 1
      apply List.ext_getElem
      · simp [approxPartial]
      · intro i h3 h4
        simp only [List.getElem_set, approxPartial, List.getElem_map, List.getElem_range]
        by_cases hi : k = i
        · subst hi
          rw [if_pos rfl, if_neg (by omega), if_neg (by omega), if_pos (by omega)]
        · rw [if_neg hi]
          split_ifs <;> first | rfl | omega
    rw [approxLoop, this, Res.ok_bind]
    exact ih (k + 1) (by omega) (by omega)

theorem rowApprox_eq (L : Lib F) (n : Nat) (hn : 1 ≤ n) (row : List F) (h : row.length = n + 1) :
    rowApprox L n row = .ok ((List.range (n + 1)).map fun j =>
      if j = n then lit 0 1 else if j = 0 then L.negInf else approxEntry L n j) := by
  unfold rowApprox
  rw [setAt_of (by omega), Res.ok_bind, setAt_of (by simp; omega), Res.ok_bind]
  have h0 : (row.set 0 L.negInf).set n (lit 0 1) = approxPartial L n 1 row := by
    apply List.ext_getElem
    · simp [approxPartial, h]
    · intro i h3 h4
      simp only [List.length_set] at h3
      simp only [List.getElem_set, approxPartial, List.getElem_map, List.getElem_range]
      split_ifs <;> first | rfl | omega | skip
      rw [List.getD_eq_getElem?_getD, List.getElem?_eq_getElem h3, Option.getD_some]
  rw [h0, approxLoop_eq L n row (n - 1) 1 (le_refl _) (by omega)]
  congr 1
  refine List.map_congr_left ?_
  intro j hj
  have hj := List.mem_range.mp hj
  split_ifs <;> first | rfl | omega

/-! ## Exact arithmetic -/

/-- The library in exact arithmetic. -/
noncomputable def exactLib : Lib XE := ⟨FloatOps.log, FloatOps.exp, XE.ninf⟩

/-- `log` of a natural number, `-inf` for zero. -/
noncomputable def logNat (m : Nat) : XE := if m = 0 then XE.ninf else XE.fin (Real.log m)

theorem logSumExp_fin (a b : ℝ) : logSumExp exactLib (XE.fin a) (XE.fin b) =
    XE.fin (Real.log (Real.exp a + Real.exp b)) := by
  have key : ∀ x y : ℝ, x + Real.log (1 + Real.exp (y - x)) =
      Real.log (Real.exp x + Real.exp y) := by
    intro x y
    have : Real.exp x + Real.exp y = Real.exp x * (1 + Real.exp (y - x)) := by
      rw [mul_add, ← Real.exp_add]; ring_nf
    rw [this, Real.log_mul (Real.exp_pos _).ne' (by positivity), Real.log_exp]
  unfold logSumExp exactLib
  by_cases h : a < b
  · simp only [(XE.lt_fin a b).mpr h, if_true, XE.fin_sub, XE.exp_fin, XE.lit_eq, XE.fin_add]
    rw [XE.log_fin (by positivity), XE.fin_add, XE.fin_inj]
    have := key b a
    norm_num at this ⊢
    rw [this, add_comm]
  · have hf : FloatOps.lt (XE.fin a) (XE.fin b) = false := by
      rw [Bool.eq_false_iff]; intro hc; exact h ((XE.lt_fin a b).mp hc)
    simp only [hf, Bool.false_eq_true, if_false, XE.fin_sub, XE.exp_fin, XE.lit_eq, XE.fin_add]
    rw [XE.log_fin (by positivity), XE.fin_add, XE.fin_inj]
    have := key a b
    norm_num at this ⊢
    exact this

theorem logSumExp_ninf (a : ℝ) : logSumExp exactLib (XE.fin a) XE.ninf = XE.fin a := by
  unfold logSumExp exactLib
  simp only [XE.lt_ninf, Bool.false_eq_true, if_false, XE.ninf_sub_fin, XE.exp_ninf, XE.lit_eq,
    XE.fin_add]
  rw [XE.log_fin (by norm_num), XE.fin_add]
  norm_num

theorem stirling_pos : ∀ {n k : Nat}, 1 ≤ k → k ≤ n → 0 < Nat.stirlingFirst n k := by
  intro n
  induction n with
  | zero => intro k h1 h2; omega
  | succ n ih =>
    intro k h1 h2
    obtain ⟨k, rfl⟩ : ∃ j, k = j + 1 := ⟨k - 1, by omega⟩
    rw [Nat.stirlingFirst_succ_succ]
    rcases Nat.lt_or_ge n (k + 1) with h | h
    · have : k = n := by omega
      subst this
      rw [Nat.stirlingFirst_self]; omega
    · have := ih (k := k + 1) (by omega) h
      have : 0 < n * Nat.stirlingFirst n (k + 1) := Nat.mul_pos (by omega) this
      omega

theorem entry_exact : ∀ (n k : Nat), k ≤ n →
    entry exactLib n k = logNat (Nat.stirlingFirst n k) := by
  intro n
  induction n with
  | zero =>
    intro k hk
    obtain rfl : k = 0 := by omega
    simp [entry, logNat]
  | succ n ih =>
    intro k hk
    rw [entry]
    split_ifs with h1 h2
    · rw [h1, Nat.stirlingFirst_self]; simp [logNat]
    · rw [h2, Nat.stirlingFirst_succ_zero]; simp [logNat, exactLib]
    · obtain ⟨j, rfl⟩ : ∃ j, k = j + 1 := ⟨k - 1, by omega⟩
      have hn : 1 ≤ n := by omega
      have hn' : (0 : ℝ) < (n : ℝ) := by exact_mod_cast hn
      have hs := stirling_pos (n := n) (k := j + 1) (by omega) (by omega)
      have hs' : (0 : ℝ) < (Nat.stirlingFirst n (j + 1) : ℝ) := by exact_mod_cast hs
      rw [ih (j + 1) (by omega), Nat.add_sub_cancel, ih j (by omega), Nat.stirlingFirst_succ_succ]
      have hl : exactLib.logf (ofInt (n : Int)) + logNat (Nat.stirlingFirst n (j + 1)) =
          XE.fin (Real.log (n * Nat.stirlingFirst n (j + 1) : ℝ)) := by
        have h0 : exactLib.logf (ofInt (n : Int)) = XE.fin (Real.log n) := by
          show FloatOps.log (XE.fin ((n : Int) : ℝ)) = _
          rw [Int.cast_natCast, XE.log_fin hn']
        rw [h0, logNat, if_neg hs.ne', XE.fin_add, Real.log_mul hn'.ne' hs'.ne']
      rw [hl]
      have hprod : (0 : ℝ) < n * Nat.stirlingFirst n (j + 1) := by positivity
      by_cases hz : Nat.stirlingFirst n j = 0
      · rw [hz, logNat, if_pos rfl, logSumExp_ninf, logNat, if_neg]
        · push_cast; rw [add_zero]
        · have : 0 < n * Nat.stirlingFirst n (j + 1) := by exact_mod_cast hprod
          omega
      · have hz' : (0 : ℝ) < (Nat.stirlingFirst n j : ℝ) := by
          exact_mod_cast Nat.pos_of_ne_zero hz
        rw [logNat, if_neg hz, logSumExp_fin, Real.exp_log hprod, Real.exp_log hz', logNat,
          if_neg (by omega)]
        push_cast
        rfl

end Dist.Stirling
