import Mathlib.Data.UInt
import Mathlib.Analysis.SpecialFunctions.Gamma.Beta
import Verif.Base.XR
import Verif.Model.GP
import Verif.Model.BNB
import Verif.Lemmas.Features
import Verif.Lemmas.PYScores

/-! # Lemmas about groups with `uint32_t` statistics -/

namespace Dist

open Spec FloatOps FloatNotation

@[simp] theorem totalValue_zero : totalValue 0 = 0 := by simp [totalValue]
@[simp] theorem totalLogFact_zero : totalLogFact 0 = 0 := by simp [totalLogFact]
@[simp] theorem totalValue_cons (v : UInt32) (M : Multiset UInt32) :
    totalValue (v ::ₘ M) = v.toNat + totalValue M := by simp [totalValue]
@[simp] theorem totalLogFact_cons (v : UInt32) (M : Multiset UInt32) :
    totalLogFact (v ::ₘ M) = Real.log (Nat.factorial v.toNat) + totalLogFact M := by
  simp [totalLogFact]
theorem totalValue_add (M N : Multiset UInt32) :
    totalValue (M + N) = totalValue M + totalValue N := by simp [totalValue]
theorem totalLogFact_add (M N : Multiset UInt32) :
    totalLogFact (M + N) = totalLogFact M + totalLogFact N := by simp [totalLogFact]
theorem totalValue_le {M N : Multiset UInt32} (h : M ≤ N) : totalValue M ≤ totalValue N := by
  obtain ⟨K, rfl⟩ := Multiset.le_iff_exists_add.mp h
  rw [totalValue_add]; omega
theorem totalValue_erase {v : UInt32} {M : Multiset UInt32} (h : v ∈ M) :
    totalValue M = v.toNat + totalValue (M.erase v) := by
  conv_lhs => rw [← Multiset.cons_erase h]
  simp
theorem totalLogFact_erase {v : UInt32} {M : Multiset UInt32} (h : v ∈ M) :
    totalLogFact M = Real.log (Nat.factorial v.toNat) + totalLogFact (M.erase v) := by
  conv_lhs => rw [← Multiset.cons_erase h]
  simp

theorem u32_ofNat_toNat (v : UInt32) : UInt32.ofNat v.toNat = v := by simp

theorem u32_card_cons (v : UInt32) (M : Multiset UInt32) :
    UInt32.ofNat (Multiset.card (v ::ₘ M)) = UInt32.ofNat M.card + 1 := by
  rw [Multiset.card_cons, UInt32.ofNat_add]; rfl

theorem u32_sum_cons (v : UInt32) (M : Multiset UInt32) :
    UInt32.ofNat (totalValue (v ::ₘ M)) = UInt32.ofNat (totalValue M) + v := by
  rw [totalValue_cons, UInt32.ofNat_add, u32_ofNat_toNat, add_comm]

theorem u32_card_erase {v : UInt32} {M : Multiset UInt32} (h : v ∈ M) :
    UInt32.ofNat (M.erase v).card = UInt32.ofNat M.card - 1 := by
  conv_rhs => rw [← Multiset.cons_erase h, u32_card_cons]
  simp

theorem u32_sum_erase {v : UInt32} {M : Multiset UInt32} (h : v ∈ M) :
    UInt32.ofNat (totalValue (M.erase v)) = UInt32.ofNat (totalValue M) - v := by
  conv_rhs => rw [← Multiset.cons_erase h, u32_sum_cons]
  simp

theorem u32_ofInt_succ (n : Nat) : UInt32.ofInt ((n + 1 : Nat) : Int) = UInt32.ofInt n + 1 := by
  simp

theorem u32_ofInt_zero : UInt32.ofInt 0 = 0 := rfl

namespace GP

theorem summarises : Summarises (ops : GroupOps (Group XR) UInt32)
    (fun g M => g = ⟨UInt32.ofNat M.card, UInt32.ofNat (totalValue M), .fin (totalLogFact M)⟩ ∧
      M.card ≤ 2147483647) := by
  refine ⟨⟨by simp [ops, Group.init], by simp⟩, ?_, ?_⟩
  · rintro g M v ⟨rfl, hM⟩ h
    refine ⟨_, rfl, ?_, by simp; omega⟩
    simp only [Group.addValue, logFact, XR.logFactorial_eq, XR.fin_add, u32_card_cons,
      u32_sum_cons, totalLogFact_cons]
    rw [add_comm (totalLogFact M)]
  · rintro g M v ⟨rfl, hM⟩ h
    refine ⟨_, rfl, ?_, by have := Multiset.card_erase_le (a := v) (s := M); omega⟩
    simp only [Group.removeValue, logFact, XR.logFactorial_eq, XR.fin_sub, u32_card_erase h,
      u32_sum_erase h, totalLogFact_erase h]
    rw [add_sub_cancel_left]

theorem run_eq (h : List (ValueOp UInt32)) (c s : UInt32) (l : ℝ) :
    runGroup ops (⟨c, s, .fin l⟩ : Group XR) h = .ok ⟨c + signedSum (fun _ => 1) h,
      s + signedSum id h, .fin (l + signedSum (fun v => Real.log (Nat.factorial v.toNat)) h)⟩ := by
  induction h generalizing c s l with
  | nil => simp [runGroup, signedSum]
  | cons op h ih =>
    cases op with
    | add v =>
      show runGroup ops (Group.addValue _ v) h = _
      simp only [Group.addValue, logFact, XR.logFactorial_eq, XR.fin_add, signedSum]
      rw [ih]; simp only [add_assoc, id]
    | remove v =>
      show runGroup ops (Group.removeValue _ v) h = _
      simp only [Group.removeValue, logFact, XR.logFactorial_eq, XR.fin_sub, signedSum]
      rw [ih]; simp only [sub_eq_add_neg, add_assoc, id]

theorem run_int {F : Type} [FloatOps F] (h : List (ValueOp UInt32)) (g : Group F) :
    ∃ l, runGroup ops g h =
      .ok ⟨g.count + signedSum (fun _ => 1) h, g.sum + signedSum id h, l⟩ := by
  induction h generalizing g with
  | nil => exact ⟨g.logProd, by simp [runGroup, signedSum]⟩
  | cons op h ih =>
    cases op with
    | add v =>
      obtain ⟨l, e⟩ := ih (g.addValue v)
      refine ⟨l, ?_⟩
      show runGroup ops (g.addValue v) h = _
      rw [e]; simp only [Group.addValue, signedSum, add_assoc, id]
    | remove v =>
      obtain ⟨l, e⟩ := ih (g.removeValue v)
      refine ⟨l, ?_⟩
      show runGroup ops (g.removeValue v) h = _
      rw [e]; simp only [Group.removeValue, signedSum, sub_eq_add_neg, add_assoc, id]

end GP

namespace BNB

theorem summarises : Summarises ops
    (fun g M => g = ⟨UInt32.ofNat M.card, UInt32.ofNat (totalValue M)⟩ ∧
      M.card ≤ 2147483647) := by
  refine ⟨⟨by simp [ops, Group.init], by simp⟩, ?_, ?_⟩
  · rintro g M v ⟨rfl, hM⟩ h
    refine ⟨_, rfl, ?_, by simp; omega⟩
    simp only [Group.addValue, u32_card_cons, u32_sum_cons]
  · rintro g M v ⟨rfl, hM⟩ h
    refine ⟨_, rfl, ?_, by have := Multiset.card_erase_le (a := v) (s := M); omega⟩
    simp only [Group.removeValue, u32_card_erase h, u32_sum_erase h]

theorem run_eq (h : List (ValueOp UInt32)) (g : Group) :
    runGroup ops g h =
      .ok ⟨g.count + signedSum (fun _ => 1) h, g.sum + signedSum id h⟩ := by
  induction h generalizing g with
  | nil => simp [runGroup, signedSum]
  | cons op h ih =>
    cases op with
    | add v =>
      show runGroup ops (g.addValue v) h = _
      rw [ih]; simp only [Group.addValue, signedSum, add_assoc, id]
    | remove v =>
      show runGroup ops (g.removeValue v) h = _
      rw [ih]; simp only [Group.removeValue, signedSum, sub_eq_add_neg, add_assoc, id]

end BNB

end Dist
