import Mathlib.Tactic.NormNum
import Mathlib.Tactic.Ring
import Mathlib.Data.UInt
import Verif.Lemmas.XRAlgebra
import Verif.Model.Dbg
import Verif.Spec.Reference

/-! # Lemmas for comparing the two implementations -/

namespace Dist

open FloatOps FloatNotation Spec

theorem Spec.History.related {G P V : Type} (A : GroupApi G V) (B : GroupApi P V)
    (R : G → P → Prop) (hi : R A.init B.init)
    (ha : ∀ g p v g' p', R g p → A.add g v = .ok g' → B.add p v = .ok p' → R g' p')
    (hr : ∀ g p v g' p', R g p → A.remove g v = .ok g' → B.remove p v = .ok p' → R g' p')
    (hn : ∀ g p v n g' p', R g p → A.repeated g v n = .ok g' → B.repeated p v n = .ok p' → R g' p')
    (hm : ∀ g p s t g' p', R g p → R s t → A.merge g s = .ok g' → B.merge p t = .ok p' → R g' p')
    (h : History V) (g : G) (p : P) (hA : h.run A = .ok g) (hB : h.run B = .ok p) : R g p := by
  induction h generalizing g p with
  | init =>
    simp only [History.run, Res.ok.injEq] at hA hB
    subst hA hB; exact hi
  | add h v ih =>
    simp only [History.run] at hA hB
    obtain ⟨g0, h1, h2⟩ := Res.bind_eq_ok.1 hA
    obtain ⟨p0, h3, h4⟩ := Res.bind_eq_ok.1 hB
    exact ha _ _ _ _ _ (ih _ _ h1 h3) h2 h4
  | remove h v ih =>
    simp only [History.run] at hA hB
    obtain ⟨g0, h1, h2⟩ := Res.bind_eq_ok.1 hA
    obtain ⟨p0, h3, h4⟩ := Res.bind_eq_ok.1 hB
    exact hr _ _ _ _ _ (ih _ _ h1 h3) h2 h4
  | repeated h v n ih =>
    simp only [History.run] at hA hB
    obtain ⟨g0, h1, h2⟩ := Res.bind_eq_ok.1 hA
    obtain ⟨p0, h3, h4⟩ := Res.bind_eq_ok.1 hB
    exact hn _ _ _ _ _ _ (ih _ _ h1 h3) h2 h4
  | merge h s ih ihs =>
    simp only [History.run] at hA hB
    obtain ⟨g0, h1, h2⟩ := Res.bind_eq_ok.1 hA
    obtain ⟨s0, h2, h5⟩ := Res.bind_eq_ok.1 h2
    obtain ⟨p0, h3, h4⟩ := Res.bind_eq_ok.1 hB
    obtain ⟨t0, h4, h6⟩ := Res.bind_eq_ok.1 h4
    exact hm _ _ _ _ _ _ (ih _ _ h1 h3) (ihs _ _ h2 h4) h5 h6

theorem Spec.History.related_linear {G P V : Type} (A : GroupApi G V) (B : GroupApi P V)
    (R : G → P → Prop) (hi : R A.init B.init)
    (ha : ∀ g p v g' p', R g p → A.add g v = .ok g' → B.add p v = .ok p' → R g' p')
    (hr : ∀ g p v g' p', R g p → A.remove g v = .ok g' → B.remove p v = .ok p' → R g' p')
    (hn : ∀ g p v n g' p', R g p → A.repeated g v n = .ok g' → B.repeated p v n = .ok p' → R g' p')
    (h : History V) (hl : h.Linear) (g : G) (p : P) (hA : h.run A = .ok g)
    (hB : h.run B = .ok p) : R g p := by
  induction h generalizing g p with
  | init =>
    simp only [History.run, Res.ok.injEq] at hA hB
    subst hA hB; exact hi
  | add h v ih =>
    simp only [History.run] at hA hB
    obtain ⟨g0, h1, h2⟩ := Res.bind_eq_ok.1 hA
    obtain ⟨p0, h3, h4⟩ := Res.bind_eq_ok.1 hB
    exact ha _ _ _ _ _ (ih hl _ _ h1 h3) h2 h4
  | remove h v ih =>
    simp only [History.run] at hA hB
    obtain ⟨g0, h1, h2⟩ := Res.bind_eq_ok.1 hA
    obtain ⟨p0, h3, h4⟩ := Res.bind_eq_ok.1 hB
    exact hr _ _ _ _ _ (ih hl _ _ h1 h3) h2 h4
  | repeated h v n ih =>
    simp only [History.run] at hA hB
    obtain ⟨g0, h1, h2⟩ := Res.bind_eq_ok.1 hA
    obtain ⟨p0, h3, h4⟩ := Res.bind_eq_ok.1 hB
    exact hn _ _ _ _ _ _ (ih hl _ _ h1 h3) h2 h4
  | merge h s _ _ => exact hl.elim

theorem u32_ofInt_natCast (n : Nat) : UInt32.ofInt (n : Int) = UInt32.ofNat n := by
  unfold UInt32.ofInt
  apply UInt32.toNat_inj.1
  simp only [UInt32.toNat_ofNat']
  omega

theorem u32_ofInt_toNat (v : UInt32) : UInt32.ofInt (v.toNat : Int) = v := by
  rw [u32_ofInt_natCast]; simp

theorem u32_ofInt_sub (a b : Int) :
    UInt32.ofInt (a - b) = UInt32.ofInt a - UInt32.ofInt b := by
  rw [Int.sub_eq_add_neg, UInt32.ofInt_add, UInt32.ofInt_neg, UInt32.sub_eq_add_neg]

theorem u32_toNat_ofInt {n : Int} (h : 0 ≤ n) (h' : n < 2 ^ 32) :
    ((UInt32.ofInt n).toNat : Int) = n := by
  lift n to Nat using h
  rw [u32_ofInt_natCast]; simp; omega

namespace Dbg

theorem npIndex_nonneg {α : Type} (l : List α) {i : Int} (h : 0 ≤ i) (x : α)
    (hx : npIndex l i = .ok x) : i < l.length ∧ getAt l i.toNat = .ok x := by
  unfold npIndex at hx
  split_ifs at hx with h1 h2
  · exact ⟨h1.2, hx⟩
  · omega

theorem npIndex_of {α : Type} (l : List α) {i : Int} (h : 0 ≤ i) (h' : i < l.length) :
    npIndex l i = getAt l i.toNat := by
  unfold npIndex; rw [if_pos ⟨h, h'⟩]

theorem npSet_of {α : Type} (l : List α) {i : Int} (h : 0 ≤ i) (h' : i < l.length) (x : α) :
    npSet l i x = setAt l i.toNat x := by
  unfold npSet; rw [if_pos ⟨h, h'⟩]

theorem pyLog_ok {x y : XR} (h : pyLog x = .ok y) : y = log x ∧ ∀ r, x = XR.fin r → 0 < r := by
  unfold pyLog at h
  split_ifs at h with hle
  refine ⟨by injection h with h; exact h.symm, ?_⟩
  rintro r rfl
  simp only [XR.ofInt_eq, Int.cast_zero, XR.le_fin] at hle
  exact not_le.1 hle

theorem pyLog_fin {r : ℝ} (h : 0 < r) : pyLog (XR.fin r) = .ok (XR.fin (Real.log r)) := by
  unfold pyLog
  rw [if_neg, XR.log_fin h]
  simp only [XR.ofInt_eq, Int.cast_zero, XR.le_fin]
  exact not_le.2 h

theorem eqf_fin (a b : ℝ) : eqf (XR.fin a) (XR.fin b) = true ↔ a = b := by
  unfold eqf
  simp only [Bool.and_eq_true, XR.le_fin]
  exact ⟨fun h => le_antisymm h.1 h.2, by rintro rfl; exact ⟨le_rfl, le_rfl⟩⟩

theorem pyDiv_ok {x y z : XR} (h : pyDiv x y = .ok z) :
    z = x / y ∧ ∀ r, y = XR.fin r → r ≠ 0 := by
  unfold pyDiv at h
  split_ifs at h with he
  refine ⟨by injection h with h; exact h.symm, ?_⟩
  rintro r rfl rfl
  exact he (by simp only [XR.ofInt_eq, Int.cast_zero]; exact (eqf_fin 0 0).2 rfl)

theorem pyDiv_fin {a b : ℝ} (h : b ≠ 0) : pyDiv (XR.fin a) (XR.fin b) = .ok (XR.fin (a / b)) := by
  unfold pyDiv
  rw [if_neg, XR.fin_div _ _ h]
  simp only [XR.ofInt_eq, Int.cast_zero]
  rw [eqf_fin]; exact h

end Dbg

end Dist
