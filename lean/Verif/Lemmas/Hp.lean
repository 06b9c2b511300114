import Verif.Lemmas.Reference
import Verif.Model.Hp

/-! # Lemmas for the high-precision implementation -/

namespace Dist

open FloatOps FloatNotation Spec

theorem Spec.History.related_counts {G P V : Type} (A : GroupApi G V) (B : GroupApi P V)
    (Q : Int → Prop) (R : G → P → Prop) (hi : R A.init B.init)
    (ha : ∀ g p v g' p', R g p → A.add g v = .ok g' → B.add p v = .ok p' → R g' p')
    (hr : ∀ g p v g' p', R g p → A.remove g v = .ok g' → B.remove p v = .ok p' → R g' p')
    (hn : ∀ g p v n g' p', R g p → Q n → A.repeated g v n = .ok g' → B.repeated p v n = .ok p' →
      R g' p')
    (hm : ∀ g p s t g' p', R g p → R s t → A.merge g s = .ok g' → B.merge p t = .ok p' → R g' p')
    (h : History V) (hc : h.Counts Q) (g : G) (p : P) (hA : h.run A = .ok g)
    (hB : h.run B = .ok p) : R g p := by
  induction h generalizing g p with
  | init =>
    simp only [History.run, Res.ok.injEq] at hA hB
    subst hA hB; exact hi
  | add h v ih =>
    simp only [History.run] at hA hB
    obtain ⟨g0, h1, h2⟩ := Res.bind_eq_ok.1 hA
    obtain ⟨p0, h3, h4⟩ := Res.bind_eq_ok.1 hB
    exact ha _ _ _ _ _ (ih hc _ _ h1 h3) h2 h4
  | remove h v ih =>
    simp only [History.run] at hA hB
    obtain ⟨g0, h1, h2⟩ := Res.bind_eq_ok.1 hA
    obtain ⟨p0, h3, h4⟩ := Res.bind_eq_ok.1 hB
    exact hr _ _ _ _ _ (ih hc _ _ h1 h3) h2 h4
  | repeated h v n ih =>
    simp only [History.run] at hA hB
    obtain ⟨g0, h1, h2⟩ := Res.bind_eq_ok.1 hA
    obtain ⟨p0, h3, h4⟩ := Res.bind_eq_ok.1 hB
    exact hn _ _ _ _ _ _ (ih hc.1 _ _ h1 h3) hc.2 h2 h4
  | merge h s ih ihs =>
    simp only [History.run] at hA hB
    obtain ⟨g0, h1, h2⟩ := Res.bind_eq_ok.1 hA
    obtain ⟨s0, h2, h5⟩ := Res.bind_eq_ok.1 h2
    obtain ⟨p0, h3, h4⟩ := Res.bind_eq_ok.1 hB
    obtain ⟨t0, h4, h6⟩ := Res.bind_eq_ok.1 h4
    exact hm _ _ _ _ _ _ (ih hc.1 _ _ h1 h3) (ihs hc.2 _ _ h2 h4) h5 h6

/-- Wherever the first implementation returns, so does the second, in a related state. -/
theorem Spec.History.simulates {G P V : Type} (A : GroupApi G V) (B : GroupApi P V)
    (Q : Int → Prop) (R : G → P → Prop) (hi : R A.init B.init)
    (ha : ∀ g p v g', R g p → A.add g v = .ok g' → ∃ p', B.add p v = .ok p' ∧ R g' p')
    (hr : ∀ g p v g', R g p → A.remove g v = .ok g' → ∃ p', B.remove p v = .ok p' ∧ R g' p')
    (hn : ∀ g p v n g', R g p → Q n → A.repeated g v n = .ok g' →
      ∃ p', B.repeated p v n = .ok p' ∧ R g' p')
    (hm : ∀ g p s t g', R g p → R s t → A.merge g s = .ok g' →
      ∃ p', B.merge p t = .ok p' ∧ R g' p')
    (h : History V) (hc : h.Counts Q) (g : G) (hA : h.run A = .ok g) :
    ∃ p, h.run B = .ok p ∧ R g p := by
  induction h generalizing g with
  | init =>
    simp only [History.run, Res.ok.injEq] at hA ⊢
    subst hA; exact ⟨_, rfl, hi⟩
  | add h v ih =>
    simp only [History.run] at hA ⊢
    obtain ⟨g0, h1, h2⟩ := Res.bind_eq_ok.1 hA
    obtain ⟨p0, h3, h4⟩ := ih hc _ h1
    obtain ⟨p', h5, h6⟩ := ha _ _ _ _ h4 h2
    exact ⟨p', by rw [h3, Res.ok_bind, h5], h6⟩
  | remove h v ih =>
    simp only [History.run] at hA ⊢
    obtain ⟨g0, h1, h2⟩ := Res.bind_eq_ok.1 hA
    obtain ⟨p0, h3, h4⟩ := ih hc _ h1
    obtain ⟨p', h5, h6⟩ := hr _ _ _ _ h4 h2
    exact ⟨p', by rw [h3, Res.ok_bind, h5], h6⟩
  | repeated h v n ih =>
    simp only [History.run] at hA ⊢
    obtain ⟨g0, h1, h2⟩ := Res.bind_eq_ok.1 hA
    obtain ⟨p0, h3, h4⟩ := ih hc.1 _ h1
    obtain ⟨p', h5, h6⟩ := hn _ _ _ _ _ h4 hc.2 h2
    exact ⟨p', by rw [h3, Res.ok_bind, h5], h6⟩
  | merge h s ih ihs =>
    simp only [History.run] at hA ⊢
    obtain ⟨g0, h1, h2⟩ := Res.bind_eq_ok.1 hA
    obtain ⟨s0, h2, h5⟩ := Res.bind_eq_ok.1 h2
    obtain ⟨p0, h3, h4⟩ := ih hc.1 _ h1
    obtain ⟨t0, h6, h7⟩ := ihs hc.2 _ h2
    obtain ⟨p', h8, h9⟩ := hm _ _ _ _ _ h4 h7 h5
    exact ⟨p', by rw [h3, Res.ok_bind, h6, Res.ok_bind, h8], h9⟩

namespace Hp

theorem cInt_of {x : Int} (h : InInt32 x) : cInt x = .ok x := by simp [cInt, h]

theorem cInt_eq_ok {x y : Int} : cInt x = .ok y ↔ InInt32 x ∧ x = y := by
  unfold cInt; split_ifs with h <;> simp [h]

theorem cyDiv_eq (x y : XR) : cyDiv x y = Dbg.pyDiv x y := rfl

theorem u64_ofInt_natCast (n : Nat) : UInt64.ofInt (n : Int) = UInt64.ofNat n := by
  unfold UInt64.ofInt
  apply UInt64.toNat_inj.1
  simp only [UInt64.toNat_ofNat']
  omega

theorem u64_toNat_ofInt {n : Int} (h : 0 ≤ n) (h' : n < 2 ^ 64) :
    ((UInt64.ofInt n).toNat : Int) = n := by
  lift n to Nat using h
  rw [u64_ofInt_natCast]; simp; omega

theorem u64_ofInt_sub (a b : Int) :
    UInt64.ofInt (a - b) = UInt64.ofInt a - UInt64.ofInt b := by
  rw [Int.sub_eq_add_neg, UInt64.ofInt_add, UInt64.ofInt_neg, UInt64.sub_eq_add_neg]

/-- `lgamma(n + 1)` is the logarithm of the factorial. -/
theorem logFactorial_eq (n : UInt32) (h : n.toNat < 2 ^ 32 - 1) :
    (logFactorial n : XR) = FloatOps.logFactorial n.toNat := by
  have e : ((n + 1).toNat : Int) = n.toNat + 1 := by
    rw [UInt32.toNat_add]; simp; omega
  unfold logFactorial
  rw [e, XR.ofInt_eq, XR.lgamma_fin (by push_cast; positivity), XR.logFactorial_eq]
  push_cast
  rw [Real.Gamma_nat_eq_factorial]

end Hp

end Dist
