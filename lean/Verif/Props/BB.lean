import Verif.Base.XR
import Verif.Model.BB
import Verif.Lemmas.PYScores
import Verif.Lemmas.Features

/-! # Beta-Bernoulli: properties C25-C30 and C34 -/

namespace Dist

open Spec FloatOps FloatNotation

namespace BB

theorem run_eq (h : List (ValueOp Bool)) (g : Group)
    (hh : |g.heads| + h.length ≤ 2147483647) (ht : |g.tails| + h.length ≤ 2147483647) :
    runGroup ops g h = .ok ⟨g.heads + net h true, g.tails + net h false⟩ := by
  induction h generalizing g with
  | nil => simp [runGroup, net]
  | cons op h ih =>
    simp only [List.length_cons, Nat.cast_add, Nat.cast_one] at hh ht
    have b1 := abs_le.mp (le_of_add_le_of_nonneg_left hh (by positivity))
    have b2 := abs_le.mp (le_of_add_le_of_nonneg_left ht (by positivity))
    have l1 : ∀ x : Int, |x + 1| ≤ |x| + 1 := fun x => by
      rcases abs_cases x with ⟨e, _⟩ | ⟨e, _⟩ <;> rcases abs_cases (x + 1) with ⟨e', _⟩ | ⟨e', _⟩ <;>
        omega
    have l2 : ∀ x : Int, |x - 1| ≤ |x| + 1 := fun x => by
      rcases abs_cases x with ⟨e, _⟩ | ⟨e, _⟩ <;> rcases abs_cases (x - 1) with ⟨e', _⟩ | ⟨e', _⟩ <;>
        omega
    have hl : (0 : Int) ≤ h.length := by positivity
    have := l1 g.heads; have := l1 g.tails; have := l2 g.heads; have := l2 g.tails
    have a1 := abs_lt.mp (show |g.heads| < 2147483648 by omega)
    have a2 := abs_lt.mp (show |g.tails| < 2147483648 by omega)
    have a3 := abs_lt.mp (show |g.heads + 1| < 2147483648 by omega)
    have a4 := abs_lt.mp (show |g.tails + 1| < 2147483648 by omega)
    have a5 := abs_lt.mp (show |g.heads - 1| < 2147483648 by omega)
    have a6 := abs_lt.mp (show |g.tails - 1| < 2147483648 by omega)
    cases op with
    | add v =>
      cases v <;> simp only [runGroup, ops, Group.addValue, Bool.false_eq_true, if_false, if_true]
      · rw [i32_of (by unfold InInt32 int32Min int32Max; omega)]
        simp only [Res.ok_bind, Res.pure_eq]
        have := ih ⟨g.heads, g.tails + 1⟩ (by simp only; omega) (by simp only; omega)
        simp only [ops] at this
        rw [this]; simp [net]; ring
      · rw [i32_of (by unfold InInt32 int32Min int32Max; omega)]
        simp only [Res.ok_bind, Res.pure_eq]
        have := ih ⟨g.heads + 1, g.tails⟩ (by simp only; omega) (by simp only; omega)
        simp only [ops] at this
        rw [this]; simp [net]; ring
    | remove v =>
      cases v <;> simp only [runGroup, ops, Group.removeValue, Bool.false_eq_true, if_false, if_true]
      · rw [i32_of (by unfold InInt32 int32Min int32Max; omega)]
        simp only [Res.ok_bind, Res.pure_eq]
        have := ih ⟨g.heads, g.tails - 1⟩ (by simp only; omega) (by simp only; omega)
        simp only [ops] at this
        rw [this]; simp [net]; ring
      · rw [i32_of (by unfold InInt32 int32Min int32Max; omega)]
        simp only [Res.ok_bind, Res.pure_eq]
        have := ih ⟨g.heads - 1, g.tails⟩ (by simp only; omega) (by simp only; omega)
        simp only [ops] at this
        rw [this]; simp [net]; ring

theorem summarises : Summarises ops
    (fun g M => g = ⟨M.count true, M.count false⟩ ∧ M.card ≤ 2147483647) := by
  have hc : ∀ M : Multiset Bool, M.count true + M.count false = M.card := by
    intro M
    induction M using Multiset.induction with
    | empty => simp
    | cons a M ih => cases a <;> simp <;> omega
  refine ⟨by simp [ops, Group.init], ?_, ?_⟩
  · rintro g M v ⟨rfl, hM⟩ h
    have := hc M
    refine ⟨_, ?_, rfl, by simp; omega⟩
    cases v <;> simp only [ops, Group.addValue, Bool.false_eq_true, if_false, if_true]
    · rw [i32_of (by unfold InInt32 int32Min int32Max; omega)]; simp
    · rw [i32_of (by unfold InInt32 int32Min int32Max; omega)]; simp
  · rintro g M v ⟨rfl, hM⟩ h
    have hcm := hc M
    have hpos : 0 < M.count v := Multiset.count_pos.mpr h
    refine ⟨_, ?_, rfl, by have := Multiset.card_erase_le (a := v) (s := M); omega⟩
    cases v <;> simp only [ops, Group.removeValue, Bool.false_eq_true, if_false, if_true]
    · rw [i32_of (by unfold InInt32 int32Min int32Max; omega)]
      simp only [Res.ok_bind, Res.pure_eq, Multiset.count_erase_self,
        Multiset.count_erase_of_ne (show true ≠ false by decide)]
      congr 2; omega
    · rw [i32_of (by unfold InInt32 int32Min int32Max; omega)]
      simp only [Res.ok_bind, Res.pure_eq, Multiset.count_erase_self,
        Multiset.count_erase_of_ne (show false ≠ true by decide)]
      congr 2; omega

end BB

/-! ## C25 -/

/-- **C25 (Beta-Bernoulli).** After any history of additions and removals, in any order
and with removals before additions allowed ("debt"), the statistics are the net counts
of the two values. -/
theorem C25_bb_history (h : List (ValueOp Bool)) (hl : h.length ≤ 2147483647) :
    runGroup BB.ops BB.Group.init h = .ok ⟨net h true, net h false⟩ := by
  have := BB.run_eq h BB.Group.init (by simpa [BB.Group.init] using by exact_mod_cast hl)
    (by simpa [BB.Group.init] using by exact_mod_cast hl)
  rw [this]; simp [BB.Group.init]

/-- Histories with the same net effect give the same group. -/
theorem C25_bb_order (h₁ h₂ : List (ValueOp Bool)) (hl₁ : h₁.length ≤ 2147483647)
    (hl₂ : h₂.length ≤ 2147483647) (hn : ∀ v, net h₁ v = net h₂ v) :
    runGroup BB.ops BB.Group.init h₁ = runGroup BB.ops BB.Group.init h₂ := by
  rw [C25_bb_history h₁ hl₁, C25_bb_history h₂ hl₂, hn, hn]

/-- For histories that only remove what is there (of any length), the statistics count
the values held. -/
theorem C25_bb_contents (h : List (ValueOp Bool)) (hv : ValidValues 0 h) :
    runGroup BB.ops BB.Group.init h =
      .ok ⟨(contents 0 h).count true, (contents 0 h).count false⟩ := by
  obtain ⟨g, e, hg, _⟩ := runGroup_summarises BB.summarises h BB.Group.init 0
    BB.summarises.init hv
  rw [e, hg]

/-- `remove_value` undoes `add_value` and conversely, in every state. -/
theorem C25_bb_inverse (g g' : BB.Group) (hh : InInt32 g.heads) (ht : InInt32 g.tails) (v : Bool) :
    (g.addValue v = .ok g' → g'.removeValue v = .ok g) ∧
    (g.removeValue v = .ok g' → g'.addValue v = .ok g) := by
  obtain ⟨a, b⟩ := g
  constructor <;> intro h <;> cases v <;>
    simp only [BB.Group.addValue, BB.Group.removeValue, Bool.false_eq_true, if_false, if_true,
      Res.bind_eq_ok, i32_eq_ok, Res.pure_eq, Res.ok.injEq] at h <;>
    obtain ⟨x, ⟨_, rfl⟩, rfl⟩ := h <;>
    simp only [BB.Group.addValue, BB.Group.removeValue, Bool.false_eq_true, if_false, if_true,
      add_sub_cancel_right, sub_add_cancel] <;>
    first | (rw [i32_of hh]; rfl) | (rw [i32_of ht]; rfl)

example : runGroup BB.ops BB.Group.init [.remove true, .add false, .add true, .add true] =
    .ok ⟨1, 1⟩ := by decide
example : ValidValues (0 : Multiset Bool) [.add true, .add false, .remove true] := by
  simp [ValidValues]

/-! ## C26 -/

/-- **C26 (Beta-Bernoulli).** From every group state, `add_repeated_value(v, n)` and `n`
times `add_value(v)` have the same outcome (including signed overflow). -/
theorem C26_bb (g : BB.Group) (hh : InInt32 g.heads) (ht : InInt32 g.tails) (v : Bool) (n : Nat) :
    g.addRepeatedValue v n = addTimes BB.ops g v n := by
  have main : ∀ x : Int, InInt32 x → ∀ f : Int → BB.Group,
      (∀ y, BB.ops.add (f y) v = (i32 (y + 1) >>= fun z => .ok (f z))) →
      (i32 (x + n) >>= fun z => .ok (f z)) = addTimes BB.ops (f x) v n := by
    intro x hx f hf
    induction n generalizing x with
    | zero => simp [addTimes, addAll, i32_of hx]
    | succ n ih =>
      simp only [addTimes, List.replicate_succ, addAll, hf]
      by_cases hb : InInt32 (x + 1)
      · rw [i32_of hb]
        simp only [Res.ok_bind]
        have := ih (x + 1) hb
        simp only [addTimes] at this
        rw [← this]; push_cast; congr 2; ring
      · have : ¬ InInt32 (x + (n + 1 : Nat)) := by
          unfold InInt32 int32Min int32Max at hb hx ⊢; push_cast; omega
        simp only [i32, if_neg hb, if_neg this, Res.ub_bind]
  obtain ⟨a, b⟩ := g
  cases v
  · exact main b ht (fun y => ⟨a, y⟩) (fun y => rfl)
  · exact main a hh (fun y => ⟨y, b⟩) (fun y => rfl)

example : (⟨3, 1⟩ : BB.Group).addRepeatedValue true 4 = .ok ⟨7, 1⟩ := by decide

/-! ## C27 -/

/-- **C27 (Beta-Bernoulli).** Merging the groups of two data sets gives the group of
their concatenation. -/
theorem C27_bb (xs ys : List Bool) (hl : xs.length + ys.length ≤ 2147483647) :
    ∃ gx gy g, addAll BB.ops BB.Group.init xs = .ok gx ∧ addAll BB.ops BB.Group.init ys = .ok gy ∧
      addAll BB.ops BB.Group.init (xs ++ ys) = .ok g ∧ gx.merge gy = .ok g := by
  obtain ⟨gx, ex, hx, _⟩ := addAll_summarises BB.summarises xs (by omega)
  obtain ⟨gy, ey, hy, _⟩ := addAll_summarises BB.summarises ys (by omega)
  obtain ⟨g, e, hg, _⟩ := addAll_summarises BB.summarises (xs ++ ys) (by simpa using hl)
  refine ⟨gx, gy, g, ex, ey, e, ?_⟩
  subst hx hy hg
  have h1 := List.count_le_length (a := true) (l := xs)
  have h2 := List.count_le_length (a := true) (l := ys)
  have h3 := List.count_le_length (a := false) (l := xs)
  have h4 := List.count_le_length (a := false) (l := ys)
  simp only [BB.Group.merge, Multiset.coe_count, List.count_append]
  rw [i32_of (by unfold InInt32 int32Min int32Max; omega),
    i32_of (by unfold InInt32 int32Min int32Max; omega)]
  simp

/-! ## C28, C29 -/

/-- Hyperparameters `alpha`, `beta` as exact numbers. -/
noncomputable abbrev BB.real (a b : ℝ) : BB.Shared XR := ⟨.fin a, .fin b⟩

namespace BB

theorem scoreData_eq {a b : ℝ} (ha : 0 < a) (hb : 0 < b) (g : Group) (hh : 0 < a + g.heads)
    (ht : 0 < b + g.tails) : g.scoreData (BB.real a b) =
      .fin (Real.log (Real.Gamma (a + g.heads)) - Real.log (Real.Gamma a) +
        (Real.log (Real.Gamma (b + g.tails)) - Real.log (Real.Gamma b)) +
        (Real.log (Real.Gamma (a + b)) -
          Real.log (Real.Gamma ((a + g.heads) + (b + g.tails))))) := by
  simp only [Group.scoreData, XR.ofInt_eq, XR.fin_add]
  rw [XR.lgamma_fin hh, XR.lgamma_fin ha, XR.lgamma_fin ht, XR.lgamma_fin hb,
    XR.lgamma_fin (by linarith), XR.lgamma_fin (by linarith)]
  simp

theorem scoreValue_eq {a b : ℝ} (g : Group) (hh : 0 < a + g.heads) (ht : 0 < b + g.tails)
    (v : Bool) : g.scoreValue (BB.real a b) v =
      .fin (Real.log ((if v then a + g.heads else b + g.tails) /
        ((a + g.heads) + (b + g.tails)))) := by
  have hs : 0 < (a + g.heads) + (b + g.tails) := by linarith
  simp only [Group.scoreValue, Scorer.init, Scorer.eval, XR.ofInt_eq, XR.fin_add]
  rw [XR.fin_div _ _ hs.ne', XR.fin_div _ _ hs.ne', XR.log_fin (by positivity),
    XR.log_fin (by positivity)]
  cases v <;> simp

end BB

/-- **C28 (Beta-Bernoulli), one step.** In exact arithmetic, for every group whose
posterior hyperparameters are positive. -/
theorem C28_bb_step (a b : ℝ) (ha : 0 < a) (hb : 0 < b) (g g' : BB.Group)
    (hh : 0 < a + g.heads) (ht : 0 < b + g.tails) (v : Bool) (hg : g.addValue v = .ok g') :
    g'.scoreData (BB.real a b) = g.scoreData (BB.real a b) + g.scoreValue (BB.real a b) v := by
  have hg' : g' = if v then ⟨g.heads + 1, g.tails⟩ else ⟨g.heads, g.tails + 1⟩ := by
    cases v <;>
    simp only [BB.Group.addValue, Bool.false_eq_true, if_false, if_true, Res.bind_eq_ok,
      i32_eq_ok, Res.pure_eq, Res.ok.injEq] at hg ⊢ <;>
    obtain ⟨x, ⟨_, rfl⟩, rfl⟩ := hg <;> rfl
  have hs : 0 < (a + g.heads) + (b + g.tails) := by linarith
  rw [BB.scoreData_eq ha hb g hh ht, BB.scoreValue_eq g hh ht]
  cases v with
  | true =>
    simp only [if_true] at hg' ⊢
    subst hg'
    rw [BB.scoreData_eq ha hb ⟨g.heads + 1, g.tails⟩ (by push_cast; linarith) ht]
    simp only [Int.cast_add, Int.cast_one, XR.fin_add, XR.fin_inj]
    rw [Real.log_div hh.ne' hs.ne', ← add_assoc a, PitmanYor.log_gamma_succ hh,
      show a + (g.heads : ℝ) + 1 + (b + g.tails) = a + g.heads + (b + g.tails) + 1 by ring,
      PitmanYor.log_gamma_succ hs]
    ring
  | false =>
    simp only [Bool.false_eq_true, if_false] at hg' ⊢
    subst hg'
    rw [BB.scoreData_eq ha hb ⟨g.heads, g.tails + 1⟩ hh (by push_cast; linarith)]
    simp only [Int.cast_add, Int.cast_one, XR.fin_add, XR.fin_inj]
    rw [Real.log_div ht.ne' hs.ne', ← add_assoc b, PitmanYor.log_gamma_succ ht,
      ← add_assoc (a + (g.heads : ℝ)), PitmanYor.log_gamma_succ hs]
    ring

/-- The empty group has data score zero. -/
theorem C28_bb_empty (a b : ℝ) (ha : 0 < a) (hb : 0 < b) :
    BB.Group.init.scoreData (BB.real a b) = .fin 0 := by
  rw [BB.scoreData_eq ha hb _ (by simpa [BB.Group.init] using ha)
    (by simpa [BB.Group.init] using hb)]
  simp [BB.Group.init]

/-- **C28 (Beta-Bernoulli).** The data score of the group of any data set is the sum of
the predictive scores of its values, each given those before it. -/
theorem C28_bb (a b : ℝ) (ha : 0 < a) (hb : 0 < b) (xs : List Bool)
    (hl : xs.length ≤ 2147483647) :
    ∃ g, addAll BB.ops BB.Group.init xs = .ok g ∧
      sequentialScore BB.ops (fun g v => .ok (g.scoreValue (BB.real a b) v))
        BB.Group.init xs (ofInt 0) = .ok (g.scoreData (BB.real a b)) := by
  obtain ⟨g, h1, h2, _⟩ := sequential_of_step BB.summarises
    (fun g v => .ok (g.scoreValue (BB.real a b) v)) (fun g => g.scoreData (BB.real a b))
    (fun g M v g' hS hg => ⟨_, rfl, by
      rcases hS with ⟨rfl, _⟩
      exact C28_bb_step a b ha hb _ g' (by simp; positivity) (by simp; positivity) v hg⟩) xs hl
  refine ⟨g, h1, ?_⟩
  rw [← h2]
  show sequentialScore _ _ _ _ _ = sequentialScore _ _ _ _ (BB.Group.init.scoreData (BB.real a b))
  rw [C28_bb_empty a b ha hb]; simp; rfl

/-- **C29 (Beta-Bernoulli).** Adding the same values in another order gives the same
group, hence bit for bit the same scores with every float type. -/
theorem C29_bb {F : Type} [FloatOps F] (sh : BB.Shared F) (xs ys : List Bool)
    (hp : xs.Perm ys) (hl : xs.length ≤ 2147483647) :
    ∃ gx gy, addAll BB.ops BB.Group.init xs = .ok gx ∧ addAll BB.ops BB.Group.init ys = .ok gy ∧
      gx.scoreData sh = gy.scoreData sh ∧ ∀ v, gx.scoreValue sh v = gy.scoreValue sh v := by
  obtain ⟨gx, ex, hx, _⟩ := addAll_summarises BB.summarises xs hl
  obtain ⟨gy, ey, hy, _⟩ := addAll_summarises BB.summarises ys (by rw [← hp.length_eq]; exact hl)
  have : gx = gy := by rw [hx, hy, Multiset.coe_eq_coe.mpr hp]
  exact ⟨gx, gy, ex, ey, by rw [this], by rw [this]; simp⟩

/-! ## C30 -/

/-- **C30 (Beta-Bernoulli).** The predictive probabilities of `true` and `false` sum to
one. -/
theorem C30_bb (a b : ℝ) (g : BB.Group) (hh : 0 < a + g.heads) (ht : 0 < b + g.tails) :
    exp (g.scoreValue (BB.real a b) true) + exp (g.scoreValue (BB.real a b) false) = .fin 1 := by
  have hs : 0 < (a + g.heads) + (b + g.tails) := by linarith
  rw [BB.scoreValue_eq g hh ht, BB.scoreValue_eq g hh ht]
  simp only [if_true, Bool.false_eq_true, if_false, XR.exp_fin, XR.fin_add, XR.fin_inj]
  rw [Real.exp_log (by positivity), Real.exp_log (by positivity), ← add_div, div_self hs.ne']

/-- The hypotheses of C28 and C30 are met by the example hyperparameters (bb.hpp:70-75)
with any counts. -/
example (h t : Nat) : (0 : ℝ) < 0.5 ∧ (0 : ℝ) < 2 ∧
    (0 : ℝ) < 0.5 + ((h : Int) : ℝ) ∧ (0 : ℝ) < 2 + ((t : Int) : ℝ) := by
  refine ⟨by norm_num, by norm_num, ?_, ?_⟩ <;> push_cast <;> positivity

end Dist
