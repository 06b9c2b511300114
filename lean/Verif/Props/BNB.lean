import Verif.Lemmas.Counts

/-! # Beta-Negative-Binomial: properties C25-C29, C33, C34 -/

namespace Dist

open Spec FloatOps FloatNotation

/-! ## C25 -/

/-- **C25 (Beta-Negative-Binomial).** Histories (with debt and wrap-around allowed, of
any length) with the same net effect give the same group. -/
theorem C25_bnb_order (h₁ h₂ : List (ValueOp UInt32)) (hn : ∀ v, net h₁ v = net h₂ v) :
    ∃ g, runGroup BNB.ops BNB.Group.init h₁ = .ok g ∧
      runGroup BNB.ops BNB.Group.init h₂ = .ok g := by
  refine ⟨_, BNB.run_eq h₁ _, ?_⟩
  rw [BNB.run_eq h₂, signedSum_congr _ hn, signedSum_congr id hn]

/-- For histories that only remove what is there, the statistics are the number of
values held and their sum (modulo `2^32`). -/
theorem C25_bnb_contents (h : List (ValueOp UInt32)) (hv : ValidValues 0 h) :
    runGroup BNB.ops BNB.Group.init h =
      .ok ⟨UInt32.ofNat (contents 0 h).card, UInt32.ofNat (totalValue (contents 0 h))⟩ := by
  obtain ⟨g, e, hg, _⟩ := runGroup_summarises BNB.summarises h BNB.Group.init 0
    BNB.summarises.init hv
  rw [e, hg]

/-- `remove_value` undoes `add_value` and conversely, in every state. -/
theorem C25_bnb_inverse (g : BNB.Group) (v : UInt32) :
    (g.addValue v).removeValue v = g ∧ (g.removeValue v).addValue v = g := by
  simp [BNB.Group.addValue, BNB.Group.removeValue]

example : runGroup BNB.ops BNB.Group.init [.remove 3, .add 5, .add 3] = .ok ⟨1, 5⟩ := by decide
/-- Wrap-around of the sum. -/
example : runGroup BNB.ops BNB.Group.init
    [.add 4294967295, .add 3, .remove 4294967295] = .ok ⟨1, 3⟩ := by decide

/-! ## C26 -/

/-- **C26 (Beta-Negative-Binomial).** From every group state, `add_repeated_value(v, n)`
and `n` times `add_value(v)` agree, wrap-around included. -/
theorem C26_bnb (g : BNB.Group) (v : UInt32) (n : Nat) :
    addTimes BNB.ops g v n = .ok (g.addRepeatedValue v n) := by
  induction n generalizing g with
  | zero => simp [addTimes, addAll, BNB.Group.addRepeatedValue, u32_ofInt_zero]
  | succ n ih =>
    simp only [addTimes, List.replicate_succ, addAll]
    show addTimes BNB.ops (g.addValue v) v n = _
    simp only [ih, BNB.Group.addRepeatedValue, BNB.Group.addValue, u32_ofInt_succ, Res.ok.injEq,
      BNB.Group.mk.injEq]
    refine ⟨by rw [add_assoc, add_comm 1], ?_⟩
    rw [add_mul, one_mul, add_assoc, add_comm v]

example : (⟨1, 5⟩ : BNB.Group).addRepeatedValue 3 4 = ⟨5, 17⟩ := by decide

/-! ## C27 -/

/-- **C27 (Beta-Negative-Binomial).** Merging the groups of two data sets of any size
gives the group of their concatenation. -/
theorem C27_bnb (xs ys : List UInt32) :
    ∃ gx gy, addAll BNB.ops BNB.Group.init xs = .ok gx ∧
      addAll BNB.ops BNB.Group.init ys = .ok gy ∧
      addAll BNB.ops BNB.Group.init (xs ++ ys) = .ok (gx.merge gy) := by
  simp only [addAll_eq_runGroup, BNB.run_eq, List.map_append, signedSum_append]
  exact ⟨_, _, rfl, rfl, by simp [BNB.Group.merge, BNB.Group.init]⟩

/-! ## C28, C29 -/

/-- Hyperparameters as exact numbers; `r` is a `uint32_t`. -/
noncomputable abbrev BNB.real (a b : ℝ) (r : UInt32) : BNB.Shared XR := ⟨.fin a, .fin b, r⟩

namespace BNB

theorem scoreData_eq {a b : ℝ} (ha : 0 < a) (hb : 0 < b) (r c s : UInt32) :
    (⟨c, s⟩ : Group).scoreData (real a b r) =
      .fin (Real.log (Real.Gamma (a + b)) -
          Real.log (Real.Gamma ((a + r.toNat * c.toNat) + (b + s.toNat))) +
        (Real.log (Real.Gamma (a + r.toNat * c.toNat)) - Real.log (Real.Gamma a)) +
        (Real.log (Real.Gamma (b + s.toNat)) - Real.log (Real.Gamma b))) := by
  have h1 : 0 < a + (r.toNat : ℝ) * c.toNat := by positivity
  have h2 : 0 < b + (s.toNat : ℝ) := by positivity
  simp only [Group.scoreData, Shared.plusGroup, u32, XR.ofInt_eq, XR.fin_add, XR.fin_mul,
    Int.cast_natCast]
  rw [XR.lgamma_fin h1, XR.lgamma_fin h2, XR.lgamma_fin ha, XR.lgamma_fin hb,
    XR.lgamma_fin (add_pos h1 h2), XR.lgamma_fin (add_pos ha hb)]
  simp

theorem scoreValue_eq {a b : ℝ} (ha : 0 < a) (hb : 0 < b) (r c s v : UInt32) :
    (⟨c, s⟩ : Group).scoreValue (real a b r) v =
      .fin (Real.log (Real.Gamma ((a + r.toNat * c.toNat) + (b + s.toNat))) -
          Real.log (Real.Gamma ((a + r.toNat * c.toNat + r.toNat) + (b + s.toNat + v.toNat))) +
        (Real.log (Real.Gamma (a + r.toNat * c.toNat + r.toNat)) -
          Real.log (Real.Gamma (a + r.toNat * c.toNat))) +
        (Real.log (Real.Gamma (b + s.toNat + v.toNat)) -
          Real.log (Real.Gamma (b + s.toNat)))) := by
  have h1 : 0 < a + (r.toNat : ℝ) * c.toNat := by positivity
  have h2 : 0 < b + (s.toNat : ℝ) := by positivity
  have h3 : 0 < a + (r.toNat : ℝ) * c.toNat + r.toNat := by positivity
  have h4 : 0 < b + (s.toNat : ℝ) + v.toNat := by positivity
  simp only [Group.scoreValue, Shared.plusGroup, u32, XR.ofInt_eq, XR.fin_add, XR.fin_mul,
    Int.cast_natCast]
  rw [XR.lgamma_fin h1, XR.lgamma_fin h2, XR.lgamma_fin h3, XR.lgamma_fin h4,
    XR.lgamma_fin (add_pos h1 h2), XR.lgamma_fin (add_pos h3 h4)]
  simp

end BNB

/-- **C28 (Beta-Negative-Binomial), one step.** In exact arithmetic, for every group and
every `r`, as long as the statistics do not wrap around. -/
theorem C28_bnb_step (a b : ℝ) (ha : 0 < a) (hb : 0 < b) (r : UInt32) (g : BNB.Group) (v : UInt32)
    (hc : g.count.toNat + 1 < 2 ^ 32) (hs : g.sum.toNat + v.toNat < 2 ^ 32) :
    (g.addValue v).scoreData (BNB.real a b r) =
      g.scoreData (BNB.real a b r) + g.scoreValue (BNB.real a b r) v := by
  obtain ⟨c, s⟩ := g
  simp only at hc hs
  have e1 : (c + 1).toNat = c.toNat + 1 := by
    rw [UInt32.toNat_add]; exact Nat.mod_eq_of_lt hc
  have e2 : (s + v).toNat = s.toNat + v.toNat := by
    rw [UInt32.toNat_add]; exact Nat.mod_eq_of_lt hs
  simp only [BNB.Group.addValue]
  rw [BNB.scoreData_eq ha hb, BNB.scoreData_eq ha hb, BNB.scoreValue_eq ha hb, e1, e2]
  simp only [XR.fin_add, XR.fin_inj]
  push_cast
  rw [show a + (r.toNat : ℝ) * ((c.toNat : ℝ) + 1) = a + r.toNat * c.toNat + r.toNat by ring,
    ← add_assoc b]
  ring

/-- The empty group has data score zero. -/
theorem C28_bnb_empty (a b : ℝ) (ha : 0 < a) (hb : 0 < b) (r : UInt32) :
    BNB.Group.init.scoreData (BNB.real a b r) = .fin 0 := by
  rw [BNB.Group.init, BNB.scoreData_eq ha hb]; simp

/-- **C28 (Beta-Negative-Binomial).** The data score of the group of any data set whose
sum fits in 32 bits is the sum of the predictive scores of its values, each given those
before it. -/
theorem C28_bnb (a b : ℝ) (ha : 0 < a) (hb : 0 < b) (r : UInt32) (xs : List UInt32)
    (hl : xs.length ≤ 2147483647) (hsum : totalValue xs < 2 ^ 32) :
    ∃ g, addAll BNB.ops BNB.Group.init xs = .ok g ∧
      sequentialScore BNB.ops (fun g v => .ok (g.scoreValue (BNB.real a b r) v))
        BNB.Group.init xs (ofInt 0) = .ok (g.scoreData (BNB.real a b r)) := by
  obtain ⟨g, h1, h2, _⟩ := sequential_of_step_le BNB.summarises
    (fun g v => .ok (g.scoreValue (BNB.real a b r) v)) (fun g => g.scoreData (BNB.real a b r))
    xs hl
    (fun g M v g' hS hle hg => ⟨_, rfl, by
      rcases hS with ⟨rfl, hM⟩
      have ht := totalValue_le hle
      rw [totalValue_cons] at ht
      simp only [BNB.ops, Res.ok.injEq] at hg
      subst hg
      refine C28_bnb_step a b ha hb r _ v ?_ ?_
      · simp only; rw [UInt32.toNat_ofNat', Nat.mod_eq_of_lt (by omega)]; omega
      · simp only; rw [UInt32.toNat_ofNat', Nat.mod_eq_of_lt (by omega)]; omega⟩)
  refine ⟨g, h1, ?_⟩
  rw [← h2]
  show sequentialScore _ _ _ _ _ = sequentialScore _ _ _ _
    (BNB.Group.init.scoreData (BNB.real a b r))
  rw [C28_bnb_empty a b ha hb]; simp; rfl

/-- **C29 (Beta-Negative-Binomial).** Adding the same values in another order gives the
same group, hence bit for bit the same scores with every float type. -/
theorem C29_bnb {F : Type} [FloatOps F] (sh : BNB.Shared F) (xs ys : List UInt32)
    (hp : xs.Perm ys) :
    ∃ gx gy, addAll BNB.ops BNB.Group.init xs = .ok gx ∧
      addAll BNB.ops BNB.Group.init ys = .ok gy ∧
      gx.scoreData sh = gy.scoreData sh ∧ ∀ v, gx.scoreValue sh v = gy.scoreValue sh v := by
  obtain ⟨g, e1, e2⟩ := C25_bnb_order (xs.map .add) (ys.map .add) (net_perm hp)
  rw [← addAll_eq_runGroup] at e1 e2
  exact ⟨g, g, e1, e2, rfl, fun _ => rfl⟩

example : ([3, 0, 4000000000] : List UInt32).length ≤ 2147483647 ∧
    totalValue (([3, 0, 4000000000] : List UInt32) : Multiset UInt32) < 2 ^ 32 := by
  constructor
  · simp
  · simp [totalValue]

/-! ## C33, C34 -/

/-- **C33 (Beta-Negative-Binomial).** Updating the hyperparameters with one group and
then with another is updating with the merged group (no wrap-around). -/
theorem C33_bnb (a b : ℝ) (r : UInt32) (g₁ g₂ : BNB.Group)
    (hc : g₁.count.toNat + g₂.count.toNat < 2 ^ 32)
    (hs : g₁.sum.toNat + g₂.sum.toNat < 2 ^ 32) :
    ((BNB.real a b r).plusGroup g₁).plusGroup g₂ = (BNB.real a b r).plusGroup (g₁.merge g₂) := by
  have e1 : (g₁.count + g₂.count).toNat = g₁.count.toNat + g₂.count.toNat := by
    rw [UInt32.toNat_add]; exact Nat.mod_eq_of_lt hc
  have e2 : (g₁.sum + g₂.sum).toNat = g₁.sum.toNat + g₂.sum.toNat := by
    rw [UInt32.toNat_add]; exact Nat.mod_eq_of_lt hs
  simp only [BNB.Shared.plusGroup, BNB.u32, BNB.Group.merge, XR.ofInt_eq, XR.fin_add, XR.fin_mul,
    Int.cast_natCast, e1, e2, BNB.Shared.mk.injEq, XR.fin_inj]
  push_cast
  exact ⟨by ring, by ring, trivial⟩

/-- **C34 (Beta-Negative-Binomial).** The scorer object and the group's own
`score_value`, which are written differently, give the same number in exact arithmetic,
for every group and value. -/
theorem C34_bnb (a b : ℝ) (ha : 0 < a) (hb : 0 < b) (r : UInt32) (g : BNB.Group) (v : UInt32) :
    (BNB.Scorer.init (BNB.real a b r) g).eval v = g.scoreValue (BNB.real a b r) v := by
  obtain ⟨c, s⟩ := g
  have h1 : 0 < a + (r.toNat : ℝ) * c.toNat := by positivity
  have h2 : 0 < b + (s.toNat : ℝ) := by positivity
  have h3 : 0 < a + (r.toNat : ℝ) * c.toNat + r.toNat := by positivity
  have h4 : 0 < b + (s.toNat : ℝ) + v.toNat := by positivity
  rw [BNB.scoreValue_eq ha hb]
  simp only [BNB.Scorer.init, BNB.Scorer.eval, BNB.Shared.plusGroup, BNB.u32, XR.ofInt_eq,
    XR.fin_add, XR.fin_mul, Int.cast_natCast]
  rw [XR.lgamma_fin h1, XR.lgamma_fin h2, XR.lgamma_fin h3, XR.lgamma_fin h4,
    XR.lgamma_fin (add_pos h1 h2), XR.lgamma_fin (add_pos h3 h4)]
  simp only [XR.fin_sub, XR.fin_add, XR.fin_inj]
  ring

end Dist
