import Verif.Lemmas.Counts

/-! # Gamma-Poisson: properties C25-C29, C33

`count` and `sum` are exact (they wrap at `2^32`) whatever the float type; `log_prod` is
a running float sum, so statements about it are in exact arithmetic. -/

namespace Dist

open Spec FloatOps FloatNotation

/-! ## C25 -/

/-- **C25 (Gamma-Poisson).** Histories (with debt and wrap-around allowed, of any length)
with the same net effect give the same group in exact arithmetic. -/
theorem C25_gp_order (h₁ h₂ : List (ValueOp UInt32)) (hn : ∀ v, net h₁ v = net h₂ v) :
    ∃ g, runGroup GP.ops (GP.Group.init : GP.Group XR) h₁ = .ok g ∧
      runGroup GP.ops (GP.Group.init : GP.Group XR) h₂ = .ok g := by
  have h0 : (GP.Group.init : GP.Group XR) = ⟨0, 0, .fin 0⟩ := by simp [GP.Group.init]
  rw [h0]
  refine ⟨_, GP.run_eq h₁ 0 0 0, ?_⟩
  rw [GP.run_eq h₂ 0 0 0, signedSum_congr _ hn, signedSum_congr id hn, signedSum_congr _ hn]

/-- With every float type, the integer statistics agree bit for bit. -/
theorem C25_gp_order_int {F : Type} [FloatOps F] (h₁ h₂ : List (ValueOp UInt32))
    (hn : ∀ v, net h₁ v = net h₂ v) :
    ∃ g₁ g₂, runGroup GP.ops (GP.Group.init : GP.Group F) h₁ = .ok g₁ ∧
      runGroup GP.ops (GP.Group.init : GP.Group F) h₂ = .ok g₂ ∧
      g₁.count = g₂.count ∧ g₁.sum = g₂.sum := by
  obtain ⟨l₁, e₁⟩ := GP.run_int h₁ (GP.Group.init : GP.Group F)
  obtain ⟨l₂, e₂⟩ := GP.run_int h₂ (GP.Group.init : GP.Group F)
  exact ⟨_, _, e₁, e₂, by simp only [signedSum_congr _ hn],
    by simp only [signedSum_congr id hn]⟩

/-- For histories that only remove what is there, the statistics are the number of
values held, their sum and the log of the product of their factorials. -/
theorem C25_gp_contents (h : List (ValueOp UInt32)) (hv : ValidValues 0 h) :
    runGroup GP.ops (GP.Group.init : GP.Group XR) h =
      .ok ⟨UInt32.ofNat (contents 0 h).card, UInt32.ofNat (totalValue (contents 0 h)),
        .fin (totalLogFact (contents 0 h))⟩ := by
  obtain ⟨g, e, hg, _⟩ := runGroup_summarises GP.summarises h GP.Group.init 0
    GP.summarises.init hv
  rw [e, hg]

/-- `remove_value` undoes `add_value` and conversely: the integer statistics in every
state and with every float type, the whole group in exact arithmetic. -/
theorem C25_gp_inverse {F : Type} [FloatOps F] (g : GP.Group F) (c s : UInt32) (l : ℝ)
    (v : UInt32) :
    ((g.addValue v).removeValue v).count = g.count ∧
    ((g.addValue v).removeValue v).sum = g.sum ∧
    ((g.removeValue v).addValue v).count = g.count ∧
    ((g.removeValue v).addValue v).sum = g.sum ∧
    (GP.Group.addValue ⟨c, s, XR.fin l⟩ v).removeValue v = ⟨c, s, .fin l⟩ ∧
    (GP.Group.removeValue ⟨c, s, XR.fin l⟩ v).addValue v = ⟨c, s, .fin l⟩ := by
  simp [GP.Group.addValue, GP.Group.removeValue, GP.logFact]

example : ValidValues (0 : Multiset UInt32) [.add 7, .add 4000000000, .remove 7] := by
  simp [ValidValues]
example : net [.remove 3, .add (5 : UInt32), .add 3] = net [.add (5 : UInt32)] := by
  funext v; simp only [net]; split_ifs <;> simp

/-! ## C26 -/

/-- **C26 (Gamma-Poisson).** From every group state, `add_repeated_value(v, n)` and `n`
times `add_value(v)` agree in exact arithmetic. -/
theorem C26_gp (c s : UInt32) (l : ℝ) (v : UInt32) (n : Nat) :
    addTimes GP.ops (⟨c, s, .fin l⟩ : GP.Group XR) v n =
      .ok (GP.Group.addRepeatedValue ⟨c, s, .fin l⟩ v n) := by
  induction n generalizing c s l with
  | zero => simp [addTimes, addAll, GP.Group.addRepeatedValue, GP.logFact, u32_ofInt_zero]
  | succ n ih =>
    simp only [addTimes, List.replicate_succ, addAll]
    show addTimes GP.ops (GP.Group.addValue _ v) v n = _
    simp only [GP.Group.addValue, GP.logFact, XR.logFactorial_eq, XR.fin_add, ih,
      GP.Group.addRepeatedValue, u32_ofInt_succ, XR.ofInt_eq, XR.fin_mul, Res.ok.injEq,
      GP.Group.mk.injEq, XR.fin_inj]
    refine ⟨by rw [add_assoc, add_comm 1], ?_, by push_cast; ring⟩
    rw [add_mul, one_mul, add_assoc, add_comm v]

/-- With every float type, the integer statistics agree bit for bit. -/
theorem C26_gp_int {F : Type} [FloatOps F] (g : GP.Group F) (v : UInt32) (n : Nat) :
    ∃ l, addTimes GP.ops g v n =
      .ok ⟨(g.addRepeatedValue v n).count, (g.addRepeatedValue v n).sum, l⟩ := by
  induction n generalizing g with
  | zero => exact ⟨g.logProd, by simp [addTimes, addAll, GP.Group.addRepeatedValue, u32_ofInt_zero]⟩
  | succ n ih =>
    obtain ⟨l, e⟩ := ih (g.addValue v)
    refine ⟨l, ?_⟩
    simp only [addTimes, List.replicate_succ, addAll]
    show addTimes GP.ops (GP.Group.addValue _ v) v n = _
    rw [e]
    simp only [GP.Group.addRepeatedValue, GP.Group.addValue, u32_ofInt_succ, Res.ok.injEq,
      GP.Group.mk.injEq, and_true]
    refine ⟨by rw [add_assoc, add_comm 1], ?_⟩
    rw [add_mul, one_mul, add_assoc, add_comm v]

example : (GP.Group.addRepeatedValue ⟨1, 5, XR.fin 2⟩ 3 4).count = 5 ∧
    (GP.Group.addRepeatedValue ⟨1, 5, XR.fin 2⟩ 3 4).sum = 17 := by
  constructor <;> rfl

/-! ## C27 -/

/-- **C27 (Gamma-Poisson).** Merging the groups of two data sets of any size gives the
group of their concatenation, in exact arithmetic. -/
theorem C27_gp (xs ys : List UInt32) :
    ∃ gx gy, addAll GP.ops (GP.Group.init : GP.Group XR) xs = .ok gx ∧
      addAll GP.ops (GP.Group.init : GP.Group XR) ys = .ok gy ∧
      addAll GP.ops (GP.Group.init : GP.Group XR) (xs ++ ys) = .ok (gx.merge gy) := by
  have h0 : (GP.Group.init : GP.Group XR) = ⟨0, 0, .fin 0⟩ := by simp [GP.Group.init]
  simp only [addAll_eq_runGroup, h0, GP.run_eq, List.map_append, signedSum_append]
  exact ⟨_, _, rfl, rfl, by simp [GP.Group.merge]⟩

/-- With every float type, the integer statistics agree bit for bit. -/
theorem C27_gp_int {F : Type} [FloatOps F] (xs ys : List UInt32) :
    ∃ gx gy g, addAll GP.ops (GP.Group.init : GP.Group F) xs = .ok gx ∧
      addAll GP.ops (GP.Group.init : GP.Group F) ys = .ok gy ∧
      addAll GP.ops (GP.Group.init : GP.Group F) (xs ++ ys) = .ok g ∧
      (gx.merge gy).count = g.count ∧ (gx.merge gy).sum = g.sum := by
  obtain ⟨l₁, e₁⟩ := GP.run_int (xs.map .add) (GP.Group.init : GP.Group F)
  obtain ⟨l₂, e₂⟩ := GP.run_int (ys.map .add) (GP.Group.init : GP.Group F)
  obtain ⟨l₃, e₃⟩ := GP.run_int ((xs ++ ys).map .add) (GP.Group.init : GP.Group F)
  simp only [addAll_eq_runGroup]
  exact ⟨_, _, _, e₁, e₂, e₃, by simp [GP.Group.merge, GP.Group.init, signedSum_append],
    by simp [GP.Group.merge, GP.Group.init, signedSum_append]⟩

/-! ## C28, C29 -/

/-- Hyperparameters as exact numbers. -/
noncomputable abbrev GP.real (a b : ℝ) : GP.Shared XR := ⟨.fin a, .fin b⟩

namespace GP

theorem scoreData_eq {a b : ℝ} (ha : 0 < a) (hb : 0 < b) (c s : UInt32) (l : ℝ) :
    (⟨c, s, .fin l⟩ : Group XR).scoreData (real a b) =
      .fin (Real.log (Real.Gamma (a + s.toNat)) - Real.log (Real.Gamma a) +
        (a * Real.log b - (a + s.toNat) * Real.log (b + c.toNat)) - l) := by
  have h1 : 0 < a + (s.toNat : ℝ) := by positivity
  have h2 : 0 < b + (c.toNat : ℝ) := by positivity
  simp only [Group.scoreData, Shared.plusGroup, u32, XR.ofInt_eq, XR.fin_add, Int.cast_natCast]
  rw [XR.lgamma_fin h1, XR.lgamma_fin ha, XR.log_fin hb, XR.log_fin h2]
  simp [sub_eq_add_neg]

theorem scoreValue_eq {a b : ℝ} (ha : 0 < a) (hb : 0 < b) (c s : UInt32) (l : XR) (v : UInt32) :
    (⟨c, s, l⟩ : Group XR).scoreValue (real a b) v =
      .fin (-Real.log (Real.Gamma (a + s.toNat)) +
        (a + s.toNat) * (Real.log (b + c.toNat) - Real.log (1 + (b + c.toNat))) +
        Real.log (Real.Gamma (a + s.toNat + v.toNat)) - Real.log (Nat.factorial v.toNat) -
        Real.log (1 + (b + c.toNat)) * v.toNat) := by
  have h1 : 0 < a + (s.toNat : ℝ) := by positivity
  have h2 : 0 < b + (c.toNat : ℝ) := by positivity
  have h3 : 0 < a + (s.toNat : ℝ) + v.toNat := by positivity
  have h4 : 0 < 1 + (b + (c.toNat : ℝ)) := by positivity
  simp only [Group.scoreValue, Scorer.init, Scorer.eval, Shared.plusGroup, u32, logFact,
    XR.ofInt_eq, XR.fin_add, Int.cast_natCast, XR.lit_eq, XR.logFactorial_eq]
  norm_num only
  rw [XR.lgamma_fin h1, XR.lgamma_fin h3, XR.log_fin h2, XR.log_fin h4]
  simp only [XR.fin_neg, XR.fin_add, XR.fin_mul, XR.fin_sub, XR.fin_inj]
  ring

end GP

/-- **C28 (Gamma-Poisson), one step.** In exact arithmetic, for every group, as long as
the statistics do not wrap around. -/
theorem C28_gp_step (a b : ℝ) (ha : 0 < a) (hb : 0 < b) (c s : UInt32) (l : ℝ) (v : UInt32)
    (hc : c.toNat + 1 < 2 ^ 32) (hs : s.toNat + v.toNat < 2 ^ 32) :
    (GP.Group.addValue ⟨c, s, .fin l⟩ v).scoreData (GP.real a b) =
      GP.Group.scoreData (GP.real a b) ⟨c, s, .fin l⟩ +
        GP.Group.scoreValue (GP.real a b) ⟨c, s, .fin l⟩ v := by
  have e1 : (c + 1).toNat = c.toNat + 1 := by
    rw [UInt32.toNat_add]; exact Nat.mod_eq_of_lt hc
  have e2 : (s + v).toNat = s.toNat + v.toNat := by
    rw [UInt32.toNat_add]; exact Nat.mod_eq_of_lt hs
  simp only [GP.Group.addValue, GP.logFact, XR.logFactorial_eq, XR.fin_add]
  rw [GP.scoreData_eq ha hb, GP.scoreData_eq ha hb, GP.scoreValue_eq ha hb, e1, e2]
  simp only [XR.fin_add, XR.fin_inj]
  push_cast
  rw [show b + ((c.toNat : ℝ) + 1) = 1 + (b + c.toNat) by ring, ← add_assoc]
  ring

/-- The empty group has data score zero. -/
theorem C28_gp_empty (a b : ℝ) (ha : 0 < a) (hb : 0 < b) :
    (GP.Group.init : GP.Group XR).scoreData (GP.real a b) = .fin 0 := by
  have h0 : (GP.Group.init : GP.Group XR) = ⟨0, 0, .fin 0⟩ := by simp [GP.Group.init]
  rw [h0, GP.scoreData_eq ha hb]; simp

/-- **C28 (Gamma-Poisson).** The data score of the group of any data set whose sum fits
in 32 bits is the sum of the predictive scores of its values, each given those before
it. -/
theorem C28_gp (a b : ℝ) (ha : 0 < a) (hb : 0 < b) (xs : List UInt32)
    (hl : xs.length ≤ 2147483647) (hsum : totalValue xs < 2 ^ 32) :
    ∃ g, addAll GP.ops (GP.Group.init : GP.Group XR) xs = .ok g ∧
      sequentialScore GP.ops (fun g v => .ok (g.scoreValue (GP.real a b) v))
        (GP.Group.init : GP.Group XR) xs (ofInt 0) = .ok (g.scoreData (GP.real a b)) := by
  obtain ⟨g, h1, h2, _⟩ := sequential_of_step_le GP.summarises
    (fun g v => .ok (g.scoreValue (GP.real a b) v)) (fun g => g.scoreData (GP.real a b)) xs hl
    (fun g M v g' hS hle hg => ⟨_, rfl, by
      rcases hS with ⟨rfl, hM⟩
      have ht := totalValue_le hle
      rw [totalValue_cons] at ht
      simp only [GP.ops, Res.ok.injEq] at hg
      subst hg
      refine C28_gp_step a b ha hb _ _ _ v ?_ ?_
      · rw [UInt32.toNat_ofNat', Nat.mod_eq_of_lt (by omega)]; omega
      · rw [UInt32.toNat_ofNat', Nat.mod_eq_of_lt (by omega)]; omega⟩)
  refine ⟨g, h1, ?_⟩
  rw [← h2]
  show sequentialScore _ _ _ _ _ = sequentialScore _ _ _ _
    ((GP.Group.init : GP.Group XR).scoreData (GP.real a b))
  rw [C28_gp_empty a b ha hb]; simp; rfl

/-- **C29 (Gamma-Poisson).** Adding the same values in another order gives, in exact
arithmetic, the same group, hence the same scores. -/
theorem C29_gp (sh : GP.Shared XR) (xs ys : List UInt32) (hp : xs.Perm ys) :
    ∃ gx gy : GP.Group XR, addAll GP.ops GP.Group.init xs = .ok gx ∧
      addAll GP.ops GP.Group.init ys = .ok gy ∧
      gx.scoreData sh = gy.scoreData sh ∧ ∀ v, gx.scoreValue sh v = gy.scoreValue sh v := by
  obtain ⟨g, e1, e2⟩ := C25_gp_order (xs.map .add) (ys.map .add) (net_perm hp)
  rw [← addAll_eq_runGroup] at e1 e2
  exact ⟨g, g, e1, e2, rfl, fun _ => rfl⟩

/-- **C29 (Gamma-Poisson).** Predictive scores do not depend on `log_prod`, so they agree
bit for bit with every float type. -/
theorem C29_gp_value {F : Type} [FloatOps F] (sh : GP.Shared F) (xs ys : List UInt32)
    (hp : xs.Perm ys) :
    ∃ gx gy : GP.Group F, addAll GP.ops GP.Group.init xs = .ok gx ∧
      addAll GP.ops GP.Group.init ys = .ok gy ∧
      ∀ v, gx.scoreValue sh v = gy.scoreValue sh v := by
  obtain ⟨g₁, g₂, e1, e2, h1, h2⟩ :=
    C25_gp_order_int (F := F) (xs.map .add) (ys.map .add) (net_perm hp)
  rw [← addAll_eq_runGroup] at e1 e2
  refine ⟨g₁, g₂, e1, e2, fun v => ?_⟩
  simp only [GP.Group.scoreValue, GP.Scorer.init, GP.Shared.plusGroup, h1, h2]

/-- A data set meeting the hypotheses of C28. -/
example : ([3, 0, 4000000000] : List UInt32).length ≤ 2147483647 ∧
    totalValue (([3, 0, 4000000000] : List UInt32) : Multiset UInt32) < 2 ^ 32 := by
  constructor
  · simp
  · simp [totalValue]

/-! ## C33 -/

/-- **C33 (Gamma-Poisson).** Updating the hyperparameters with one group and then with
another is updating with the merged group (no wrap-around). -/
theorem C33_gp (a b : ℝ) (g₁ g₂ : GP.Group XR) (hc : g₁.count.toNat + g₂.count.toNat < 2 ^ 32)
    (hs : g₁.sum.toNat + g₂.sum.toNat < 2 ^ 32) :
    ((GP.real a b).plusGroup g₁).plusGroup g₂ = (GP.real a b).plusGroup (g₁.merge g₂) := by
  have e1 : (g₁.count + g₂.count).toNat = g₁.count.toNat + g₂.count.toNat := by
    rw [UInt32.toNat_add]; exact Nat.mod_eq_of_lt hc
  have e2 : (g₁.sum + g₂.sum).toNat = g₁.sum.toNat + g₂.sum.toNat := by
    rw [UInt32.toNat_add]; exact Nat.mod_eq_of_lt hs
  simp only [GP.Shared.plusGroup, GP.u32, GP.Group.merge, XR.ofInt_eq, XR.fin_add,
    Int.cast_natCast, e1, e2, GP.Shared.mk.injEq, XR.fin_inj]
  push_cast
  exact ⟨by ring, by ring⟩

end Dist
