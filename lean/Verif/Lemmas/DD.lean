import Mathlib.Data.List.OfFn
import Mathlib.Algebra.BigOperators.Fin
import Verif.Base.XR
import Verif.Model.DD
import Verif.Lemmas.Features
import Verif.Lemmas.PYScores

/-! # Lemmas about Dirichlet-Discrete groups -/

namespace Dist

open Spec FloatOps FloatNotation

namespace DD

/-- The group operations restricted to legal values, `0 <= value < dim`. -/
def opsFin (lvl dim : Nat) : GroupOps Group (Fin dim) :=
  ⟨Group.init dim, fun g v => g.addValue lvl (v : Nat), fun g v => g.removeValue lvl (v : Nat)⟩

variable {n : Nat}

/-- The group with total `s` and counts `c`. -/
def mk (s : Int) (c : Fin n → Int) : Group := ⟨s, List.ofFn c⟩

theorem addValue_eq (lvl : Nat) (g : Group) (v : Int) :
    g.addValue lvl v = g.addRepeatedValue lvl v 1 := rfl

theorem removeValue_eq (lvl : Nat) (g : Group) (v : Int) :
    g.removeValue lvl v = g.addRepeatedValue lvl v (-1) := rfl

theorem bump_eq (lvl : Nat) (s : Int) (c : Fin n → Int) (v : Fin n) (k : Int) :
    (mk s c).addRepeatedValue lvl (v : Nat) k = (do
      let s ← i32 (s + k)
      let x ← i32 (c v + k)
      return mk s (Function.update c v x)) := by
  have hv : (v : Nat) < (List.ofFn c).length := by simp
  have hv' : ((v : Nat) : Int) < ((mk s c).counts.length : Int) := by exact_mod_cast hv
  rw [Group.addRepeatedValue, distAssert_of hv']
  simp only [mk, readAt, writeAt, Nat.cast_nonneg, if_true, Int.toNat_natCast, getAt_of hv, Res.ok_bind,
    List.getElem_ofFn, setAt_of hv]
  congr 1; funext s'; congr 1; funext x
  simp only [Res.pure_eq, Res.ok.injEq, Group.mk.injEq, true_and]
  apply List.ext_getElem
  · simp
  · intro i h1 h2
    simp only [List.length_ofFn] at h2
    rw [List.getElem_set, List.getElem_ofFn, List.getElem_ofFn]
    by_cases e : (v : Nat) = i
    · subst e; simp
    · have : (⟨i, h2⟩ : Fin n) ≠ v := fun h => e (by rw [← h])
      simp [e, Function.update_of_ne this]

theorem init_eq (n : Nat) : Group.init n = mk 0 (fun _ : Fin n => 0) := by
  simp [Group.init, mk, List.ofFn_const]

theorem bump_ok (lvl : Nat) (s : Int) (c : Fin n → Int) (v : Fin n) (k : Int)
    (h1 : InInt32 (s + k)) (h2 : InInt32 (c v + k)) :
    (mk s c).addRepeatedValue lvl (v : Nat) k = .ok (mk (s + k) (Function.update c v (c v + k))) := by
  rw [bump_eq, i32_of h1, i32_of h2]; rfl

theorem mk_inj {s s' : Int} {c c' : Fin n → Int} : mk s c = mk s' c' ↔ s = s' ∧ c = c' := by
  simp [mk, List.ofFn_inj]

/-- How many values were added minus removed. -/
def netTotal {V : Type} : List (ValueOp V) → Int
  | [] => 0
  | .add _ :: h => 1 + netTotal h
  | .remove _ :: h => -1 + netTotal h

theorem netTotal_eq (h : List (ValueOp (Fin n))) : netTotal h = ∑ v, net h v := by
  induction h with
  | nil => simp [netTotal, net]
  | cons op h ih =>
    cases op <;> simp only [netTotal, net, ih, Finset.sum_add_distrib] <;> simp

theorem update_add (c : Fin n → Int) (v : Fin n) (k : Int) :
    Function.update c v (c v + k) = fun w => c w + if v = w then k else 0 := by
  funext w
  by_cases e : w = v
  · subst e; simp
  · rw [Function.update_of_ne e]; simp [Ne.symm e]

theorem run_eq (lvl : Nat) (h : List (ValueOp (Fin n))) (s : Int) (c : Fin n → Int)
    (hs : |s| + h.length ≤ 2147483647) (hc : ∀ v, |c v| + h.length ≤ 2147483647) :
    runGroup (opsFin lvl n) (mk s c) h = .ok (mk (s + netTotal h) fun v => c v + net h v) := by
  induction h generalizing s c with
  | nil => simp [runGroup, netTotal, net]
  | cons op h ih =>
    simp only [List.length_cons, Nat.cast_add, Nat.cast_one] at hs hc
    have hl : (0 : Int) ≤ h.length := by positivity
    have key : ∀ x k : Int, |k| = 1 → |x| + (h.length + 1) ≤ 2147483647 →
        |x + k| + h.length ≤ 2147483647 ∧ InInt32 (x + k) := by
      intro x k hk hx
      have h1 := abs_add_le x k
      have h2 : |x + k| ≤ 2147483647 := by omega
      have h3 := abs_le.mp h2
      exact ⟨by omega, by unfold InInt32 int32Min int32Max; omega⟩
    have step : ∀ (k : Int) (v : Fin n), |k| = 1 →
        runGroup (opsFin lvl n) (mk (s + k) (Function.update c v (c v + k))) h =
        .ok (mk (s + k + netTotal h) fun w => c w + (if v = w then k else 0) + net h w) := by
      intro k v hk
      rw [update_add]
      refine ih _ _ (key s k hk hs).1 ?_
      intro w
      by_cases e : v = w
      · subst e; simp only [if_true]; exact (key (c v) k hk (hc v)).1
      · simp only [e, if_false, add_zero]; have := hc w; omega
    cases op with
    | add v =>
      show ((mk s c).addValue lvl (v : Nat) >>= _) = _
      rw [addValue_eq, bump_ok lvl s c v 1 (key s 1 (by simp) hs).2 (key _ 1 (by simp) (hc v)).2]
      simp only [Res.ok_bind, step 1 v (by simp), netTotal, net]
      simp only [Res.ok.injEq, mk_inj]
      exact ⟨by ring, by funext w; ring⟩
    | remove v =>
      show ((mk s c).removeValue lvl (v : Nat) >>= _) = _
      rw [removeValue_eq, bump_ok lvl s c v (-1) (key s (-1) (by simp) hs).2
        (key _ (-1) (by simp) (hc v)).2]
      simp only [Res.ok_bind, step (-1) v (by simp), netTotal, net]
      simp only [Res.ok.injEq, mk_inj]
      exact ⟨by ring, by funext w; ring⟩

theorem card_eq_sum (M : Multiset (Fin n)) : ∑ v, M.count v = M.card := by
  rw [← Multiset.toFinset_sum_count_eq]
  symm
  exact Finset.sum_subset (Finset.subset_univ _) (by
    intro x _ hx; rw [Multiset.mem_toFinset] at hx; exact Multiset.count_eq_zero.mpr hx)

theorem summarises (lvl n : Nat) : Summarises (opsFin lvl n)
    (fun g M => g = mk M.card (fun v => (M.count v : Int)) ∧ M.card ≤ 2147483647) := by
  refine ⟨⟨by simp only [opsFin, init_eq]; simp, by simp⟩, ?_, ?_⟩
  · rintro g M v ⟨rfl, hM⟩ h
    have hc := Multiset.count_le_card v M
    refine ⟨_, ?_, rfl, by simp; omega⟩
    show Group.addValue lvl _ _ = _
    rw [addValue_eq, bump_ok lvl _ _ _ _ (by unfold InInt32 int32Min int32Max; omega)
      (by unfold InInt32 int32Min int32Max; omega)]
    simp only [Res.ok.injEq, mk_inj, update_add, Multiset.card_cons, Multiset.count_cons]
    refine ⟨by simp, ?_⟩
    funext w; by_cases e : v = w
    · subst e; simp
    · simp [e, Ne.symm e]
  · rintro g M v ⟨rfl, hM⟩ h
    have hc := Multiset.count_le_card v M
    have hp : 0 < M.count v := Multiset.count_pos.mpr h
    refine ⟨_, ?_, rfl, by have := Multiset.card_erase_le (a := v) (s := M); omega⟩
    show Group.removeValue lvl _ _ = _
    rw [removeValue_eq, bump_ok lvl _ _ _ _ (by unfold InInt32 int32Min int32Max; omega)
      (by unfold InInt32 int32Min int32Max; omega)]
    simp only [Res.ok.injEq, mk_inj, update_add]
    refine ⟨?_, ?_⟩
    · have := Multiset.card_erase_of_mem h
      have h2 : 0 < M.card := by omega
      rw [this, Nat.pred_eq_sub_one]; omega
    · funext w; by_cases e : v = w
      · subst e; rw [Multiset.count_erase_self]; simp; omega
      · rw [Multiset.count_erase_of_ne (Ne.symm e)]; simp [e]

/-! ## Scores in exact arithmetic -/

/-- Hyperparameters as exact numbers. -/
noncomputable def real (a : Fin n → ℝ) : Shared XR := ⟨List.ofFn fun i => .fin (a i)⟩

theorem scoreLoop_eq (a : Fin n → ℝ) (c : Fin n → Int) (ha : ∀ i, 0 < a i)
    (hc : ∀ i, 0 < a i + c i) (s t : ℝ) :
    scoreLoop (List.ofFn fun i => XR.fin (a i)) (List.ofFn c) (.fin s) (.fin t) =
      .ok (.fin (s + ∑ i, (Real.log (Real.Gamma (a i + c i)) - Real.log (Real.Gamma (a i)))),
        .fin (t + ∑ i, a i)) := by
  induction n generalizing s t with
  | zero => simp [scoreLoop]
  | succ n ih =>
    rw [List.ofFn_succ, List.ofFn_succ]
    simp only [scoreLoop, XR.ofInt_eq, XR.fin_add, XR.lgamma_fin (hc 0), XR.lgamma_fin (ha 0),
      XR.fin_sub]
    rw [ih (fun i => a i.succ) (fun i => c i.succ) (fun i => ha _) (fun i => hc _)]
    rw [Fin.sum_univ_succ, Fin.sum_univ_succ, add_assoc, add_assoc]

theorem scoreData_eq (a : Fin n → ℝ) (ha : ∀ i, 0 < a i) (c : Fin n → Int) (s : Int)
    (hc : ∀ i, 0 < a i + c i) (h0 : 0 < ∑ i, a i) (hs : 0 < ∑ i, a i + s) :
    (mk s c).scoreData (real a) =
      .ok (.fin (∑ i, (Real.log (Real.Gamma (a i + c i)) - Real.log (Real.Gamma (a i))) +
        (Real.log (Real.Gamma (∑ i, a i)) - Real.log (Real.Gamma (∑ i, a i + s))))) := by
  simp only [Group.scoreData, mk, real, XR.ofInt_eq, Int.cast_zero, scoreLoop_eq a c ha hc,
    Res.ok_bind, zero_add, XR.fin_add, XR.lgamma_fin h0, XR.lgamma_fin hs, XR.fin_sub, Res.pure_eq]

theorem posterior_eq (a : Fin n → ℝ) (c : Fin n → Int) :
    posterior (List.ofFn fun i => XR.fin (a i)) (List.ofFn c) =
      .ok (List.ofFn fun i => XR.fin (a i + c i)) := by
  induction n with
  | zero => simp [posterior]
  | succ n ih =>
    rw [List.ofFn_succ, List.ofFn_succ, List.ofFn_succ]
    simp only [posterior, ih (fun i => a i.succ) (fun i => c i.succ), Res.ok_bind, XR.ofInt_eq,
      XR.fin_add, Res.pure_eq]

theorem foldl_fin (x : Fin n → ℝ) (t : ℝ) :
    (List.ofFn fun i => XR.fin (x i)).foldl (· + ·) (.fin t) = .fin (t + ∑ i, x i) := by
  induction n generalizing t with
  | zero => simp
  | succ n ih =>
    rw [List.ofFn_succ, List.foldl_cons, XR.fin_add, ih (fun i => x i.succ), Fin.sum_univ_succ,
      add_assoc]

theorem scoreValue_eq (lvl : Nat) (a : Fin n → ℝ) (c : Fin n → Int) (s : Int)
    (hc : ∀ i, 0 < a i + c i) (v : Fin n) :
    (mk s c).scoreValue lvl (real a) (v : Nat) =
      .ok (.fin (Real.log ((a v + c v) / ∑ i, (a i + c i)))) := by
  have hs : 0 < ∑ i, (a i + c i) := Finset.sum_pos (fun i _ => hc i) ⟨v, Finset.mem_univ _⟩
  have hv : (v : Nat) < (List.ofFn fun i => XR.fin (a i + c i)).length := by simp
  have hv' : ((v : Nat) : Int) < ((real a).alphas.length : Int) := by simp [real]
  simp only [Group.scoreValue, Scorer.init, Scorer.eval]
  rw [distAssert_of hv']
  simp only [real, mk, posterior_eq, Res.ok_bind,
    XR.ofInt_eq, Int.cast_zero, foldl_fin, zero_add, Res.pure_eq, readAt, Nat.cast_nonneg, if_true, Int.toNat_natCast, getAt_of hv,
    List.getElem_ofFn, Fin.eta]
  rw [XR.fin_div _ _ hs.ne', XR.log_fin (div_pos (hc v) hs)]

end DD

end Dist
