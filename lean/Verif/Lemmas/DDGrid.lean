import Verif.Lemmas.DD

/-! # The incrementally updated Dirichlet-Discrete data score -/

namespace Dist

open Spec FloatOps FloatNotation

namespace DD

variable {n : Nat}

/-- `log Γ`. -/
noncomputable def lg (x : ℝ) : ℝ := Real.log (Real.Gamma x)

/-- The group holding the counts `c`. -/
def ofCounts (c : Fin n → Nat) : Group := mk (∑ i, (c i : Int)) fun i => (c i : Int)

/-- The exact contents of the data-score cache for hyperparameters `a`. -/
noncomputable def cacheOf (a : Fin n → ℝ) (cs : List (Fin n → Nat)) : DataCache XR :=
  ⟨.fin (∑ i, a i), List.ofFn fun i => .fin (lg (a i)), .fin (lg (∑ i, a i)),
    List.ofFn fun i => .fin (cs.map fun c => lg (a i + c i) - lg (a i)).sum,
    .fin (cs.map fun c => lg (∑ i, a i) - lg (∑ i, a i + ∑ i, (c i : ℝ))).sum⟩

theorem initLoop_eq (a p x : Fin n → ℝ) (c : Fin n → Nat) (ha : ∀ i, 0 < a i) :
    initLoop (List.ofFn fun i => XR.fin (a i)) (List.ofFn fun i => (c i : Int))
      (List.ofFn fun i => XR.fin (p i)) (List.ofFn fun i => XR.fin (x i)) =
      .ok (List.ofFn fun i => XR.fin (x i + (lg (a i + c i) - p i))) := by
  induction n with
  | zero => simp [initLoop]
  | succ n ih =>
    have h0 : 0 < a 0 + ((c 0 : Int) : ℝ) := by have := ha 0; push_cast; positivity
    simp only [List.ofFn_succ]
    simp only [initLoop, ih (fun i => a i.succ) (fun i => p i.succ) (fun i => x i.succ)
      (fun i => c i.succ) (fun i => ha _), Res.ok_bind, XR.ofInt_eq, XR.fin_add,
      XR.lgamma_fin h0, XR.fin_sub, Res.pure_eq, lg]
    push_cast; rfl

theorem initGroups_eq (a : Fin n → ℝ) (ha : ∀ i, 0 < a i) (hA : 0 < ∑ i, a i)
    (cs : List (Fin n → Nat)) (x : Fin n → ℝ) (y : ℝ) :
    initGroups (List.ofFn fun i => XR.fin (a i)) (.fin (∑ i, a i))
      (List.ofFn fun i => XR.fin (lg (a i))) (.fin (lg (∑ i, a i))) (cs.map ofCounts)
      (List.ofFn fun i => XR.fin (x i)) (.fin y) =
      .ok (List.ofFn fun i => XR.fin (x i + (cs.map fun c => lg (a i + c i) - lg (a i)).sum),
        .fin (y + (cs.map fun c => lg (∑ i, a i) - lg (∑ i, a i + ∑ i, (c i : ℝ))).sum)) := by
  induction cs generalizing x y with
  | nil => simp [initGroups]
  | cons c cs ih =>
    simp only [List.map_cons, initGroups]
    by_cases h : (ofCounts c).countSum ≠ 0
    · rw [if_pos h]
      simp only [ofCounts, mk]
      rw [initLoop_eq a _ x c ha, Res.ok_bind]
      have hc : (0 : ℝ) ≤ ∑ i, (c i : ℝ) := Finset.sum_nonneg fun i _ => by positivity
      simp only [XR.ofInt_eq, XR.fin_add]
      rw [XR.lgamma_fin (by push_cast; positivity), XR.fin_sub, XR.fin_add]
      rw [ih]
      simp only [List.sum_cons, Res.ok.injEq, Prod.mk.injEq, XR.fin_inj, lg]
      constructor
      · congr 1; funext i; rw [add_assoc]
      · push_cast; ring
    · rw [if_neg h]
      have hc0 : ∀ i, c i = 0 := by
        simp only [ofCounts, mk, ne_eq, not_not] at h
        intro i
        have : ∑ i, c i = 0 := by exact_mod_cast h
        exact (Finset.sum_eq_zero_iff.mp this) i (Finset.mem_univ _)
      rw [ih]
      simp [hc0]

theorem dataInit_eq (a : Fin n → ℝ) (ha : ∀ i, 0 < a i) (hA : 0 < ∑ i, a i)
    (cs : List (Fin n → Nat)) :
    dataInit (real a) (cs.map ofCounts) = .ok (cacheOf a cs) := by
  have h1 : (List.ofFn fun i => XR.fin (a i)).map lgamma =
      List.ofFn fun i => XR.fin (lg (a i)) := by
    rw [List.map_ofFn]
    congr 1; funext i; exact XR.lgamma_fin (ha i)
  have h2 : (lgamma (XR.fin (∑ i, a i)) : XR) = .fin (lg (∑ i, a i)) := XR.lgamma_fin hA
  have h3 : List.replicate (List.ofFn fun i => XR.fin (a i)).length (XR.fin 0) =
      List.ofFn fun _ : Fin n => XR.fin 0 := by rw [List.length_ofFn, List.ofFn_const]
  simp only [dataInit, real, XR.ofInt_eq, Int.cast_zero, foldl_fin, zero_add, h1, h2, h3]
  rw [initGroups_eq a ha hA cs (fun _ => 0) 0]
  simp [cacheOf]

theorem updateLoop_eq (v : Fin n) (x A : ℝ) (hx : 0 < x) (hA : 0 < A) (cs : List (Fin n → Nat))
    (s t : ℝ) :
    updateLoop (v : Nat) (XR.fin x) (.fin (lg x)) (.fin (lg A)) (.fin A) (cs.map ofCounts)
      (.fin s) (.fin t) =
      .ok (.fin (s + (cs.map fun c => lg (x + c v) - lg x).sum),
        .fin (t + (cs.map fun c => lg A - lg (A + ∑ i, (c i : ℝ))).sum)) := by
  induction cs generalizing s t with
  | nil => simp [updateLoop]
  | cons c cs ih =>
    have hv : (v : Nat) < (List.ofFn fun i => (c i : Int)).length := by simp
    have h1 : 0 < x + ((c v : Int) : ℝ) := by push_cast; positivity
    have hc : (0 : ℝ) ≤ ∑ i, (c i : ℝ) := Finset.sum_nonneg fun i _ => by positivity
    have h2 : 0 < A + ((∑ i, (c i : Int) : Int) : ℝ) := by push_cast; positivity
    simp only [List.map_cons, updateLoop]
    rw [show (ofCounts c).counts = List.ofFn fun i => (c i : Int) from rfl,
      show (ofCounts c).countSum = ∑ i, (c i : Int) from rfl, getAt_of hv, Res.ok_bind]
    simp only [List.getElem_ofFn, Fin.eta, XR.ofInt_eq, XR.fin_add, XR.lgamma_fin h1,
      XR.lgamma_fin h2, XR.fin_sub]
    rw [ih]
    simp only [List.sum_cons, Res.ok.injEq, Prod.mk.injEq, XR.fin_inj, lg]
    push_cast
    constructor <;> ring

theorem setAt_ofFn {α : Type} (f : Fin n → α) (v : Fin n) (x : α) :
    setAt (List.ofFn f) (v : Nat) x = .ok (List.ofFn (Function.update f v x)) := by
  rw [setAt_of (by simp)]
  congr 1
  apply List.ext_getElem
  · simp
  · intro i h1 h2
    simp only [List.length_ofFn] at h2
    rw [List.getElem_set, List.getElem_ofFn, List.getElem_ofFn]
    by_cases e : (v : Nat) = i
    · subst e; simp
    · have : (⟨i, h2⟩ : Fin n) ≠ v := fun h => e (by rw [← h])
      simp [e, Function.update_of_ne this]

theorem dataUpdate_eq (a : Fin n → ℝ) (v : Fin n) (x : ℝ) (hx : 0 < x) (ha : ∀ i, 0 < a i)
    (cs : List (Fin n → Nat)) :
    dataUpdate (cacheOf a cs) (v : Nat) (.fin (a v)) (.fin x) (cs.map ofCounts) =
      .ok (cacheOf (Function.update a v x) cs) := by
  have ha' : ∀ i, 0 < Function.update a v x i := by
    intro i
    by_cases e : i = v
    · subst e; simpa using hx
    · rw [Function.update_of_ne e]; exact ha i
  have hA : 0 < ∑ i, Function.update a v x i :=
    Finset.sum_pos (fun i _ => ha' i) ⟨v, Finset.mem_univ _⟩
  have hsum : ∑ i, a i + (x - a v) = ∑ i, Function.update a v x i := by
    rw [Finset.sum_update_of_mem (Finset.mem_univ v),
      ← Finset.add_sum_erase Finset.univ a (Finset.mem_univ v), Finset.sdiff_singleton_eq_erase]
    ring
  simp only [dataUpdate, cacheOf, XR.fin_sub, XR.fin_add, hsum]
  rw [show (lgamma (XR.fin x) : XR) = .fin (lg x) from XR.lgamma_fin hx,
    show (lgamma (XR.fin (∑ i, Function.update a v x i)) : XR) = .fin (lg _) from
      XR.lgamma_fin hA, setAt_ofFn, Res.ok_bind, XR.ofInt_eq, Int.cast_zero,
    updateLoop_eq v x _ hx hA cs 0 0, Res.ok_bind]
  simp only [zero_add]
  rw [setAt_ofFn, Res.ok_bind]
  simp only [Res.pure_eq, Res.ok.injEq, DataCache.mk.injEq, true_and, and_true]
  constructor
  · congr 1; funext i
    by_cases e : i = v
    · subst e; simp
    · simp [Function.update_of_ne e]
  · congr 1; funext i
    by_cases e : i = v
    · subst e; simp
    · simp [Function.update_of_ne e]

/-- The first `k` hyperparameters new, the others old. -/
noncomputable def mixed (old new : Fin n → ℝ) (k : Nat) (i : Fin n) : ℝ :=
  if (i : Nat) < k then new i else old i

theorem mixed_succ (old new : Fin n → ℝ) (v : Fin n) :
    mixed old new (v + 1) = Function.update (mixed old new v) v (new v) := by
  funext i
  unfold mixed
  by_cases e : i = v
  · subst e; simp
  · have : (i : Nat) ≠ v := fun h => e (Fin.ext h)
    rw [Function.update_of_ne e]
    by_cases h : (i : Nat) < v
    · simp [h, Nat.lt_succ_of_lt h]
    · have : ¬ (i : Nat) < v + 1 := by omega
      simp [h, this]

theorem eqf_fin (x y : ℝ) : eqf (XR.fin x) (XR.fin y) = true ↔ x = y := by
  simp only [eqf, Bool.and_eq_true, XR.le_fin]
  exact ⟨fun h => le_antisymm h.1 h.2, fun h => by simp [h]⟩

theorem gridStep_eq (old new : Fin n → ℝ) (ho : ∀ i, 0 < old i) (hn : ∀ i, 0 < new i)
    (cs : List (Fin n → Nat)) (m : Nat) :
    ∀ k, k + m = n → gridStep (cs.map ofCounts) k ((List.ofFn fun i => XR.fin (old i)).drop k)
      ((List.ofFn fun i => XR.fin (new i)).drop k) (cacheOf (mixed old new k) cs) =
      .ok (cacheOf new cs) := by
  induction m with
  | zero =>
    intro k hk
    have e : mixed old new k = new := by
      funext i
      have := i.isLt
      simp [mixed, show (i : Nat) < k by omega]
    rw [List.drop_of_length_le (by simp; omega), e]
    rfl
  | succ m ih =>
    intro k hk
    have hk' : k < n := by omega
    have hdrop : ∀ f : Fin n → ℝ, (List.ofFn fun i => XR.fin (f i)).drop k =
        XR.fin (f ⟨k, hk'⟩) :: (List.ofFn fun i => XR.fin (f i)).drop (k + 1) := by
      intro f
      rw [List.drop_eq_getElem_cons (by simpa using hk'), List.getElem_ofFn]
    rw [hdrop old, hdrop new]
    simp only [gridStep]
    have hpos : ∀ i, 0 < mixed old new k i := by
      intro i; unfold mixed; split_ifs
      · exact hn i
      · exact ho i
    have hold : mixed old new k ⟨k, hk'⟩ = old ⟨k, hk'⟩ := by simp [mixed]
    have key := mixed_succ old new ⟨k, hk'⟩
    simp only at key
    by_cases e : eqf (XR.fin (new ⟨k, hk'⟩)) (XR.fin (old ⟨k, hk'⟩)) = true
    · rw [if_pos e, Res.ok_bind]
      have hm : mixed old new k = mixed old new (k + 1) := by
        rw [key, (eqf_fin _ _).mp e, ← hold, Function.update_eq_self]
      rw [hm]
      exact ih (k + 1) (by omega)
    · rw [if_neg e, ← hold]
      have := dataUpdate_eq (mixed old new k) ⟨k, hk'⟩ (new ⟨k, hk'⟩) (hn _) hpos cs
      simp only at this
      rw [this, Res.ok_bind, ← key]
      exact ih (k + 1) (by omega)

theorem dataEval_eq (a : Fin n → ℝ) (cs : List (Fin n → Nat)) :
    dataEval (cacheOf a cs) = .fin (cs.map fun c =>
      ∑ i, (lg (a i + c i) - lg (a i)) + (lg (∑ i, a i) - lg (∑ i, a i + ∑ i, (c i : ℝ)))).sum := by
  simp only [dataEval, cacheOf, vectorSum, List.foldl_append, XR.ofInt_eq, Int.cast_zero]
  have := foldl_fin (fun i => (cs.map fun c => lg (a i + c i) - lg (a i)).sum) 0
  rw [this]
  simp only [List.foldl_cons, List.foldl_nil, XR.fin_add, XR.fin_inj, zero_add]
  induction cs with
  | nil => simp
  | cons c cs ih =>
    simp only [List.map_cons, List.sum_cons, Finset.sum_add_distrib] at ih ⊢
    linarith [ih (by simpa [Finset.sum_add_distrib] using foldl_fin (fun i => (cs.map fun c => lg (a i + c i) - lg (a i)).sum) 0)]

theorem gridLoop_eq (cs : List (Fin n → Nat)) (as : List (Fin n → ℝ))
    (has : ∀ a ∈ as, ∀ i, 0 < a i) (prev : Fin n → ℝ) (hp : ∀ i, 0 < prev i) :
    gridLoop n (cs.map ofCounts) (real prev) (as.map real) (cacheOf prev cs) =
      .ok (as.map fun a => dataEval (cacheOf a cs)) := by
  induction as generalizing prev with
  | nil => rfl
  | cons a as ih =>
    have ha := has a (by simp)
    simp only [List.map_cons, gridLoop]
    rw [show (real prev).alphas.take n = (List.ofFn fun i => XR.fin (prev i)).drop 0 by
        simp [real], show (real a).alphas = (List.ofFn fun i => XR.fin (a i)).drop 0 by simp [real]]
    have h0 : mixed prev a 0 = prev := by funext i; simp [mixed]
    have := gridStep_eq prev a hp ha cs n 0 (by omega)
    rw [h0] at this
    rw [this, Res.ok_bind, ih (fun x hx => has x (by simp [hx])) a ha]
    rfl

end DD

end Dist
