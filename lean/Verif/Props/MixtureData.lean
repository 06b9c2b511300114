import Verif.Lemmas.DDGrid
import Verif.Props.BB
import Verif.Props.GP
import Verif.Props.BNB
import Verif.Props.NICH

/-! # C36: data scores of mixtures and hyperparameter grids

`sumScores` adds up a list of scores; in exact arithmetic it is NaN iff one of them is. -/

namespace Dist

open Spec FloatOps FloatNotation

/-- Sum of a list of scores. -/
noncomputable def Spec.sumScores (xs : List XR) : XR := xs.foldl (fun a b => FloatOps.add a b) (.fin 0)

theorem XR.add_assoc' (a b c : XR) : a + b + c = a + (b + c) := by
  cases a <;> cases b <;> cases c <;> simp [add_assoc]

theorem foldl_scores {G : Type} (step : XR → G → XR) (f : G → XR) (gs : List G)
    (h : ∀ g ∈ gs, ∀ acc : XR, step acc g = acc + f g) (acc : XR) :
    gs.foldl step acc = (gs.map f).foldl (fun a b => FloatOps.add a b) acc := by
  induction gs generalizing acc with
  | nil => rfl
  | cons g gs ih =>
    simp only [List.foldl_cons, List.map_cons]
    rw [h g (by simp), ih (fun g' hg => h g' (by simp [hg]))]
    rfl

theorem XR.add_fin_zero (a : XR) : a + .fin 0 = a := by cases a <;> simp

/-- **C36 (Beta-Bernoulli).** For all hyperparameters and groups. -/
theorem C36_bb (sh : BB.Shared XR) (gs : List BB.Group) :
    BB.scoreData sh gs = sumScores (gs.map fun g => g.scoreData sh) := by
  rw [BB.scoreData, sumScores]
  rw [show (ofInt 0 : XR) = .fin 0 by simp]
  refine foldl_scores _ _ gs ?_ _
  intro g _ acc
  simp only [BB.Group.scoreData]
  congr 1
  generalize (lgamma (sh.alpha + sh.beta) : XR) = x₁
  generalize (lgamma sh.alpha : XR) = x₂
  generalize (lgamma sh.beta : XR) = x₃
  generalize (lgamma (sh.alpha + ofInt g.heads) : XR) = x₄
  generalize (lgamma (sh.beta + ofInt g.tails) : XR) = x₅
  generalize (lgamma (sh.alpha + ofInt g.heads + (sh.beta + ofInt g.tails)) : XR) = x₆
  cases x₁ <;> cases x₂ <;> cases x₃ <;> cases x₄ <;> cases x₅ <;> cases x₆ <;> simp
  ring

/-- **C36 (Gamma-Poisson).** Groups with count zero are skipped by the code, so they
must be empty groups; with debt this fails, see `C36_gp_debt`. -/
theorem C36_gp (a b : ℝ) (ha : 0 < a) (hb : 0 < b) (gs : List (GP.Group XR))
    (h : ∀ g ∈ gs, g.count = 0 → g = GP.Group.init) :
    GP.scoreData (GP.real a b) gs = sumScores (gs.map fun g => g.scoreData (GP.real a b)) := by
  rw [GP.scoreData, sumScores]
  rw [show (ofInt 0 : XR) = .fin 0 by simp]
  refine foldl_scores _ _ gs ?_ _
  intro g hg acc
  split_ifs with hc
  · simp only [GP.Group.scoreData, XR.add_assoc']
  · rw [h g hg (not_not.mp hc), C28_gp_empty a b ha hb, XR.add_fin_zero]

/-- **C36, finding (Gamma-Poisson).** A group from which an unseen 0 was removed before
a 1 was added has count 0 but is not empty: its data score is `log 2`, the mixture's 0. -/
theorem C36_gp_debt : ∃ g : GP.Group XR,
    g = ((GP.Group.init : GP.Group XR).addValue 1).removeValue 0 ∧
    g.scoreData (GP.real 2 1) = .fin (Real.log 2) ∧
    GP.scoreData (GP.real 2 1) [g] = .fin 0 := by
  refine ⟨⟨0, 1, .fin 0⟩, ?_, ?_, ?_⟩
  · simp [GP.Group.init, GP.Group.addValue, GP.Group.removeValue, GP.logFact]
  · rw [GP.scoreData_eq (by norm_num) (by norm_num)]
    have h3 : Real.Gamma (2 + 1) = 2 := by
      rw [show (2 : ℝ) + 1 = (2 : ℕ) + 1 by norm_num, Real.Gamma_nat_eq_factorial]
      norm_num [Nat.factorial]
    simp [h3]
  · simp [GP.scoreData]

/-- **C36 (Beta-Negative-Binomial).** -/
theorem C36_bnb (a b : ℝ) (ha : 0 < a) (hb : 0 < b) (r : UInt32) (gs : List BNB.Group)
    (h : ∀ g ∈ gs, g.count = 0 → g = BNB.Group.init) :
    BNB.scoreData (BNB.real a b r) gs =
      sumScores (gs.map fun g => g.scoreData (BNB.real a b r)) := by
  rw [BNB.scoreData, sumScores]
  rw [show (ofInt 0 : XR) = .fin 0 by simp]
  refine foldl_scores _ _ gs ?_ _
  intro g hg acc
  split_ifs with hc
  · simp only [BNB.Group.scoreData, XR.add_assoc']
    congr 1
    generalize (lgamma ((BNB.real a b r).alpha + (BNB.real a b r).beta) : XR) = x₁
    generalize (lgamma (BNB.real a b r).alpha : XR) = x₂
    generalize (lgamma (BNB.real a b r).beta : XR) = x₃
    generalize (lgamma ((BNB.real a b r).plusGroup g).alpha : XR) = x₄
    generalize (lgamma ((BNB.real a b r).plusGroup g).beta : XR) = x₅
    generalize (lgamma (((BNB.real a b r).plusGroup g).alpha +
      ((BNB.real a b r).plusGroup g).beta) : XR) = x₆
    cases x₁ <;> cases x₂ <;> cases x₃ <;> cases x₄ <;> cases x₅ <;> cases x₆ <;> simp
    ring
  · rw [h g hg (not_not.mp hc), C28_bnb_empty a b ha hb, XR.add_fin_zero]

/-- **C36 (Normal-Inverse-ChiSq).** For groups with nonnegative counts and variances, the
empty ones being as initialised. -/
theorem C36_nich (mu kappa sigmasq nu : ℝ) (hk : 0 < kappa) (hs : 0 < sigmasq) (hv : 0 < nu)
    (gs : List (NICH.Group XR))
    (h : ∀ g ∈ gs, 0 ≤ g.count ∧ (g.count = 0 → g = NICH.Group.init)) :
    NICH.scoreData (NICH.real mu kappa sigmasq nu) gs =
      sumScores (gs.map fun g => g.scoreData (NICH.real mu kappa sigmasq nu)) := by
  rw [NICH.scoreData, sumScores]
  rw [show (ofInt 0 : XR) = .fin 0 by simp]
  refine foldl_scores _ _ gs ?_ _
  intro g hg acc
  obtain ⟨h0, hi⟩ := h g hg
  split_ifs with hc
  · simp only [NICH.Group.scoreData, XR.add_assoc']
    have hn : (0 : ℝ) ≤ g.count := by exact_mod_cast h0
    have e : (lit 1 2 : XR) * log (NICH.real mu kappa sigmasq nu).kappa -
        lit 1 2 * log ((NICH.real mu kappa sigmasq nu).plusGroup g).kappa =
        lit 1 2 * log ((NICH.real mu kappa sigmasq nu).kappa /
          ((NICH.real mu kappa sigmasq nu).plusGroup g).kappa) := by
      have hp : 0 < kappa + (g.count : ℝ) := by positivity
      simp only [NICH.real, NICH.Shared.plusGroup, XR.ofInt_eq, XR.fin_add]
      rw [XR.fin_div _ _ hp.ne', XR.log_fin hk, XR.log_fin hp, XR.log_fin (div_pos hk hp),
        Real.log_div hk.ne' hp.ne']
      simp; ring
    rw [e]
    have e2 : -(lit 1 2 : XR) * logPi * ofInt g.count = -(lit 1 2) * ofInt g.count * logPi := by
      simp; ring
    rw [e2]
  · rw [hi (not_not.mp hc), C28_nich_empty mu kappa sigmasq nu hk hs hv, XR.add_fin_zero]

/-- The hypotheses hold for the groups of any data. -/
theorem C36_nich_data (M : Multiset ℝ) :
    0 ≤ (⟨M.card, .fin (meanOf M), .fin (sqDev M)⟩ : NICH.Group XR).count ∧
    ((⟨M.card, .fin (meanOf M), .fin (sqDev M)⟩ : NICH.Group XR).count = 0 →
      (⟨M.card, .fin (meanOf M), .fin (sqDev M)⟩ : NICH.Group XR) = NICH.Group.init) := by
  refine ⟨by simp, fun h => ?_⟩
  simp only [Nat.cast_eq_zero, Multiset.card_eq_zero] at h
  subst h
  simp [meanOf, sqDev, NICH.Group.init]

/-- **C36 (Dirichlet-Discrete).** The vectorised score is the sum of the groups' scores,
for groups holding counts `c` and their total. -/
theorem C36_dd (dim : Nat) (hd : 0 < dim) (a : Fin dim → ℝ) (ha : ∀ i, 0 < a i)
    (cs : List (Fin dim → Nat)) :
    let gs : List DD.Group := cs.map fun c => ⟨∑ i, (c i : Int), List.ofFn fun i => (c i : Int)⟩
    ∃ scores, (gs.mapM fun g => g.scoreData (DD.real a)) = .ok scores ∧
      DD.scoreData (DD.real a) gs = .ok (sumScores scores) := by
  intro gs
  have hA : 0 < ∑ i, a i := Finset.sum_pos (fun i _ => ha i) ⟨⟨0, hd⟩, Finset.mem_univ _⟩
  have hg : gs = cs.map DD.ofCounts := rfl
  have h1 : ∀ c : Fin dim → Nat, (DD.ofCounts c).scoreData (DD.real a) =
      .ok (.fin (∑ i, (DD.lg (a i + c i) - DD.lg (a i)) +
        (DD.lg (∑ i, a i) - DD.lg (∑ i, a i + ∑ i, (c i : ℝ))))) := by
    intro c
    have hc : (0 : ℝ) ≤ ∑ i, (c i : ℝ) := Finset.sum_nonneg fun i _ => by positivity
    rw [DD.ofCounts, DD.scoreData_eq a ha (fun i => (c i : Int)) _
      (fun i => by have := ha i; push_cast; positivity) hA (by push_cast; positivity)]
    simp [DD.lg]
  refine ⟨cs.map fun c => .fin (∑ i, (DD.lg (a i + c i) - DD.lg (a i)) +
        (DD.lg (∑ i, a i) - DD.lg (∑ i, a i + ∑ i, (c i : ℝ)))), ?_, ?_⟩
  · rw [hg]
    clear hg
    clear gs
    induction cs with
    | nil => rfl
    | cons c cs ih =>
      rw [List.map_cons, List.mapM_cons, h1, Res.ok_bind, ih]
      rfl
  · rw [DD.scoreData, hg, DD.dataInit_eq a ha hA, Res.ok_bind, DD.dataEval_eq]
    have key : ∀ (l : List ℝ) (t : ℝ), (l.map XR.fin).foldl (fun a b => FloatOps.add a b) (.fin t) =
        .fin (t + l.sum) := by
      intro l
      induction l with
      | nil => simp
      | cons x l ih =>
        intro t
        simp only [List.map_cons, List.foldl_cons, List.sum_cons]
        rw [show FloatOps.add (XR.fin t) (XR.fin x) = .fin (t + x) from XR.fin_add t x, ih,
          add_assoc]
    rw [sumScores, show ∀ f : (Fin dim → Nat) → ℝ, (cs.map fun c => XR.fin (f c)) =
      (cs.map f).map XR.fin from fun f => by rw [List.map_map]; rfl, key, zero_add]
    rfl

/-- **C36, grids by repeated scoring** (BB, GP, BNB, NICH, NIW, DPD): entry `i` of the
result is the mixture's data score under hyperparameter `i`; a result buffer of another
length is rejected. -/
theorem C36_grid {F H G : Type} (scoreData : H → List G → Res F) (f : H → F) (shareds : List H)
    (gs : List G) (hf : ∀ h ∈ shareds, scoreData h gs = .ok (f h)) (out : List F) :
    scoreDataGrid scoreData shareds gs out =
      if shareds.length = out.length then .ok (shareds.map f) else .fail := by
  split_ifs with h
  · rw [scoreDataGrid, distAssert0_of h, Res.ok_bind]
    induction shareds generalizing out with
    | nil => rfl
    | cons x xs ih =>
      rw [List.mapM_cons, hf x (by simp), Res.ok_bind, ih (fun y hy => hf y (by simp [hy]))
        out.tail (by simp only [List.length_tail, ← h, List.length_cons]; omega)]
      rfl
  · rw [scoreDataGrid, distAssert0_of_not h]; rfl

/-- **C36, the incremental Dirichlet-Discrete grid.** For any sequence of positive
hyperparameters of the same dimension (whatever changes between neighbours), entry `i`
is the mixture's data score under hyperparameter `i`. -/
theorem C36_dd_grid (dim : Nat) (hd : 0 < dim) (as : List (Fin dim → ℝ))
    (has : ∀ a ∈ as, ∀ i, 0 < a i) (cs : List (Fin dim → Nat)) (out : List XR)
    (ho : out.length = as.length) :
    let gs : List DD.Group := cs.map fun c => ⟨∑ i, (c i : Int), List.ofFn fun i => (c i : Int)⟩
    ∃ scores, DD.scoreDataGrid (as.map DD.real) gs out = .ok scores ∧
      (as.mapM fun a => DD.scoreData (DD.real a) gs) = .ok scores := by
  intro gs
  have hg : gs = cs.map DD.ofCounts := rfl
  have hpos : ∀ a ∈ as, 0 < ∑ i, a i := fun a ha =>
    Finset.sum_pos (fun i _ => has a ha i) ⟨⟨0, hd⟩, Finset.mem_univ _⟩
  have h1 : (as.mapM fun a => DD.scoreData (DD.real a) gs) =
      .ok (as.map fun a => DD.dataEval (DD.cacheOf a cs)) := by
    rw [hg]
    clear ho
    induction as with
    | nil => rfl
    | cons a as ih =>
      rw [List.mapM_cons, DD.scoreData, DD.dataInit_eq a (has a (by simp)) (hpos a (by simp)),
        Res.ok_bind, Res.pure_eq, Res.ok_bind, ih (fun x hx => has x (by simp [hx]))
          (fun x hx => hpos x (by simp [hx]))]
      rfl
  refine ⟨_, ?_, h1⟩
  unfold DD.scoreDataGrid
  rw [distAssert0_of (by simp [ho]), Res.ok_bind, hg]
  cases as with
  | nil => rfl
  | cons a as =>
    simp only [List.map_cons]
    rw [DD.dataInit_eq a (has a (by simp)) (hpos a (by simp)), Res.ok_bind,
      show (DD.real a).alphas.length = dim by simp [DD.real],
      DD.gridLoop_eq cs as (fun x hx => has x (by simp [hx])) a (has a (by simp))]
    rfl

/-- A three-point grid that changes one, then both hyperparameters. -/
example : ∀ a ∈ ([![1, 2], ![1, 3], ![0.5, 0.25]] : List (Fin 2 → ℝ)), ∀ i, 0 < a i := by
  intro a ha i
  fin_cases ha <;> fin_cases i <;> norm_num

end Dist
