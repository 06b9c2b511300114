import Verif.Props.CountSums
import Verif.Props.BB
import Verif.Props.DD

/-! # C34: scorer objects

`Group::score_value` builds a `Scorer` and evaluates it, so besides agreeing with each
other both are compared with the textbook predictive probability.  (BNB, whose group
scores independently of its scorer, and NICH are in their own files.) -/

namespace Dist

open Spec FloatOps FloatNotation

/-- **C34 (Beta-Bernoulli).** The scorer of a group gives the log of the posterior mean
of heads or tails, and so does the group. -/
theorem C34_bb (a b : ℝ) (g : BB.Group) (hh : 0 < a + g.heads) (ht : 0 < b + g.tails) (v : Bool) :
    let p := (a + g.heads) / (a + b + g.heads + g.tails)
    (BB.Scorer.init (BB.real a b) g).eval v = .fin (Real.log (if v then p else 1 - p)) ∧
      g.scoreValue (BB.real a b) v = .fin (Real.log (if v then p else 1 - p)) := by
  intro p
  have key : g.scoreValue (BB.real a b) v = .fin (Real.log (if v then p else 1 - p)) := by
    rw [BB.scoreValue_eq g hh ht]
    have hs : a + b + g.heads + (g.tails : ℝ) ≠ 0 := by linarith
    have hs' : a + g.heads + (b + (g.tails : ℝ)) = a + b + g.heads + g.tails := by ring
    rw [hs']
    cases v
    · simp only [Bool.false_eq_true, if_false, p]
      congr 2; field_simp; ring
    · rfl
  exact ⟨key, key⟩

/-- **C34 (Dirichlet-Discrete).** The scorer can be initialised for every group of the
right dimension and evaluates to the log of the posterior mean of the value, and so does
the group. -/
theorem C34_dd (lvl dim : Nat) (a : Fin dim → ℝ) (c : Fin dim → Int) (s : Int)
    (hc : ∀ i, 0 < a i + c i) (v : Fin dim) :
    ∃ sc, DD.Scorer.init (DD.real a) ⟨s, List.ofFn c⟩ = .ok sc ∧
      sc.eval lvl (DD.real a) (v : Nat) =
        .ok (.fin (Real.log ((a v + c v) / ∑ i, (a i + c i)))) ∧
      (⟨s, List.ofFn c⟩ : DD.Group).scoreValue lvl (DD.real a) (v : Nat) =
        .ok (.fin (Real.log ((a v + c v) / ∑ i, (a i + c i)))) := by
  have h : (DD.mk s c).scoreValue lvl (DD.real a) (v : Nat) = _ :=
    DD.scoreValue_eq lvl a c s hc v
  have h' := h
  rw [DD.Group.scoreValue, Res.bind_eq_ok] at h'
  obtain ⟨sc, e1, e2⟩ := h'
  exact ⟨sc, e1, e2, h⟩

/-- **C34 (Gamma-Poisson).** The scorer of a group gives the log of the negative binomial
probability with the posterior parameters, and so does the group. -/
theorem C34_gp (a b : ℝ) (ha : 0 < a) (hb : 0 < b) (g : GP.Group XR) (v : UInt32) :
    let p := negBinomial (a + g.sum.toNat)
      ((b + g.count.toNat) / (1 + (b + g.count.toNat))) v.toNat
    0 < p ∧ (GP.Scorer.init (GP.real a b) g).eval v = .fin (Real.log p) ∧
      g.scoreValue (GP.real a b) v = .fin (Real.log p) := by
  intro p
  have h := (C31_gp a b ha hb g).1 v
  obtain ⟨c, s, l⟩ := g
  have h2 := GP.scoreValue_eq ha hb c s l v
  rw [h2, XR.exp_fin, XR.fin_inj] at h
  have hp : 0 < p := by rw [show p = _ from h.symm]; exact Real.exp_pos _
  have key : (⟨c, s, l⟩ : GP.Group XR).scoreValue (GP.real a b) v = .fin (Real.log p) := by
    rw [h2, XR.fin_inj, show p = _ from h.symm, Real.log_exp]
  exact ⟨hp, key, key⟩

/-- Non-triviality: 3 heads and 1 tail under a uniform prior give heads probability 2/3. -/
example : (BB.Scorer.init (BB.real 1 1) ⟨3, 1⟩).eval true = .fin (Real.log (2 / 3)) := by
  have h := (C34_bb 1 1 ⟨3, 1⟩ (by norm_num) (by norm_num) true).1
  norm_num at h
  simpa using h

/-- Non-triviality: the hypotheses of the Gamma-Poisson theorem hold for a group with data. -/
example := C34_gp 2 3 (by norm_num) (by norm_num) ⟨2, 7, .fin 1⟩ 4

/-- Non-triviality: three categories, one of them never observed. -/
example := C34_dd 3 3 (fun _ => 1 / 2) ![2, 0, 5] 7
  (by intro i; fin_cases i <;> simp <;> norm_num) 1

end Dist
