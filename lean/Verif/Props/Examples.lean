import Verif.Model.Examples
import Verif.Props.NIW

/-! # C56: the example parameters -/

namespace Dist

open FloatOps FloatNotation Matrix

namespace Examples

theorem ddLoop_eq {F : Type} [FloatOps F] (n i : Nat) (l : List F) (h : n + i = l.length) :
    ddLoop n i l = .ok (l.take i ++ List.replicate n (lit 1 2)) := by
  induction n generalizing i l with
  | zero => simp [ddLoop, List.take_of_length_le (show l.length ≤ i by omega)]
  | succ n ih =>
    have hi : i < l.length := by omega
    rw [ddLoop, setAt_of hi, Res.ok_bind, ih (i + 1) _ (by simp; omega),
      List.take_add_one, List.take_set_of_le (le_refl i), List.getElem?_set_self hi]
    simp [List.replicate_succ]

/-- **C56, the examples.** The example parameters of every model but the Dirichlet process are all
assigned, whatever a new object held, and are in the range of the model: positive where they must be,
a positive definite scale matrix, and more than `dim - 1` degrees of freedom. -/
theorem C56_examples :
    (∃ alpha beta : ℝ, bb = (⟨.fin alpha, .fin beta⟩ : BB.Shared XR) ∧ 0 < alpha ∧ 0 < beta) ∧
    (∃ (alpha beta : ℝ) (r : UInt32), bnb = (⟨.fin alpha, .fin beta, r⟩ : BNB.Shared XR) ∧
      0 < alpha ∧ 0 < beta ∧ 0 < r.toNat) ∧
    (∃ alpha invBeta : ℝ, gp = (⟨.fin alpha, .fin invBeta⟩ : GP.Shared XR) ∧
      0 < alpha ∧ 0 < invBeta) ∧
    (∃ mu kappa sigmasq nu : ℝ,
      nich = (⟨.fin mu, .fin kappa, .fin sigmasq, .fin nu⟩ : NICH.Shared XR) ∧
      0 < kappa ∧ 0 < sigmasq ∧ 0 < nu) ∧
    (∀ before : List XR, ∃ alphas : List ℝ,
      dd before = .ok (before.length, alphas.map .fin) ∧ alphas.length = before.length ∧
      ∀ a ∈ alphas, 0 < a) ∧
    ∀ d, 0 < d → ∃ (mu : Fin d → ℝ) (kappa : ℝ) (psi : Matrix (Fin d) (Fin d) ℝ) (nu : ℝ),
      niw d = NIW.real mu kappa psi nu ∧ NIW.InRange mu kappa psi nu := by
  refine ⟨⟨1 / 2, 2, ?_, by norm_num, by norm_num⟩, ⟨1, 1, 1, ?_, by norm_num, by norm_num, by decide⟩,
    ⟨1, 1, ?_, by norm_num, by norm_num⟩, ⟨0, 1, 1, 1, ?_, by norm_num, by norm_num, by norm_num⟩,
    fun before => ⟨List.replicate before.length (1 / 2), ?_, by simp, ?_⟩,
    fun d hd => ⟨0, 1, 1, d + 1, ?_, hd, by norm_num, PosDef.one, by linarith⟩⟩
  · simp [bb, lit, FloatOps.lit]
  · simp [bnb, lit, FloatOps.lit]
  · simp [gp, lit, FloatOps.lit]
  · simp [nich, lit, FloatOps.lit]
  · rw [dd, ddLoop_eq _ _ _ rfl]
    simp [lit, FloatOps.lit]
  · intro a ha
    rw [List.eq_of_mem_replicate ha]
    norm_num
  · unfold niw NIW.real
    congr 1
    · funext i; simp [lit, FloatOps.lit]
    · simp [lit, FloatOps.lit]
    · funext i j
      by_cases h : i = j <;> simp [h, lit, FloatOps.lit]
    · simp

/-- The examples of 256 categories and of three dimensions. -/
example : ∃ alphas : List ℝ, dd (List.replicate 256 XR.nan) = .ok (256, alphas.map .fin) ∧
    alphas.length = 256 ∧ ∀ a ∈ alphas, 0 < a := by
  simpa only [List.length_replicate] using C56_examples.2.2.2.2.1 (List.replicate 256 XR.nan)

end Examples

end Dist
