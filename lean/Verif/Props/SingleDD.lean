import Verif.Lemmas.SingleDD
import Verif.Props.Mixture

/-!
# C75: scores of a Dirichlet-Discrete mixture in single precision

The mixture keeps logarithms of the numerators and of the totals apart, and the sum of the
hyperparameters is added up once.
-/

namespace Dist

open Spec FloatOps FloatNotation

namespace Single

variable {lib : Libm}

/-- **C75 (Dirichlet-Discrete mixture).** At most 256 values, hyperparameters between `2^-40` and
`2^40`: after any history of the mixture, the score of a value in a group is within `3.15e-4` of the
logarithm of the exact predictive probability of the group. -/
theorem C75_dd_mixture (lvl n : ℕ) (hn : n ≤ 256) (a : Fin n → ℝ)
    (ha : ∀ i, 1 / 2 ^ 40 ≤ a i ∧ a i ≤ 2 ^ 40)
    (m : MixtureSlave (DD.Cache (Single lib)) DD.Group) (hd : ∀ g ∈ m.groups, g.counts.length = n)
    (h : List (MixOp Int)) (gs' : List DD.Group)
    (hg : groupsAfter (DD.ops lvl n) m.groups h = some gs') :
    let sh : DD.Shared (Single lib) := ⟨List.ofFn fun i => ⟨a i⟩⟩
    ∃ m', runMixture lvl (DD.ops lvl n) (DD.valueScorer lvl sh) m (.init :: h) = .ok m' ∧
      m'.groups = gs' ∧
      ∀ (i : ℕ) (c : Fin n → ℕ), gs'[i]? = some ⟨∑ v, (c v : ℤ), List.ofFn fun v => (c v : ℤ)⟩ →
        ∑ v, c v < 2 ^ 31 → ∀ v : Fin n, ∃ x : ℝ,
        m'.scoreValueGroup lvl (DD.valueScorer lvl sh) i (v : ℕ) = .ok ⟨x⟩ ∧
        |x - Real.log ((a v + c v) / ∑ i, (a i + c i))| ≤ 315 / 10 ^ 6 := by
  intro sh
  have hlen : sh.alphas.length = n := by simp [sh]
  obtain ⟨m', e, hm, hs⟩ := C35_dd_bits lvl sh m (by rw [hlen]; exact hd) h gs'
    (by rw [hlen]; exact hg)
  rw [hlen] at e
  refine ⟨m', e, hm, fun i c hi hc v => ?_⟩
  have h1 := (hs v ⟨a v⟩ (by simp [sh])).1 i _ (by rw [hm]; exact hi)
  refine ⟨_, h1, ?_⟩
  have hget : (List.ofFn fun v => (c v : ℤ)).getD v.val 0 = (c v : ℤ) := by
    simp [List.getD_eq_getElem?_getD]
  have hle : c v ≤ ∑ v, c v := Finset.single_le_sum (fun _ _ => Nat.zero_le _) (Finset.mem_univ v)
  have key := (dd_cell (lib := lib) hn a ha v (c := c v) (s := ∑ v, (c v : ℤ)) (by positivity)
    (by exact_mod_cast hle) (by exact_mod_cast hc)).1
  have hT : ∑ i, (a i + (c i : ℝ)) = ∑ i, a i + ((∑ v, (c v : ℤ) : ℤ) : ℝ) := by
    rw [Finset.sum_add_distrib]; push_cast; rfl
  simp only [hget, hT]
  rw [Int.cast_natCast] at key
  exact key

/-- The hypotheses are met by a mixture of ten groups of a model with 8 values. -/
example (lib : Libm) : ∃ gs', groupsAfter (DD.ops 1 8) (List.replicate 10 (DD.Group.init 8))
    [.add 3 7, .add 3 7, .add 0 5, .addGroup] = some gs' ∧
    gs'[3]? = some ⟨2, List.ofFn fun v : Fin 8 => if v = 7 then 2 else 0⟩ ∧
    ∀ g ∈ (⟨List.replicate 10 (DD.Group.init 8), DD.Cache.raw⟩ :
      MixtureSlave (DD.Cache (Single lib)) DD.Group).groups, g.counts.length = 8 := by
  refine ⟨_, rfl, ?_, ?_⟩
  · decide +kernel
  · intro g hg
    rw [List.eq_of_mem_replicate hg, DD.Group.init, List.length_replicate]

end Single

end Dist
