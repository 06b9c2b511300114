import Verif.Lemmas.SingleDPD
import Verif.Props.DPDMixture

/-! # Accuracy of Dirichlet-Process-Discrete scores in single precision (C75) -/

namespace Dist

open FloatOps FloatNotation Spec

namespace Single

variable {lib : Libm} {σ : Type}

/-- **C75 (Dirichlet-Process-Discrete).** The score of a value in a group is within `1.25e-4` of the
logarithm of its predictive probability, for the weights the shared state holds: `OTHER` has the
weight `beta0`, the other values those of the table. -/
theorem C75_dpd (lvl : ℕ) (sh : DPD.Shared (Single lib)) (g : DPD.Group) (M : Multiset UInt32)
    (hg : g.Holds M) (ho : DPD.other ∉ M) (hM : M.card < 2 ^ 31)
    (ha1 : 1 / 2 ^ 20 ≤ sh.alpha.val) (ha2 : sh.alpha.val ≤ 2 ^ 40) (v : UInt32) (b : ℝ)
    (hb : if v = DPD.other then sh.beta0 = ⟨b⟩ else sh.betas.lookup v = some ⟨b⟩)
    (hb1 : 1 / 2 ^ 40 ≤ b) (hb2 : b ≤ 1) :
    ∃ x : ℝ, DPD.Group.scoreValue lvl sh g v = .ok ⟨x⟩ ∧
      |x - Real.log ((sh.alpha.val * b + M.count v) / (sh.alpha.val + M.card))| ≤ 125 / 10 ^ 6 := by
  obtain ⟨c, hc⟩ : ∃ c : ℤ, c = M.count v := ⟨_, rfl⟩
  obtain ⟨n, hn⟩ : ∃ n : ℤ, n = M.card := ⟨_, rfl⟩
  have hcn : c ≤ n := by rw [hc, hn]; exact_mod_cast Multiset.count_le_card _ _
  have hc0 : 0 ≤ c := by rw [hc]; positivity
  have hn2 : n < 2 ^ 31 := by rw [hn]; exact_mod_cast hM
  have hu := Factor.ulp_nonneg
  set α := sh.alpha.val with hα'
  have hα : 0 < α := lt_of_lt_of_le (by positivity) ha1
  have hbp : 0 < b := lt_of_lt_of_le (by positivity) hb1
  have hc0' : (0 : ℝ) ≤ c := by exact_mod_cast hc0
  have hn0' : (0 : ℝ) ≤ n := by exact_mod_cast hc0.trans hcn
  have hn1' : (n : ℝ) < 2 ^ 31 := by exact_mod_cast hn2
  have hcn' : (c : ℝ) ≤ n := by exact_mod_cast hcn
  have hm1 : 1 / 2 ^ 60 ≤ α * b := by
    calc (1 : ℝ) / 2 ^ 60 = 1 / 2 ^ 20 * (1 / 2 ^ 40) := by norm_num
      _ ≤ α * b := by gcongr
  have hm2 : α * b ≤ α := by
    calc α * b ≤ α * 1 := by gcongr
      _ = α := mul_one _
  have p1 : (1 : ℝ) / 2 ^ 126 ≤ 1 / 2 ^ 60 / 2 := by norm_num
  have p1' : (1 : ℝ) / 2 ^ 126 ≤ 1 / 2 ^ 20 / 2 := by norm_num
  have hsm : ulp ≤ 1 / 20 := by unfold ulp; norm_num
  -- the total
  have ft := ((Factor.refl hα.le).mono hu).add (Factor.ofInt (hc0.trans hcn))
  have ft' := ft.rnd (.inr (by linarith [ft.half (by linarith)]))
  -- the entry, with the count added in a rounded step or not at all
  have fm := (Factor.refl (mul_pos hα hbp).le).rnd (.inr (by linarith))
  have fe := (fm.mono (show ulp + 0 ≤ ulp by linarith)).add (Factor.ofInt hc0)
  have fe' := fe.rnd (.inr (by linarith [fe.half (by linarith)]))
  have hnum : 0 < α * b + c := by linarith [mul_pos hα hbp]
  have hden : 0 < α + n := by linarith
  -- the score for any entry near enough
  have key : ∀ N : ℝ, Factor (ulp + ulp) N (α * b + c) →
      |logf (nearest (N / nearest (α + nearest (n : ℝ)))) -
        Real.log ((α * b + c) / (α + n))| ≤ 125 / 10 ^ 6 := by
    intro N hN
    have fd := hN.div ft' hden
    have hq1 : 1 / 2 ^ 102 ≤ (α * b + c) / (α + n) := by
      rw [le_div_iff₀ hden]
      have h2 : (1 : ℝ) / 2 ^ 102 * (α + n) ≤ 1 / 2 ^ 102 * 2 ^ 42 := by
        gcongr
        have : (2 : ℝ) ^ 40 + 2 ^ 31 ≤ 2 ^ 42 := by norm_num
        linarith
      have h3 : (1 : ℝ) / 2 ^ 102 * 2 ^ 42 = 1 / 2 ^ 60 := by norm_num
      linarith
    have hq2 : (α * b + c) / (α + n) ≤ 1 := by rw [div_le_one hden]; linarith
    have h1 := fd.half (by linarith)
    have h2 := fd.double (by linarith)
    have p4 : (1 : ℝ) / 2 ^ 126 ≤ 1 / 2 ^ 102 / 2 := by norm_num
    have p5 : (1 : ℝ) * 2 < 2 ^ 127 := by norm_num
    refine (logf_factor fd (by linarith) (lt_of_le_of_lt h2 (by linarith))).trans ?_
    unfold ulp; norm_num
  have hT : SparseCounter.getTotal g = .ok n := by rw [hg.getTotal, hn]
  have hcast : Real.log ((α * b + M.count v) / (α + M.card)) =
      Real.log ((α * b + c) / (α + n)) := by rw [hc, hn]; push_cast; rfl
  rw [hcast]
  by_cases hv : v = DPD.other
  · rw [if_pos hv] at hb
    have hc00 : c = 0 := by rw [hc, hv, Multiset.count_eq_zero_of_notMem ho]; rfl
    refine ⟨_, ?_, key (nearest (α * b)) ?_⟩
    · rw [DPD.Group.scoreValue, if_pos hv, Res.ok_bind, hT, Res.ok_bind, hb]
      rfl
    · rw [hc00, Int.cast_zero, add_zero]
      exact fm.mono (by linarith)
  · rw [if_neg hv] at hb
    refine ⟨_, ?_, key (nearest (nearest (α * b) + nearest (c : ℝ))) fe'⟩
    have hget : Sparse.get lvl sh.betas v = .ok ⟨b⟩ := by
      simp [Sparse.get, hb, FMap.contains, distAssert]
    rw [DPD.Group.scoreValue, if_neg hv, hget, Res.ok_bind, Res.pure_eq, Res.ok_bind, hT,
      Res.ok_bind, hg.getCount, ← hc]
    rfl

/-- **C75 (Dirichlet-Process-Discrete mixture).** After any history of the mixture and the shared
state, the score the mixture keeps for a value in a group is within `2.55e-4` of the logarithm of
the predictive probability, for the weights the shared state then holds. -/
theorem C75_dpd_mixture (lvl : ℕ) (rng : Rng (Single lib) σ) (h : List (MixOp UInt32))
    (sh sh' : DPD.Shared (Single lib)) (m : MixtureSlave (DPD.Cache (Single lib)) DPD.Group)
    (s s' : σ) (B : Multiset UInt32) (Ms Ms' : List (Multiset UInt32))
    (hcounts : sh.counts.Holds B) (hkeys : ∀ v, v ∈ sh.betas.keys ↔ v ∈ B)
    (hoB : DPD.other ∉ B) (hB : B.card ≤ 2147483647)
    (hg : List.Forall₂ SparseCounter.Holds m.groups Ms) (hsub : Ms.sum ≤ B)
    (hMs : valuesAfter Ms h = some Ms') (hv : ValidValues B (sharedOps h))
    (ho : AvoidsOther (sharedOps h)) (hrun : runShared lvl rng sh s (sharedOps h) = .ok (sh', s')) :
    ∃ m', runProtocol lvl rng sh m s (.init :: h) = .ok (sh', m', s') ∧
      List.Forall₂ SparseCounter.Holds m'.groups Ms' ∧
      (1 / 2 ^ 20 ≤ sh'.alpha.val → sh'.alpha.val ≤ 2 ^ 40 → ∀ (v : UInt32) (b : ℝ),
        (if v = DPD.other then sh'.beta0 = ⟨b⟩ else sh'.betas.lookup v = some ⟨b⟩) →
        1 / 2 ^ 40 ≤ b → b ≤ 1 → ∀ (i : ℕ) (M : Multiset UInt32), Ms'[i]? = some M →
        M.card < 2 ^ 31 → ∃ x : ℝ,
          m'.scoreValueGroup lvl (DPD.valueScorer lvl sh') i v = .ok ⟨x⟩ ∧
          |x - Real.log ((sh'.alpha.val * b + M.count v) / (sh'.alpha.val + M.card))| ≤
            255 / 10 ^ 6) := by
  obtain ⟨m', e, hf, hs, -, -⟩ := C37_bits lvl rng h sh sh' m s s' B Ms Ms'
    (fun b => add_zero_count _ b) hcounts hkeys hoB hB hg hsub hMs hv ho hrun
  refine ⟨m', e, hf, ?_⟩
  intro ha1 ha2 v b hb hb1 hb2 i M hM hcard
  obtain ⟨hi, hMi⟩ := List.getElem?_eq_some_iff.mp hM
  have hi' : i < m'.groups.length := by rw [hf.length_eq]; exact hi
  have hgi : (m'.groups[i]).Holds M := by
    have := (List.forall₂_iff_get.mp hf).2 i hi' hi
    simp only [List.get_eq_getElem] at this
    rwa [hMi] at this
  have h1 := (hs v ⟨b⟩ hb).1 i _ (List.getElem?_eq_getElem hi')
  refine ⟨_, h1, ?_⟩
  have htot : (m'.groups[i]).total.getD 0 = (M.card : ℤ) := by
    have := hgi.getTotal
    unfold SparseCounter.getTotal at this
    cases ht : (m'.groups[i]).total with
    | none => rw [ht] at this; simp at this
    | some t => rw [ht] at this; simpa using this
  rw [hgi.getCount, htot]
  have key := (dpd_cell (lib := lib) ha1 ha2 hb1 hb2 (c := M.count v) (s := M.card) (by positivity)
    (by exact_mod_cast Multiset.count_le_card v M) (by exact_mod_cast hcard)).1
  rw [Int.cast_natCast, Int.cast_natCast] at key
  exact key

/-- The hypotheses are met by two groups of known words, to one of which a word is added. -/
example (lib : Libm) (rng : Rng (Single lib) σ) (s : σ) :
    let sh : DPD.Shared (Single lib) := ⟨⟨1⟩, ⟨2⟩, ⟨1 / 4⟩, (FMap.empty.set 3 ⟨1 / 4⟩).set 7 ⟨1 / 2⟩,
      DPD.ctr {3, 7, 7}⟩
    ∃ sh' : DPD.Shared (Single lib),
      runShared 1 rng sh s (sharedOps [.add 0 7, .addGroup]) = .ok (sh', s) ∧
      sh'.alpha = ⟨2⟩ ∧ sh'.betas.lookup 7 = some ⟨1 / 2⟩ ∧
      (∀ v, v ∈ sh.betas.keys ↔ v ∈ ({3, 7, 7} : Multiset UInt32)) ∧
      List.Forall₂ SparseCounter.Holds ([{3}, {7}].map DPD.ctr) [{3}, {7}] ∧
      valuesAfter [{3}, {7}] [.add 0 7, .addGroup] = some [{3, 7}, {7}, 0] ∧
      ValidValues {3, 7, 7} (sharedOps [.add 0 7, .addGroup]) ∧
      AvoidsOther (sharedOps [.add 0 7, .addGroup]) := by
  intro sh
  obtain ⟨c', e, -⟩ := (DPD.ctr_holds {3, 7, 7}).add 7 (by decide)
  refine ⟨⟨sh.gamma, sh.alpha, sh.beta0, sh.betas, c'⟩, ?_, rfl, ?_, ?_, ?_, by decide,
    ?_, ?_⟩
  · simp only [sharedOps, runShared, DPD.Shared.addValue]
    rw [distAssert_of (by decide), Res.ok_bind]
    simp only [sh]
    rw [e, Res.ok_bind]
    rfl
  · simp [sh, FMap.set]
  · intro v
    simp [sh, FMap.set, FMap.empty, or_comm]
  · exact .cons (DPD.ctr_holds _) (.cons (DPD.ctr_holds _) .nil)
  · simp [sharedOps, ValidValues]
  · simp [sharedOps, AvoidsOther, DPD.other]

end Single

end Dist
