import Verif.Lemmas.DPDShared

/-! # Dirichlet-process shared state: properties C38 and C39 -/

namespace Dist

open Spec FloatOps FloatNotation

/-! ## C38 -/

section generic
variable {F σ : Type} [FloatOps F]

/-- **C38, known values.** With every float type and every random stream: whenever a
history of additions and removals (only of values held, never of OTHER) completes, exactly
the values held have a weight, and the counts are the multiplicities. -/
theorem C38_known (lvl : Nat) (rng : Rng F σ) (h : List (ValueOp UInt32)) (sh sh' : DPD.Shared F)
    (s s' : σ) (B : Multiset UInt32) (hcounts : sh.counts.Holds B)
    (hkeys : ∀ v, v ∈ sh.betas.keys ↔ v ∈ B) (hB : B.card ≤ 2147483647)
    (hv : ValidValues B h) (ho : AvoidsOther h) (hrun : runShared lvl rng sh s h = .ok (sh', s')) :
    (∀ v, v ∈ sh'.betas.keys ↔ v ∈ contents B h) ∧
    (∀ v, sh'.counts.getCount v = (contents B h).count v) ∧
    sh'.gamma = sh.gamma ∧ sh'.alpha = sh.alpha := by
  induction h generalizing sh s B with
  | nil =>
    simp only [runShared, Res.ok.injEq, Prod.mk.injEq] at hrun
    obtain ⟨rfl, rfl⟩ := hrun
    exact ⟨hkeys, hcounts.getCount, rfl, rfl⟩
  | cons op h ih =>
    have hc : DPD.Consistent sh B := ⟨hcounts, hkeys⟩
    cases op with
    | add v =>
      simp only [runShared, Res.bind_eq_ok] at hrun
      obtain ⟨⟨sh₁, s₁⟩, e₁, hrun⟩ := hrun
      obtain ⟨hlt, hv⟩ := hv
      obtain ⟨hvo, ho⟩ := ho
      have key : DPD.Consistent sh₁ (v ::ₘ B) ∧ sh₁.gamma = sh.gamma ∧ sh₁.alpha = sh.alpha := by
        by_cases hm : v ∈ B
        · obtain ⟨c, e, h'⟩ := DPD.addValue_old lvl rng hc hm hvo hlt s
          rw [e] at e₁
          simp only [Res.ok.injEq, Prod.mk.injEq] at e₁
          obtain ⟨rfl, rfl⟩ := e₁
          exact ⟨h', rfl, rfl⟩
        · obtain ⟨c, _, e, h'⟩ := DPD.addValue_new lvl rng hc hm hvo hlt s
          rw [e] at e₁
          simp only [Res.bind_eq_ok] at e₁
          obtain ⟨_, _, ⟨p, s₂⟩, _, e₁⟩ := e₁
          simp only [Res.ok.injEq, Prod.mk.injEq] at e₁
          obtain ⟨rfl, rfl⟩ := e₁
          exact ⟨h' _ _, rfl, rfl⟩
      have := ih sh₁ s₁ (v ::ₘ B) key.1.counts key.1.keys (by simp; omega) hv ho hrun
      rw [key.2.1, key.2.2] at this
      exact this
    | remove v =>
      simp only [runShared, Res.bind_eq_ok] at hrun
      obtain ⟨sh₁, e₁, hrun⟩ := hrun
      obtain ⟨hm, hv⟩ := hv
      obtain ⟨hvo, ho⟩ := ho
      have key : DPD.Consistent sh₁ (B.erase v) ∧ sh₁.gamma = sh.gamma ∧ sh₁.alpha = sh.alpha := by
        rcases DPD.removeValue_spec lvl hc hm hvo hB with ⟨_, c, e, h'⟩ | ⟨_, c, b, _, e, h'⟩
        · rw [e] at e₁; simp only [Res.ok.injEq] at e₁; subst e₁; exact ⟨h', rfl, rfl⟩
        · rw [e] at e₁; simp only [Res.ok.injEq] at e₁; subst e₁; exact ⟨h' _, rfl, rfl⟩
      have hcard := Multiset.card_erase_le (a := v) (s := B)
      have := ih sh₁ s (B.erase v) key.1.counts key.1.keys (by omega) hv ho hrun
      rw [key.2.1, key.2.2] at this
      exact this

end generic

section exact
variable {σ : Type}

/-- **C38, what holds.** In exact arithmetic, for every stream of nonnegative gamma draws
and every history: it completes; the known values are exactly those held; every weight and
the leftover are positive; the leftover is at most 1; the total is at least 1 and exceeds
it by at most `1e-6` for every value newly introduced.  If the leftover stays above
`1e-6` throughout, the total is exactly 1.

Full statement: the total is always exactly 1.  Missing: it is false, because the leftover
is clamped from below without taking the difference from the weights (`C38_clamp`). -/
theorem C38_partial (lvl : Nat) (rng : Rng XR σ) (hr : NonnegGamma rng)
    (h : List (ValueOp UInt32)) (gamma alpha beta0 : ℝ) (betas : FMap UInt32 ℝ)
    (counts : SparseCounter UInt32) (s : σ) (B : Multiset UInt32) (k : Nat)
    (hcounts : counts.Holds B) (hkeys : ∀ v, v ∈ betas.keys ↔ v ∈ B) (hB : B.card ≤ 2147483647)
    (hpos : ∀ v ∈ betas.keys, 0 < DPD.weight betas v) (h0 : 0 < beta0) (h1 : beta0 ≤ 1)
    (hm1 : 1 ≤ mass betas beta0) (hm2 : mass betas beta0 ≤ 1 + k * (1 / 1000000))
    (hv : ValidValues B h) (ho : AvoidsOther h) :
    ∃ beta0' betas' counts' s',
      runShared lvl rng (DPD.real gamma alpha beta0 betas counts) s h =
        .ok (DPD.real gamma alpha beta0' betas' counts', s') ∧
      (∀ v, v ∈ betas'.keys ↔ v ∈ contents B h) ∧
      (∀ v, counts'.getCount v = (contents B h).count v) ∧
      (∀ v ∈ betas'.keys, 0 < DPD.weight betas' v) ∧ 0 < beta0' ∧ beta0' ≤ 1 ∧
      1 ≤ mass betas' beta0' ∧ mass betas' beta0' ≤ 1 + (k + newValues B h : ℕ) * (1 / 1000000) ∧
      (mass betas beta0 = 1 → (∀ p, p <+: h → ∀ sh' s',
        runShared lvl rng (DPD.real gamma alpha beta0 betas counts) s p = .ok (sh', s') →
          lt (lit 1 1000000) sh'.beta0 = true) → mass betas' beta0' = 1) := by
  induction h generalizing beta0 betas counts s B k with
  | nil =>
    refine ⟨beta0, betas, counts, s, rfl, hkeys, hcounts.getCount, hpos, h0, h1, hm1, ?_,
      fun h _ => h⟩
    simpa [newValues] using hm2
  | cons op h ih =>
    have hc : DPD.Consistent (DPD.real gamma alpha beta0 betas counts) B := ⟨hcounts, hkeys⟩
    cases op with
    | add v =>
      obtain ⟨hlt, hv⟩ := hv
      obtain ⟨hvo, ho⟩ := ho
      by_cases hm : v ∈ B
      · obtain ⟨c, e, h'⟩ := DPD.addValue_old lvl rng hc hm hvo hlt s
        have e' : (DPD.real gamma alpha beta0 betas counts).addValue lvl rng v s =
          .ok (DPD.real gamma alpha beta0 betas c, s) := e
        obtain ⟨b0', bs', c', s', r1, r2, r3, r4, r5, r6, r7, r8, r9⟩ := ih beta0 betas c s
          (v ::ₘ B) k h'.counts h'.keys (by simp; omega) hpos h0 h1 hm1 hm2 hv ho
        refine ⟨b0', bs', c', s', ?_, r2, r3, r4, r5, r6, r7, ?_, ?_⟩
        · simp only [runShared, e', Res.ok_bind, r1]
        · simpa [newValues, hm] using r8
        · intro hone hcl
          refine r9 hone fun p hp sh' s'' hrun => hcl (.add v :: p) ?_ sh' s'' ?_
          · exact List.cons_prefix_cons.mpr ⟨rfl, hp⟩
          · simp only [runShared, e', Res.ok_bind, hrun]
      · obtain ⟨b, c, s₁, hb, hb', e', h'⟩ := DPD.addValue_new_exact lvl hr hc hm hvo hlt h0 s
        have hvk : v ∉ betas.keys := by rw [hkeys]; exact hm
        have hmass : mass (betas.set v b) (max (1 / 1000000) (beta0 - b)) =
            mass betas beta0 + (max (1 / 1000000) (beta0 - b) - (beta0 - b)) := by
          rw [DPD.mass_set hvk, DPD.mass_shift (betas := betas) _ beta0]; ring
        have hmx : (0 : ℝ) ≤ max (1 / 1000000) (beta0 - b) - (beta0 - b) ∧
            max (1 / 1000000) (beta0 - b) - (beta0 - b) ≤ 1 / 1000000 := by
          rcases max_cases (1 / 1000000 : ℝ) (beta0 - b) with ⟨h, h'⟩ | ⟨h, h'⟩ <;> rw [h] <;>
            constructor <;> linarith
        obtain ⟨b0', bs', c', s', r1, r2, r3, r4, r5, r6, r7, r8, r9⟩ := ih
          (max (1 / 1000000) (beta0 - b)) (betas.set v b) c s₁ (v ::ₘ B) (k + 1)
          (h' beta0).counts (by
            intro w
            have := (h' beta0).keys w
            simpa [DPD.real] using this) (by simp; omega)
          (DPD.weight_set_pos hb hpos) (lt_max_of_lt_left (by norm_num))
          (max_le (by norm_num) (by linarith))
          (by rw [hmass]; linarith [hmx.1]) (by rw [hmass]; push_cast; linarith [hmx.2]) hv ho
        refine ⟨b0', bs', c', s', ?_, r2, r3, r4, r5, r6, r7, ?_, ?_⟩
        · simp only [runShared, e', Res.ok_bind, r1]
        · simp only [newValues, hm, if_false]
          rw [← add_assoc]; exact r8
        · intro hone hcl
          have hcl1 := hcl [.add v] (by simp)
            (DPD.real gamma alpha (max (1 / 1000000) (beta0 - b)) (betas.set v b) c) s₁ (by
            simp only [runShared, e', Res.ok_bind])
          have hgt : (1 / 1000000 : ℝ) < max (1 / 1000000) (beta0 - b) := by
            simp only [DPD.real, XR.lit_eq, XR.lt_fin] at hcl1
            norm_num at hcl1 ⊢
            exact hcl1
          refine r9 ?_ fun p hp sh' s'' hrun => hcl (.add v :: p) ?_ sh' s'' ?_
          · rw [hmass, hone]
            rcases lt_max_iff.mp hgt with h | h
            · exact absurd h (lt_irrefl _)
            · rw [max_eq_right h.le]; ring
          · exact List.cons_prefix_cons.mpr ⟨rfl, hp⟩
          · simp only [runShared, e', Res.ok_bind, hrun]
    | remove v =>
      obtain ⟨hm, hv⟩ := hv
      obtain ⟨hvo, ho⟩ := ho
      have hcard := Multiset.card_erase_le (a := v) (s := B)
      rcases DPD.removeValue_spec lvl hc hm hvo hB with ⟨_, c, e, h'⟩ | ⟨_, c, b, hb, e, h'⟩
      · have e' : (DPD.real gamma alpha beta0 betas counts).removeValue lvl v =
          .ok (DPD.real gamma alpha beta0 betas c) := e
        obtain ⟨b0', bs', c', s', r1, r2, r3, r4, r5, r6, r7, r8, r9⟩ := ih beta0 betas c s
          (B.erase v) k h'.counts h'.keys (by omega) hpos h0 h1 hm1 hm2 hv ho
        refine ⟨b0', bs', c', s', ?_, r2, r3, r4, r5, r6, r7, ?_, ?_⟩
        · simp only [runShared, e', Res.ok_bind, r1]
        · simpa [newValues] using r8
        · intro hone hcl
          refine r9 hone fun p hp sh' s'' hrun => hcl (.remove v :: p) ?_ sh' s'' ?_
          · exact List.cons_prefix_cons.mpr ⟨rfl, hp⟩
          · simp only [runShared, e', Res.ok_bind, hrun]
      · have hvk : v ∈ betas.keys := (hkeys v).mpr hm
        have hbw : b = .fin (DPD.weight betas v) := by
          simp only [DPD.real, FMap.lookup_mapValues, DPD.lookup_weight hvk, Option.map_some,
            Option.some.injEq] at hb
          exact hb.symm
        have hwp := hpos v hvk
        have e' : (DPD.real gamma alpha beta0 betas counts).removeValue lvl v =
            .ok (DPD.real gamma alpha (min 1 (beta0 + DPD.weight betas v)) (betas.erase v) c) := by
          rw [e, hbw]
          simp only [DPD.real, DPD.mapValues_erase, XR.fin_add, XR.lit_eq, DPD.minf_fin]
          norm_num
        have hmass : mass (betas.erase v) (min 1 (beta0 + DPD.weight betas v)) =
            mass betas beta0 + (min 1 (beta0 + DPD.weight betas v) -
              (beta0 + DPD.weight betas v)) := by
          rw [DPD.mass_erase hvk, DPD.mass_shift (betas := betas) _ beta0]
          simp only [DPD.weight]; ring
        have hrest : min 1 (beta0 + DPD.weight betas v) ≤
            mass (betas.erase v) (min 1 (beta0 + DPD.weight betas v)) := by
          unfold mass
          have : 0 ≤ ∑ w ∈ (betas.erase v).keys, ((betas.erase v).lookup w).getD 0 :=
            Finset.sum_nonneg fun w hw => (DPD.weight_erase_pos hpos w hw).le
          linarith
        obtain ⟨b0', bs', c', s', r1, r2, r3, r4, r5, r6, r7, r8, r9⟩ := ih
          (min 1 (beta0 + DPD.weight betas v)) (betas.erase v) c s (B.erase v) k
          (h' (.fin 0)).counts (by
            intro w
            have := (h' (.fin 0)).keys w
            simpa [DPD.real] using this) (by omega)
          (DPD.weight_erase_pos hpos) (lt_min (by norm_num) (by linarith)) (min_le_left _ _)
          (by
            rcases min_cases (1 : ℝ) (beta0 + DPD.weight betas v) with ⟨h, h'⟩ | ⟨h, h'⟩
            · rw [h] at hrest ⊢; exact hrest
            · rw [hmass, h]; linarith)
          (by rw [hmass]; linarith [min_le_right (1 : ℝ) (beta0 + DPD.weight betas v)]) hv ho
        refine ⟨b0', bs', c', s', ?_, r2, r3, r4, r5, r6, r7, ?_, ?_⟩
        · simp only [runShared, e', Res.ok_bind, r1]
        · simpa [newValues] using r8
        · intro hone hcl
          refine r9 ?_ fun p hp sh' s'' hrun => hcl (.remove v :: p) ?_ sh' s'' ?_
          · rw [hmass, hone]
            have : beta0 + DPD.weight betas v ≤ 1 := by
              rw [← hone]
              unfold mass
              have := Finset.single_le_sum (f := fun w => (betas.lookup w).getD 0)
                (fun w hw => (hpos w hw).le) hvk
              simp only [DPD.weight]; linarith
            rw [min_eq_right this]; ring
          · exact List.cons_prefix_cons.mpr ⟨rfl, hp⟩
          · simp only [runShared, e', Res.ok_bind, hrun]

/-- Gamma draws alternating between 1 and 0. -/
noncomputable def alternating : Rng XR Bool where
  unif01 s := (.fin 0, s)
  int s lo _ := (lo, s)
  gamma s _ _ := (.fin (if s then 1 else 0), !s)
  normal s m _ := (m, s)
  chisq s _ := (.fin 0, s)
  poisson s _ := (0, s)
  negBinomial s _ _ := (0, s)

theorem alternating_nonneg : NonnegGamma alternating := by
  intro s a b
  exact ⟨if s then 1 else 0, by split <;> norm_num, rfl⟩

theorem alternating_add (lvl : Nat) (gamma alpha beta0 : ℝ) (betas : FMap UInt32 ℝ)
    (counts : SparseCounter UInt32) (v : UInt32) (c : SparseCounter UInt32) (h0 : 0 < beta0)
    (hv : v ≠ DPD.other) (hb : betas.contains v = false)
    (hc : counts.add v 1 = .ok (1, c)) :
    (DPD.real gamma alpha beta0 betas counts).addValue lvl alternating v true =
      .ok (DPD.real gamma alpha (1 / 1000000) (betas.set v beta0) c, true) := by
  have hb' : (betas.mapValues fun _ b => XR.fin b).contains v = false := by
    simpa [FMap.contains] using hb
  have e1 : sampleBetaSafe alternating true (lit 1 1) (XR.fin gamma) DPD.minBeta =
      .ok (.fin 1, true) := by
    have m0 : le (ofInt 0) (DPD.minBeta : XR) = true := by
      simp only [DPD.minBeta, XR.ofInt_eq, XR.lit_eq, XR.le_fin]; norm_num
    have a0 : lt (ofInt 0) (lit 1 1 : XR) = true := by
      simp only [XR.ofInt_eq, XR.lit_eq, XR.lt_fin]; norm_num
    have eb : sampleBeta alternating true (lit 1 1) (XR.fin gamma) = (.fin 1, true) := by
      unfold sampleBeta alternating
      have : ¬ ((eqf (XR.fin 1) (ofInt 0) && eqf (XR.fin 0) (ofInt 0)) = true) := by
        simp only [eqf, XR.ofInt_eq, Bool.and_eq_true, XR.le_fin]; norm_num
      simp only [if_true, Bool.not_true, Bool.not_false, Bool.false_eq_true, if_false]
      rw [if_neg this, XR.fin_add, XR.fin_div _ _ (by norm_num)]
      norm_num
    rw [sampleBetaSafe, distAssert0_of m0, Res.ok_bind, distAssert0_of a0, Res.ok_bind, eb]
    simp only [DPD.minBeta, XR.lit_eq, XR.fin_add, Res.pure_eq]
    rw [XR.fin_div _ _ (by norm_num)]
    norm_num
  have e2 : ∀ b, Sparse.add lvl (betas.mapValues fun _ b => XR.fin b) v b =
      .ok ((betas.mapValues fun _ b => XR.fin b).set v b) := by
    intro b; rw [Sparse.add, distAssert_of hb', hb']; rfl
  have h0' : lt (ofInt 0) (DPD.real gamma alpha beta0 betas counts).beta0 = true := by
    simpa [DPD.real] using h0
  rw [DPD.Shared.addValue, distAssert_of hv, Res.ok_bind,
    show (DPD.real gamma alpha beta0 betas counts).counts = counts from rfl, hc]
  simp only [Res.ok_bind, if_true]
  rw [distAssert0_of h0', Res.ok_bind,
    show (DPD.real gamma alpha beta0 betas counts).gamma = .fin gamma from rfl, e1, Res.ok_bind]
  simp only [DPD.real]
  simp only [e2, Res.ok_bind, Res.pure_eq, XR.fin_mul, XR.fin_sub, DPD.minBeta, XR.lit_eq,
    DPD.maxf_fin, DPD.mapValues_set]
  norm_num

/-- **C38, finding.** Adding one value to a fresh shared state (leftover 1) with gamma
draws 1 and 0 gives the value weight 1 and leaves leftover `1e-6`: total `1 + 1e-6`. -/
theorem C38_clamp (lvl : Nat) (alpha : ℝ) :
    ∃ beta0 betas counts, runShared lvl alternating
        (DPD.real 1 alpha 1 FMap.empty SparseCounter.raw.clear) true [.add 7] =
          .ok (DPD.real 1 alpha beta0 betas counts, true) ∧
      mass betas beta0 = 1 + 1 / 1000000 := by
  refine ⟨1 / 1000000, FMap.empty.set 7 1, ⟨FMap.empty.set 7 1, some 1⟩, ?_, ?_⟩
  · have := alternating_add lvl 1 alpha 1 FMap.empty SparseCounter.raw.clear 7
      ⟨FMap.empty.set 7 1, some 1⟩ (by norm_num) (by decide) rfl rfl
    simp only [runShared, this, Res.ok_bind]
  · rw [DPD.mass_set (by simp)]
    simp [mass]; ring

/-- Non-triviality: the fresh shared state meets the hypotheses of `C38_partial`, and so
does a history that adds two values twice and removes one entirely. -/
example : (SparseCounter.raw.clear : SparseCounter UInt32).Holds 0 ∧
    mass FMap.empty 1 = 1 ∧
    ValidValues (0 : Multiset UInt32) [.add 3, .add 4, .add 3, .remove 4, .add 9] ∧
    AvoidsOther [.add 3, .add 4, .add 3, .remove 4, .add 9] ∧
    newValues 0 [.add 3, .add 4, .add 3, .remove 4, .add 9] = 3 ∧
    contents (0 : Multiset UInt32) [.add 3, .add 4, .add 3, .remove 4, .add 9] = {3, 3, 9} := by
  refine ⟨SparseCounter.holds_clear SparseCounter.raw, by simp [mass], ?_, ?_, by decide,
    by decide⟩
  · simp [ValidValues]
  · simp [AvoidsOther]

end exact

/-! ## C39 -/

section generic
variable {F σ : Type} [FloatOps F]

/-- `sh'` extends `sh` by fresh values: everything known stays as it was, and every new
value is larger than all old ones and counted once. -/
structure DPD.Extends (sh sh' : DPD.Shared F) (B B' : Multiset UInt32) : Prop where
  gamma : sh'.gamma = sh.gamma
  alpha : sh'.alpha = sh.alpha
  consistent : DPD.Consistent sh' B'
  old : ∀ v ∈ B, B'.count v = B.count v ∧ sh'.betas.lookup v = sh.betas.lookup v
  fresh : ∀ v ∈ B', v ∉ B → B'.count v = 1 ∧ v ≠ DPD.other ∧ ∀ w ∈ B, w < v
  card : B'.card + sh.betas.size = B.card + sh'.betas.size

theorem DPD.Extends.refl {sh : DPD.Shared F} {B : Multiset UInt32} (h : DPD.Consistent sh B) :
    DPD.Extends sh sh B B :=
  ⟨rfl, rfl, h, fun _ _ => ⟨rfl, rfl⟩, fun v hv hv' => absurd hv hv', rfl⟩

theorem DPD.Extends.trans {sh sh' sh'' : DPD.Shared F} {B B' B'' : Multiset UInt32}
    (h : DPD.Extends sh sh' B B') (h' : DPD.Extends sh' sh'' B' B'') :
    DPD.Extends sh sh'' B B'' := by
  have sub : ∀ v ∈ B, v ∈ B' := fun v hv => by
    rw [← Multiset.count_pos, (h.old v hv).1]; exact Multiset.count_pos.mpr hv
  refine ⟨h'.gamma.trans h.gamma, h'.alpha.trans h.alpha, h'.consistent, ?_, ?_, ?_⟩
  · intro v hv
    exact ⟨(h'.old v (sub v hv)).1.trans (h.old v hv).1, (h'.old v (sub v hv)).2.trans (h.old v hv).2⟩
  · intro v hv hv'
    by_cases hm : v ∈ B'
    · exact ⟨(h'.old v hm).1.trans (h.fresh v hm hv').1, (h.fresh v hm hv').2⟩
    · obtain ⟨h1, h2, h3⟩ := h'.fresh v hv hm
      exact ⟨h1, h2, fun w hw => h3 w (sub w hw)⟩
  · have := h.card; have := h'.card; omega

/-- One `add_value` of a value above all known ones. -/
theorem DPD.extends_add (lvl : Nat) (rng : Rng F σ) {sh sh' : DPD.Shared F} {B : Multiset UInt32}
    (h : DPD.Consistent sh B) {n : UInt32} (hn : ∀ v ∈ B, v < n) (ho : n ≠ DPD.other)
    (hB : B.card < 2147483647) (s s' : σ) (e : sh.addValue lvl rng n s = .ok (sh', s')) :
    DPD.Extends sh sh' B (n ::ₘ B) ∧ sh'.betas.size = sh.betas.size + 1 := by
  have hm : n ∉ B := fun hm => absurd (hn n hm) (UInt32.lt_irrefl _)
  obtain ⟨c, _, e', h'⟩ := DPD.addValue_new lvl rng h hm ho hB s
  rw [e'] at e
  simp only [Res.bind_eq_ok] at e
  obtain ⟨_, _, ⟨p, s₂⟩, _, e⟩ := e
  simp only [Res.ok.injEq, Prod.mk.injEq] at e
  obtain ⟨rfl, rfl⟩ := e
  have hsize : (sh.betas.set n (sh.beta0 * p)).size = sh.betas.size + 1 := by
    unfold FMap.size
    rw [FMap.keys_set, Finset.card_insert_of_notMem (by rw [h.keys]; exact hm)]
  refine ⟨⟨rfl, rfl, h' _ _, ?_, ?_, ?_⟩, hsize⟩
  · intro v hv
    have : v ≠ n := by rintro rfl; exact hm hv
    simp [this]
  · intro v hv hv'
    have : v = n := (Multiset.mem_cons.mp hv).resolve_right hv'
    subst this
    exact ⟨by simp [hm], ho, hn⟩
  · simp only [hsize, Multiset.card_cons]; omega

theorem DPD.addValue_not_ub (lvl : Nat) (rng : Rng F σ) {sh : DPD.Shared F} {B : Multiset UInt32}
    (h : DPD.Consistent sh B) {n : UInt32} (hm : n ∉ B) (ho : n ≠ DPD.other)
    (hB : B.card < 2147483647) (s : σ) : sh.addValue lvl rng n s ≠ .ub := by
  obtain ⟨c, _, e', h'⟩ := DPD.addValue_new lvl rng h hm ho hB s
  rw [e', sampleBetaSafe]
  unfold distAssert0 distAssert
  split_ifs <;> simp

theorem DPD.firstNew_spec (ks : List UInt32) (N : Nat) (h : ∀ k ∈ ks, k.toNat < N)
    (hN : N < 4294967296) : (∀ k ∈ ks, k < DPD.Shared.firstNew ks) ∧
      (DPD.Shared.firstNew ks).toNat ≤ N := by
  have gen : ∀ (ks : List UInt32) (m : UInt32), (∀ k ∈ ks, k.toNat < N) → m.toNat ≤ N →
      (∀ k ∈ ks, k < ks.foldl (fun m k => if m < 1 + k then 1 + k else m) m) ∧
      m ≤ ks.foldl (fun m k => if m < 1 + k then 1 + k else m) m ∧
      (ks.foldl (fun m k => if m < 1 + k then 1 + k else m) m).toNat ≤ N := by
    intro ks
    induction ks with
    | nil => intro m _ hm; exact ⟨by simp, UInt32.le_refl m, hm⟩
    | cons k ks ih =>
      intro m hk hm
      have hk0 := hk k (by simp)
      have h1 : (1 + k).toNat = 1 + k.toNat := by
        rw [UInt32.toNat_add]; simp; omega
      have h2 : k < (if m < 1 + k then 1 + k else m) := by
        rw [UInt32.lt_iff_toNat_lt]
        split_ifs with hc
        · omega
        · rw [UInt32.lt_iff_toNat_lt] at hc; omega
      have h3 : (if m < 1 + k then 1 + k else m).toNat ≤ N := by split_ifs <;> omega
      have h4 : m ≤ (if m < 1 + k then 1 + k else m) := by
        rw [UInt32.le_iff_toNat_le]
        split_ifs with hc
        · rw [UInt32.lt_iff_toNat_lt] at hc; omega
        · exact le_refl _
      obtain ⟨i1, i2, i3⟩ := ih _ (fun x hx => hk x (by simp [hx])) h3
      simp only [List.foldl_cons]
      refine ⟨?_, ?_, i3⟩
      · intro x hx
        rcases List.mem_cons.mp hx with rfl | hx
        · exact UInt32.lt_of_lt_of_le h2 i2
        · exact i1 x hx
      · exact UInt32.le_trans h4 i2
  obtain ⟨h1, _, h3⟩ := gen ks 0 h (by simp)
  exact ⟨h1, h3⟩

/-- The loop of `realize`. -/
theorem DPD.realizeLoop_spec (lvl : Nat) (rng : Rng F σ) (fuel : Nat) :
    ∀ (sh : DPD.Shared F) (B : Multiset UInt32) (n : UInt32) (s : σ), DPD.Consistent sh B →
      (∀ v ∈ B, v < n) → n.toNat + (9999 - sh.betas.size) < 4294967295 →
      B.card + (9999 - sh.betas.size) < 2147483647 → 9999 - sh.betas.size ≤ fuel →
      ∃ r, (∀ fuel', fuel ≤ fuel' → sh.realizeLoop lvl rng fuel' n s = some r) ∧ r ≠ .ub ∧
        ∀ sh' n' s', r = .ok (sh', n', s') → ∃ B', DPD.Extends sh sh' B B' ∧
          (∀ v ∈ B', v < n') ∧ n'.toNat < 4294967295 ∧ B'.card < 2147483647 ∧
          sh'.betas.size ≤ max sh.betas.size 9999 := by
  induction fuel with
  | zero =>
    intro sh B n s hc hn hn2 hB hf
    refine ⟨.ok (sh, n, s), ?_, by simp, ?_⟩
    · intro fuel' _
      unfold DPD.Shared.realizeLoop
      rw [if_neg (by omega)]
    · rintro sh' n' s' e
      simp only [Res.ok.injEq, Prod.mk.injEq] at e
      obtain ⟨rfl, rfl, rfl⟩ := e
      exact ⟨B, .refl hc, hn, by omega, by omega, le_max_left _ _⟩
  | succ fuel ih =>
    intro sh B n s hc hn hn2 hB hf
    by_cases hcond : sh.betas.size < 10000 - 1 ∧ lt (lit 1 10000) sh.beta0 = true
    · have ho : n ≠ DPD.other := by
        rintro rfl; simp [DPD.other] at hn2
      have hm : n ∉ B := fun hm => absurd (hn n hm) (UInt32.lt_irrefl _)
      have hub := DPD.addValue_not_ub lvl rng hc hm ho (by omega) s
      have hstep : ∀ fuel', fuel + 1 ≤ fuel' → sh.realizeLoop lvl rng fuel' n s =
          match sh.addValue lvl rng n s with
          | .ok (sh, s) => sh.realizeLoop lvl rng (fuel' - 1) (n + 1) s
          | .fail => some .fail
          | .ub => some .ub := by
        intro fuel' hle
        obtain ⟨f, rfl⟩ : ∃ f, fuel' = f + 1 := ⟨fuel' - 1, by omega⟩
        conv_lhs => unfold DPD.Shared.realizeLoop
        rw [if_pos hcond]
        rfl
      rcases he : sh.addValue lvl rng n s with ⟨sh₁, s₁⟩ | _ | _
      · obtain ⟨hx, hsz⟩ := DPD.extends_add lvl rng hc hn ho (by omega) s s₁ he
        have hn1 : (n + 1).toNat = n.toNat + 1 := by
          rw [UInt32.toNat_add]; simp; omega
        have hlt : ∀ v ∈ n ::ₘ B, v < n + 1 := by
          intro v hv
          rw [UInt32.lt_iff_toNat_lt, hn1]
          rcases Multiset.mem_cons.mp hv with rfl | hv
          · omega
          · have := UInt32.lt_iff_toNat_lt.mp (hn v hv); omega
        obtain ⟨r, hr, hru, hok⟩ := ih sh₁ (n ::ₘ B) (n + 1) s₁ hx.consistent hlt
          (by rw [hn1]; omega) (by simp; omega) (by omega)
        refine ⟨r, ?_, hru, ?_⟩
        · intro fuel' hle
          rw [hstep fuel' hle, he]
          exact hr _ (by omega)
        · intro sh' n' s' e
          obtain ⟨B', h1, h2, h3, h4, h5⟩ := hok sh' n' s' e
          exact ⟨B', hx.trans h1, h2, h3, h4, by omega⟩
      · refine ⟨.fail, ?_, by simp, by simp⟩
        intro fuel' hle
        rw [hstep fuel' hle, he]
      · exact absurd he hub
    · refine ⟨.ok (sh, n, s), ?_, by simp, ?_⟩
      · intro fuel' _
        unfold DPD.Shared.realizeLoop
        rw [if_neg hcond]
      · rintro sh' n' s' e
        simp only [Res.ok.injEq, Prod.mk.injEq] at e
        obtain ⟨rfl, rfl, rfl⟩ := e
        exact ⟨B, .refl hc, hn, by omega, by omega, le_max_left _ _⟩

theorem DPD.realizeLast_spec (lvl : Nat) (rng : Rng F σ) {sh : DPD.Shared F} {B : Multiset UInt32}
    (hc : DPD.Consistent sh B) {n : UInt32} (hn : ∀ v ∈ B, v < n) (hn2 : n.toNat < 4294967295)
    (hB : B.card < 2147483647) (s : σ) : sh.realizeLast lvl rng n s ≠ .ub ∧
      ∀ sh' s', sh.realizeLast lvl rng n s = .ok (sh', s') → ∃ B', DPD.Extends sh sh' B B' ∧
        sh'.betas.size ≤ sh.betas.size + 1 ∧
        (sh'.beta0 = ofInt 0 ∨ lt (ofInt 0) sh'.beta0 = false) := by
  unfold DPD.Shared.realizeLast
  by_cases hpos : lt (ofInt 0) sh.beta0 = true
  · rw [if_pos hpos]
    have ho : n ≠ DPD.other := by rintro rfl; simp [DPD.other] at hn2
    have hm : n ∉ B := fun hm => absurd (hn n hm) (UInt32.lt_irrefl _)
    have hub := DPD.addValue_not_ub lvl rng hc hm ho hB s
    rcases he : sh.addValue lvl rng n s with ⟨sh₁, s₁⟩ | _ | _
    · obtain ⟨hx, hsz⟩ := DPD.extends_add lvl rng hc hn ho hB s s₁ he
      obtain ⟨b, hb⟩ := (sh₁.betas.mem_keys_iff n).mp ((hx.consistent.keys n).mpr (by simp))
      have hcon : sh₁.betas.contains n = true := by simp [FMap.contains, hb]
      have eset : ∀ x, Sparse.set lvl sh₁.betas n x = .ok (sh₁.betas.set n x) := by
        intro x; rw [Sparse.set, distAssert_of hcon, Res.ok_bind, hb]
      simp only [Res.ok_bind, DPD.get_of lvl hb, eset, Res.pure_eq]
      refine ⟨by simp, ?_⟩
      rintro sh' s' e
      simp only [Res.ok.injEq, Prod.mk.injEq] at e
      obtain ⟨rfl, rfl⟩ := e
      have hkeys : (sh₁.betas.set n (b + sh₁.beta0)).keys = sh₁.betas.keys := by
        rw [FMap.keys_set, Finset.insert_eq_of_mem]
        exact (sh₁.betas.mem_keys_iff n).mpr ⟨b, hb⟩
      refine ⟨n ::ₘ B, ⟨hx.gamma, hx.alpha, ⟨hx.consistent.counts, ?_⟩, ?_, hx.fresh, ?_⟩, ?_,
        Or.inl rfl⟩
      · intro v; rw [hkeys]; exact hx.consistent.keys v
      · intro v hv
        have : v ≠ n := by rintro rfl; exact hm hv
        refine ⟨(hx.old v hv).1, ?_⟩
        simp only [FMap.lookup_set, this, if_false]
        exact (hx.old v hv).2
      · have := hx.card
        simp only [FMap.size, hkeys] at this ⊢; exact this
      · simp only [FMap.size, hkeys]
        simp only [FMap.size] at hsz
        omega
    · simp
    · exact absurd he hub
  · rw [if_neg hpos]
    refine ⟨by simp, ?_⟩
    rintro sh' s' e
    simp only [Res.pure_eq, Res.ok.injEq, Prod.mk.injEq] at e
    obtain ⟨rfl, rfl⟩ := e
    exact ⟨B, .refl hc, by omega, Or.inr (by simpa using hpos)⟩

/-- **C39, termination and freshness.** With every float type (NaN and infinities
included) and every random stream, `realize` terminates after at most 9999 rounds, in
success or a failed assertion but never undefined behaviour.  On success every known value
keeps its weight and count, every new value is larger than all old ones, is not OTHER and
is counted once, at most `max (size + 1) 10000` values are known, and no positive leftover
remains.  (`B`: the values counted; keys must leave room for 10000 more.) -/
theorem C39_terminates (lvl : Nat) (rng : Rng F σ) (sh : DPD.Shared F) (B : Multiset UInt32) (s : σ)
    (hcounts : sh.counts.Holds B) (hkeys : ∀ v, v ∈ sh.betas.keys ↔ v ∈ B)
    (hmax : ∀ v ∈ B, v.toNat + 10001 < 4294967295) (hB : B.card + 10000 < 2147483647)
    (ks : List UInt32) (hks : sh.betas.Enum ks) :
    ∃ r, (∀ fuel, 9999 ≤ fuel → sh.realize lvl rng fuel ks s = some r) ∧ r ≠ .ub ∧
      ∀ sh' s', r = .ok (sh', s') → ∃ B' : Multiset UInt32,
        sh'.gamma = sh.gamma ∧ sh'.alpha = sh.alpha ∧
        sh'.counts.Holds B' ∧ (∀ v, v ∈ sh'.betas.keys ↔ v ∈ B') ∧
        (∀ v ∈ B, B'.count v = B.count v ∧ sh'.betas.lookup v = sh.betas.lookup v) ∧
        (∀ v ∈ B', v ∉ B → B'.count v = 1 ∧ v ≠ DPD.other ∧ ∀ w ∈ B, w < v) ∧
        sh'.betas.size ≤ max (sh.betas.size + 1) 10000 ∧
        (sh'.beta0 = ofInt 0 ∨ lt (ofInt 0) sh'.beta0 = false) := by
  have hc : DPD.Consistent sh B := ⟨hcounts, hkeys⟩
  obtain ⟨hn, hn2⟩ := DPD.firstNew_spec ks 4294957295 (by
    intro k hk
    have := hmax k ((hkeys k).mp ((hks.mem k).mp hk)); omega) (by norm_num)
  obtain ⟨r, hr, hru, hok⟩ := DPD.realizeLoop_spec lvl rng 9999 sh B (DPD.Shared.firstNew ks) s hc
    (fun v hv => hn v ((hks.mem v).mpr ((hkeys v).mpr hv))) (by omega) (by omega) (by omega)
  refine ⟨do
    let (sh, newValue, s) ← r
    sh.realizeLast lvl rng newValue s, ?_, ?_, ?_⟩
  · intro fuel hf
    rw [DPD.Shared.realize, hr fuel hf]
  · rcases r with ⟨sh₁, n₁, s₁⟩ | _ | _
    · obtain ⟨B₁, h1, h2, h3, h4, _⟩ := hok _ _ _ rfl
      exact (DPD.realizeLast_spec lvl rng h1.consistent h2 h3 h4 s₁).1
    · simp
    · exact absurd rfl hru
  · intro sh' s' e
    rcases r with ⟨sh₁, n₁, s₁⟩ | _ | _
    · obtain ⟨B₁, h1, h2, h3, h4, h5⟩ := hok _ _ _ rfl
      obtain ⟨B₂, g1, g2, g3⟩ := (DPD.realizeLast_spec lvl rng h1.consistent h2 h3 h4 s₁).2 sh' s' e
      have h := h1.trans g1
      exact ⟨B₂, h.gamma, h.alpha, h.consistent.counts, h.consistent.keys, h.old, h.fresh,
        by omega, g3⟩
    · simp at e
    · simp at e

end generic

section exact
variable {σ : Type}

theorem DPD.realizeLoop_exact (lvl : Nat) {rng : Rng XR σ} (hr : NonnegGamma rng) (gamma alpha : ℝ)
    (fuel : Nat) : ∀ (beta0 : ℝ) (betas : FMap UInt32 ℝ) (counts : SparseCounter UInt32)
      (B : Multiset UInt32) (n : UInt32) (s : σ),
      DPD.Consistent (DPD.real gamma alpha beta0 betas counts) B →
      (∀ v ∈ B, v < n) → n.toNat + (9999 - betas.size) < 4294967295 →
      B.card + (9999 - betas.size) < 2147483647 → 9999 - betas.size ≤ fuel → 0 ≤ beta0 →
      (∀ v ∈ betas.keys, 0 < DPD.weight betas v) →
      ∃ beta0' betas' counts' n' s' B',
        (DPD.real gamma alpha beta0 betas counts).realizeLoop lvl rng fuel n s =
          some (.ok (DPD.real gamma alpha beta0' betas' counts', n', s')) ∧
        DPD.Consistent (DPD.real gamma alpha beta0' betas' counts') B' ∧ (∀ v ∈ B', v < n') ∧
        n'.toNat < 4294967295 ∧ B'.card < 2147483647 ∧ 0 ≤ beta0' ∧
        (∀ v ∈ betas'.keys, 0 < DPD.weight betas' v) ∧ betas.size ≤ betas'.size ∧
        mass betas beta0 ≤ mass betas' beta0' ∧
        mass betas' beta0' ≤ mass betas beta0 + (betas'.size - betas.size : ℕ) * (1 / 1000000) := by
  induction fuel with
  | zero =>
    intro beta0 betas counts B n s hc hn hn2 hB hf h0 hpos
    refine ⟨beta0, betas, counts, n, s, B, ?_, hc, hn, by omega, by omega, h0, hpos, le_refl _,
      le_refl _, by simp⟩
    unfold DPD.Shared.realizeLoop
    rw [if_neg]
    rintro ⟨h, _⟩
    simp only [DPD.real, FMap.size, FMap.keys_mapValues] at h hf; omega
  | succ fuel ih =>
    intro beta0 betas counts B n s hc hn hn2 hB hf h0 hpos
    by_cases hcond : (DPD.real gamma alpha beta0 betas counts).betas.size < 10000 - 1 ∧
        lt (lit 1 10000) (DPD.real gamma alpha beta0 betas counts).beta0 = true
    · have hb0 : 0 < beta0 := by
        have := hcond.2
        simp only [DPD.real, XR.lit_eq, XR.lt_fin] at this
        refine lt_trans ?_ this; norm_num
      have hsz0 : betas.size < 9999 := by
        have := hcond.1
        simpa [DPD.real, FMap.size] using this
      have ho : n ≠ DPD.other := by rintro rfl; simp [DPD.other] at hn2
      have hm : n ∉ B := fun hm => absurd (hn n hm) (UInt32.lt_irrefl _)
      have hmk : n ∉ betas.keys := fun h => hm ((hc.keys n).mp h)
      obtain ⟨b, c, s₁, hb, hb', e, hc'⟩ := DPD.addValue_new_exact lvl hr hc hm ho (by omega) hb0 s
      have hsz : (betas.set n b).size = betas.size + 1 := by
        unfold FMap.size
        rw [FMap.keys_set, Finset.card_insert_of_notMem hmk]
      have hn1 : (n + 1).toNat = n.toNat + 1 := by
        rw [UInt32.toNat_add]; simp; omega
      have hlt : ∀ v ∈ n ::ₘ B, v < n + 1 := by
        intro v hv
        rw [UInt32.lt_iff_toNat_lt, hn1]
        rcases Multiset.mem_cons.mp hv with rfl | hv
        · omega
        · have := UInt32.lt_iff_toNat_lt.mp (hn v hv); omega
      have hmass : mass (betas.set n b) (max (1 / 1000000) (beta0 - b)) =
          mass betas beta0 + (max (1 / 1000000) (beta0 - b) - (beta0 - b)) := by
        rw [DPD.mass_set hmk, DPD.mass_shift (betas := betas) _ beta0]; ring
      have hmx : (0 : ℝ) ≤ max (1 / 1000000) (beta0 - b) - (beta0 - b) ∧
          max (1 / 1000000) (beta0 - b) - (beta0 - b) ≤ 1 / 1000000 := by
        rcases max_cases (1 / 1000000 : ℝ) (beta0 - b) with ⟨h, h'⟩ | ⟨h, h'⟩ <;> rw [h] <;>
          constructor <;> linarith
      obtain ⟨b0', bs', cs', n', s', B', r1, r2, r3, r4, r5, r6, r7, r8, r9, r10⟩ :=
        ih (max (1 / 1000000) (beta0 - b)) (betas.set n b) c (n ::ₘ B) (n + 1) s₁ (hc' _) hlt
          (by rw [hn1]; omega) (by simp; omega) (by omega) (le_max_of_le_left (by norm_num))
          (DPD.weight_set_pos hb hpos)
      refine ⟨b0', bs', cs', n', s', B', ?_, r2, r3, r4, r5, r6, r7, by omega, ?_, ?_⟩
      · unfold DPD.Shared.realizeLoop
        rw [if_pos hcond]
        simp only [e]
        exact r1
      · rw [hmass] at r9; linarith [hmx.1]
      · rw [hmass, hsz] at r10
        have : ((bs'.size - betas.size : ℕ) : ℝ) = ((bs'.size - (betas.size + 1) : ℕ) : ℝ) + 1 := by
          have h : bs'.size - betas.size = bs'.size - (betas.size + 1) + 1 := by omega
          rw [h]; push_cast; ring
        rw [this]; linarith [hmx.2]
    · refine ⟨beta0, betas, counts, n, s, B, ?_, hc, hn, by omega, by omega, h0, hpos, le_refl _,
        le_refl _, by simp⟩
      unfold DPD.Shared.realizeLoop
      rw [if_neg hcond]

/-- **C39, mass.** In exact arithmetic with nonnegative gamma draws, `realize` succeeds
within 9999 rounds, leaves leftover weight exactly 0 and positive weights only, and changes
the total by at least 0 and at most `1e-6` per value added.

Full statement: the total is unchanged.  Missing: it is false because of the same clamp as
in C38; `C39_mass_gain` shows the total growing. -/
theorem C39_partial (lvl : Nat) (rng : Rng XR σ) (hr : NonnegGamma rng) (gamma alpha beta0 : ℝ)
    (betas : FMap UInt32 ℝ) (counts : SparseCounter UInt32) (B : Multiset UInt32) (s : σ)
    (hcounts : counts.Holds B) (hkeys : ∀ v, v ∈ betas.keys ↔ v ∈ B)
    (hmax : ∀ v ∈ B, v.toNat + 10001 < 4294967295) (hB : B.card + 10000 < 2147483647)
    (h0 : 0 ≤ beta0) (hpos : ∀ v ∈ betas.keys, 0 < DPD.weight betas v)
    (ks : List UInt32) (hks : betas.Enum ks) :
    ∃ betas' counts' s', (DPD.real gamma alpha beta0 betas counts).realize lvl rng 9999 ks s =
        some (.ok (DPD.real gamma alpha 0 betas' counts', s')) ∧
      (∀ v ∈ betas'.keys, 0 < DPD.weight betas' v) ∧ betas.size ≤ betas'.size ∧
      mass betas beta0 ≤ mass betas' 0 ∧
      mass betas' 0 ≤ mass betas beta0 + (betas'.size - betas.size : ℕ) * (1 / 1000000) := by
  obtain ⟨hn, hn2⟩ := DPD.firstNew_spec ks 4294957295 (by
    intro k hk
    have := hmax k ((hkeys k).mp ((hks.mem k).mp hk)); omega) (by norm_num)
  obtain ⟨b0, bs, cs, n, s₁, B₁, r1, r2, r3, r4, r5, r6, r7, r8, r9, r10⟩ :=
    DPD.realizeLoop_exact lvl hr gamma alpha 9999 beta0 betas counts B (DPD.Shared.firstNew ks) s
      ⟨hcounts, hkeys⟩ (fun v hv => hn v ((hks.mem v).mpr ((hkeys v).mpr hv))) (by omega) (by omega)
      (by omega) h0 hpos
  rw [DPD.Shared.realize, r1]
  simp only [Res.ok_bind]
  rcases lt_or_eq_of_le r6 with hlt | heq
  · have ho : n ≠ DPD.other := by rintro rfl; simp [DPD.other] at r4
    have hm : n ∉ B₁ := fun hm => absurd (r3 n hm) (UInt32.lt_irrefl _)
    have hmk : n ∉ bs.keys := fun h => hm ((r2.keys n).mp h)
    obtain ⟨b, c, s₂, hb, hb', e, hc'⟩ := DPD.addValue_new_exact lvl hr r2 hm ho (by omega) hlt s₁
    have hsz : (bs.set n b).size = bs.size + 1 := by
      unfold FMap.size
      rw [FMap.keys_set, Finset.card_insert_of_notMem hmk]
    set m0 := max (1 / 1000000) (b0 - b) with hm0
    have hmx : (0 : ℝ) ≤ m0 - (b0 - b) ∧ m0 - (b0 - b) ≤ 1 / 1000000 := by
      rw [hm0]
      rcases max_cases (1 / 1000000 : ℝ) (b0 - b) with ⟨h, h'⟩ | ⟨h, h'⟩ <;> rw [h] <;>
        constructor <;> linarith
    have hm0p : 0 < m0 := lt_max_of_lt_left (by norm_num)
    have hset : (bs.set n b).set n (b + m0) = bs.set n (b + m0) := by
      ext k : 1; by_cases hk : k = n <;> simp [hk]
    have hsz' : (bs.set n (b + m0)).size = bs.size + 1 := by
      unfold FMap.size
      rw [FMap.keys_set, Finset.card_insert_of_notMem hmk]
    refine ⟨bs.set n (b + m0), c, s₂, ?_, ?_, by omega, ?_, ?_⟩
    · have hl : lt (ofInt 0) (DPD.real gamma alpha b0 bs cs).beta0 = true := by
        simp [DPD.real, hlt]
      rw [DPD.Shared.realizeLast, if_pos hl, e]
      simp only [Res.ok_bind]
      have hlook : (DPD.real gamma alpha m0 (bs.set n b) c).betas.lookup n = some (.fin b) := by
        simp [DPD.real]
      have hcon : (DPD.real gamma alpha m0 (bs.set n b) c).betas.contains n = true := by
        simp [FMap.contains, hlook]
      rw [DPD.get_of lvl hlook, Res.ok_bind, Sparse.set, distAssert_of hcon, Res.ok_bind, hlook]
      simp only [Res.ok_bind, Res.pure_eq]
      simp only [DPD.real, XR.fin_add, DPD.mapValues_set, hset, XR.ofInt_eq, Int.cast_zero]
    · exact DPD.weight_set_pos (by linarith) r7
    · rw [DPD.mass_set hmk, DPD.mass_shift (betas := bs) 0 b0]; linarith [hmx.1]
    · rw [DPD.mass_set hmk, DPD.mass_shift (betas := bs) 0 b0, hsz']
      have : ((bs.size + 1 - betas.size : ℕ) : ℝ) = ((bs.size - betas.size : ℕ) : ℝ) + 1 := by
        have h : bs.size + 1 - betas.size = bs.size - betas.size + 1 := by omega
        rw [h]; push_cast; ring
      rw [this]; linarith [hmx.2]
  · subst heq
    refine ⟨bs, cs, s₁, ?_, r7, r8, r9, r10⟩
    have hl : ¬ lt (ofInt 0) (DPD.real gamma alpha 0 bs cs).beta0 = true := by
      simp [DPD.real]
    rw [DPD.Shared.realizeLast, if_neg hl]
    rfl

/-- **C39, finding.** Realizing a fresh shared state with gamma draws 1, 0, 1, 0 turns
total weight 1 into `1 + 2e-6`. -/
theorem C39_mass_gain (lvl : Nat) (alpha : ℝ) :
    ∃ betas counts, (DPD.real 1 alpha 1 FMap.empty SparseCounter.raw.clear).realize lvl
        alternating 9999 [] true = some (.ok (DPD.real 1 alpha 0 betas counts, true)) ∧
      mass FMap.empty 1 = 1 ∧ mass betas 0 = 1 + 2 * (1 / 1000000) := by
  let c1 : SparseCounter UInt32 := ⟨FMap.empty.set 0 1, some 1⟩
  let c2 : SparseCounter UInt32 := ⟨(FMap.empty.set 0 1).set 1 1, some 2⟩
  have e1 := alternating_add lvl 1 alpha 1 FMap.empty SparseCounter.raw.clear 0 c1 (by norm_num)
    (by decide) rfl rfl
  have e2 := alternating_add lvl 1 alpha (1 / 1000000) (FMap.empty.set 0 1) c1 1 c2 (by norm_num)
    (by decide) rfl rfl
  refine ⟨(FMap.empty.set 0 1).set 1 (2 * (1 / 1000000)), c2, ?_, by simp [mass], ?_⟩
  · have hloop : (DPD.real 1 alpha 1 FMap.empty SparseCounter.raw.clear).realizeLoop lvl
        alternating 9999 0 true =
          some (.ok (DPD.real 1 alpha (1 / 1000000) (FMap.empty.set 0 1) c1, 1, true)) := by
      unfold DPD.Shared.realizeLoop
      rw [if_pos ⟨by simp [DPD.real, FMap.size],
        by simp only [DPD.real, XR.lit_eq, XR.lt_fin]; norm_num⟩]
      simp only [e1]
      unfold DPD.Shared.realizeLoop
      rw [if_neg]
      · rfl
      · rintro ⟨_, h⟩
        simp only [DPD.real, XR.lit_eq, XR.lt_fin] at h
        norm_num at h
    rw [DPD.Shared.realize, show DPD.Shared.firstNew [] = 0 from rfl, hloop]
    simp only [Res.ok_bind]
    have hl : lt (ofInt 0)
        (DPD.real 1 alpha (1 / 1000000) (FMap.empty.set 0 1) c1).beta0 = true := by
      simp only [DPD.real, XR.ofInt_eq, XR.lt_fin]; norm_num
    rw [DPD.Shared.realizeLast, if_pos hl, e2]
    simp only [Res.ok_bind]
    have hlook : (DPD.real 1 alpha (1 / 1000000) ((FMap.empty.set 0 1).set 1 (1 / 1000000))
        c2).betas.lookup 1 = some (.fin (1 / 1000000)) := by
      simp [DPD.real]
    have hcon : (DPD.real 1 alpha (1 / 1000000) ((FMap.empty.set 0 1).set 1 (1 / 1000000))
        c2).betas.contains 1 = true := by
      rw [FMap.contains, hlook]; rfl
    rw [DPD.get_of lvl hlook, Res.ok_bind, Sparse.set, distAssert_of hcon, Res.ok_bind, hlook]
    simp only [Res.ok_bind, Res.pure_eq]
    have hset : ((FMap.empty.set (0 : UInt32) (1 : ℝ)).set 1 (1 / 1000000)).set 1
        (1 / 1000000 + 1 / 1000000) = (FMap.empty.set 0 1).set 1 (2 * (1 / 1000000)) := by
      ext k : 1; by_cases hk : k = 1 <;> simp [hk]; ring
    simp only [DPD.real, XR.fin_add, DPD.mapValues_set, hset, XR.ofInt_eq, Int.cast_zero]
  · rw [DPD.mass_set (by simp), DPD.mass_set (by simp)]
    simp [mass]

end exact

/-- **C39, finding.** If the largest legal value `0xFFFFFFFE` is known, the first value
`realize` tries is OTHER: with assertions on it throws, whatever the random stream. -/
theorem C39_overflow {F σ : Type} [FloatOps F] (lvl : Nat) (hl : 1 ≤ lvl) (rng : Rng F σ)
    (sh : DPD.Shared F) (s : σ) (ks : List UInt32) (hks : sh.betas.Enum ks)
    (hk : 0xFFFFFFFE ∈ sh.betas.keys) (ho : DPD.other ∉ sh.betas.keys)
    (hsize : sh.betas.size < 9999) (hb : lt (lit 1 10000) sh.beta0 = true) :
    ∀ fuel, sh.realize lvl rng (fuel + 1) ks s = some .fail := by
  have hfirst : DPD.Shared.firstNew ks = DPD.other := by
    obtain ⟨h1, h2⟩ := DPD.firstNew_spec ks 4294967295 (by
      intro k hk'
      have h3 : k ≠ DPD.other := by rintro rfl; exact ho ((hks.mem _).mp hk')
      have h4 : k.toNat ≠ 4294967295 := by
        intro h; exact h3 (UInt32.toNat_inj.mp (by rw [h]; rfl))
      have := k.toNat_lt; omega) (by norm_num)
    have h5 := UInt32.lt_iff_toNat_lt.mp (h1 _ ((hks.mem _).mpr hk))
    apply UInt32.toNat_inj.mp
    have h6 : (0xFFFFFFFE : UInt32).toNat = 4294967294 := rfl
    have h7 : DPD.other.toNat = 4294967295 := rfl
    omega
  intro fuel
  have hadd : sh.addValue lvl rng DPD.other s = .fail := by
    rw [DPD.Shared.addValue]
    have : distAssert lvl 1 (DPD.other ≠ DPD.other) = .fail := by
      unfold distAssert; simp [hl]
    rw [this]; rfl
  rw [DPD.Shared.realize, hfirst]
  unfold DPD.Shared.realizeLoop
  rw [if_pos ⟨by omega, hb⟩]
  simp only [hadd]
  rfl

/-- Non-triviality of C39: a state with two known values and half of the weight left. -/
example : ∃ (betas : FMap UInt32 ℝ) (counts : SparseCounter UInt32) (B : Multiset UInt32),
    counts.Holds B ∧ (∀ v, v ∈ betas.keys ↔ v ∈ B) ∧ (∀ v ∈ B, v.toNat + 10001 < 4294967295) ∧
    B.card = 2 ∧ mass betas (1 / 2) = 1 := by
  refine ⟨(FMap.empty.set 3 (1 / 4)).set 5 (1 / 4), ⟨(FMap.empty.set 3 1).set 5 1, some 2⟩,
    {3, 5}, ⟨?_, rfl⟩, by intro v; simp [or_comm], by simp, rfl, ?_⟩
  · intro k
    simp only [FMap.lookup_set, FMap.lookup_empty, Multiset.insert_eq_cons, Multiset.count_cons,
      Multiset.count_singleton]
    by_cases h5 : k = 5
    · subst h5; simp
    · by_cases h3 : k = 3
      · subst h3; simp
      · simp [h3, h5]
  · rw [DPD.mass_set (by simp), DPD.mass_set (by simp)]
    norm_num [mass]

end Dist
