import Verif.Lemmas.DPDMixture
import Verif.Props.DPDShared

/-! # Dirichlet-process mixture cache: property C37 -/

namespace Dist

open Spec FloatOps FloatNotation

section generic
variable {F σ : Type} [FloatOps F]

/-- **C37, bit for bit.** Start from any mixture (whatever its cache contains) whose groups
hold `Ms` and whose shared state knows the values `B`, with every held value known.  Call
`init` and then follow any history of the protocol whose shared-state calls succeed.  Then
every mixture call succeeds, the groups hold what the history says, and every known value
and OTHER scores `log(alpha * weight + count) - log(alpha + total)` in every group.  If
the shared state counts exactly the values in the groups, a value has a cached row exactly
if some group holds it: rows are dropped with the last occurrence.

The only fact assumed of the float type is that adding the integer 0 to a product with
`alpha` changes nothing. -/
theorem C37_bits (lvl : Nat) (rng : Rng F σ) (h : List (MixOp UInt32)) (sh sh' : DPD.Shared F)
    (m : MixtureSlave (DPD.Cache F) DPD.Group) (s s' : σ) (B : Multiset UInt32)
    (Ms Ms' : List (Multiset UInt32)) (hz : ∀ b : F, sh.alpha * b + ofInt 0 = sh.alpha * b)
    (hcounts : sh.counts.Holds B) (hkeys : ∀ v, v ∈ sh.betas.keys ↔ v ∈ B)
    (hoB : DPD.other ∉ B) (hB : B.card ≤ 2147483647)
    (hg : List.Forall₂ SparseCounter.Holds m.groups Ms) (hsub : Ms.sum ≤ B)
    (hMs : valuesAfter Ms h = some Ms') (hv : ValidValues B (sharedOps h))
    (ho : AvoidsOther (sharedOps h)) (hrun : runShared lvl rng sh s (sharedOps h) = .ok (sh', s')) :
    ∃ m', runProtocol lvl rng sh m s (.init :: h) = .ok (sh', m', s') ∧
      List.Forall₂ SparseCounter.Holds m'.groups Ms' ∧
      (∀ v b, (if v = DPD.other then sh'.beta0 = b else sh'.betas.lookup v = some b) →
        ScoresLike lvl (DPD.valueScorer lvl sh') m' v (fun g =>
          log (sh'.alpha * b + ofInt (SparseCounter.getCount g v)) -
            log (sh'.alpha + ofInt (g.total.getD 0)))) ∧
      (∀ v, v ∈ Ms'.sum → v ≠ DPD.other ∧ v ∈ sh'.betas.keys ∧ v ∈ m'.scorer.scores.keys) ∧
      (B = Ms.sum → ∀ v, v ∈ m'.scorer.scores.keys ↔ v ∈ Ms'.sum) := by
  obtain ⟨gs, c⟩ := m
  have hgs : gs = Ms.map DPD.ctr := DPD.map_ctr hg
  subst hgs
  have hp : DPD.Pre sh (Ms.map DPD.ctr) B Ms := ⟨⟨hcounts, hkeys⟩, hoB, hsub, hB, rfl⟩
  obtain ⟨c₁, e₁, hm₁, hk⟩ := DPD.init_mirror lvl hp.known c
  obtain ⟨c', e, r1, r2, r3, r4⟩ := DPD.protocol_mirror lvl rng h sh B Ms Ms' c₁ s sh' s' hz hp hm₁
    hMs hv ho hrun
  have hcached : ∀ v, v ∈ Ms'.sum → v ∈ c'.scores.keys := by
    intro v hv
    by_contra hn
    exact r2.uncached v ((FMap.not_mem_keys_iff _ _).mp hn) hv
  refine ⟨⟨Ms'.map DPD.ctr, c'⟩, by rw [runProtocol, e₁, Res.ok_bind, e], ?_, ?_, ?_, ?_⟩
  · rw [List.forall₂_map_left_iff, List.forall₂_same]
    exact fun M _ => DPD.ctr_holds M
  · intro v b hb
    exact DPD.mirror_scores lvl (fun h => r1.other ((r1.cons.keys _).mp h)) (by rw [r3]; exact hz) r2 hb
  · intro v hv
    have hvB := Multiset.mem_of_le r1.sub hv
    exact ⟨by rintro rfl; exact r1.other hvB, (r1.cons.keys v).mpr hvB, hcached v hv⟩
  · intro hBM v
    exact ⟨r4 hBM (fun w hw => by rw [← hBM]; exact (hkeys w).mp ((hk w).mp hw)) v, hcached v⟩

end generic

/-- **C37.** In exact arithmetic, for every stream of nonnegative gamma draws and every
history of the protocol: every call succeeds, and afterwards the mixture's scores of every
known value and of OTHER are those the groups themselves report. -/
theorem C37 {σ : Type} (lvl : Nat) (rng : Rng XR σ) (hr : NonnegGamma rng)
    (h : List (MixOp UInt32)) (gamma alpha beta0 : ℝ) (betas : FMap UInt32 ℝ)
    (counts : SparseCounter UInt32) (m : MixtureSlave (DPD.Cache XR) DPD.Group) (s : σ)
    (B : Multiset UInt32) (Ms Ms' : List (Multiset UInt32)) (ha : 0 < alpha)
    (hcounts : counts.Holds B) (hkeys : ∀ v, v ∈ betas.keys ↔ v ∈ B)
    (hoB : DPD.other ∉ B) (hB : B.card ≤ 2147483647)
    (hpos : ∀ v ∈ betas.keys, 0 < DPD.weight betas v) (h0 : 0 < beta0) (h1 : beta0 ≤ 1)
    (hmass : mass betas beta0 = 1)
    (hg : List.Forall₂ SparseCounter.Holds m.groups Ms) (hsub : Ms.sum ≤ B)
    (hMs : valuesAfter Ms h = some Ms') (hv : ValidValues B (sharedOps h))
    (ho : AvoidsOther (sharedOps h)) :
    ∃ sh' m' s',
      runProtocol lvl rng (DPD.real gamma alpha beta0 betas counts) m s (.init :: h) =
        .ok (sh', m', s') ∧
      List.Forall₂ SparseCounter.Holds m'.groups Ms' ∧
      (∀ v, v ∈ sh'.betas.keys ↔ v ∈ contents B (sharedOps h)) ∧
      (∀ v, v = DPD.other ∨ v ∈ contents B (sharedOps h) → ∃ score,
        ScoresLike lvl (DPD.valueScorer lvl sh') m' v score ∧
        ∀ g ∈ m'.groups, DPD.Group.scoreValue lvl sh' g v = .ok (score g)) ∧
      (B = Ms.sum → ∀ v, v ∈ m'.scorer.scores.keys ↔ v ∈ Ms'.sum) := by
  obtain ⟨beta0', betas', counts', s', hrun, hk', _, hpos', h0', _⟩ := C38_partial lvl rng hr
    (sharedOps h) gamma alpha beta0 betas counts s B 0 hcounts hkeys hB hpos h0 h1 hmass.ge
    (by rw [hmass]; simp) hv ho
  obtain ⟨m', e, hgs, hsc, hin, hdrop⟩ := C37_bits lvl rng h (DPD.real gamma alpha beta0 betas counts)
    (DPD.real gamma alpha beta0' betas' counts') m s s' B Ms Ms' (by
      intro b
      cases b with
      | nan => rfl
      | fin b => simp [DPD.real]) hcounts hkeys hoB hB hg hsub hMs hv ho hrun
  refine ⟨_, m', s', e, hgs, hk', ?_, hdrop⟩
  intro v hv
  have hcase : ∃ b : ℝ, 0 < b ∧ (if v = DPD.other then
      (DPD.real gamma alpha beta0' betas' counts').beta0 = .fin b else
      (DPD.real gamma alpha beta0' betas' counts').betas.lookup v = some (.fin b)) := by
    by_cases hvo : v = DPD.other
    · exact ⟨beta0', h0', by rw [if_pos hvo]; rfl⟩
    · have hvk := (hk' v).mpr (hv.resolve_left hvo)
      obtain ⟨b, hb⟩ := (betas'.mem_keys_iff v).mp hvk
      refine ⟨b, ?_, ?_⟩
      · have := hpos' v hvk
        simpa [DPD.weight, hb] using this
      · rw [if_neg hvo]; simp [DPD.real, hb]
  obtain ⟨b, hbpos, hb⟩ := hcase
  refine ⟨_, hsc v _ hb, ?_⟩
  intro g hgm
  obtain ⟨M, hM, hMs⟩ : ∃ M, SparseCounter.Holds g M ∧ M ≤ Ms'.sum := by
    obtain ⟨i, hi⟩ := List.getElem?_of_mem hgm
    obtain ⟨hlt, rfl⟩ := List.getElem?_eq_some_iff.mp hi
    have hlt' : i < Ms'.length := by rw [← hgs.length_eq]; exact hlt
    exact ⟨Ms'[i], List.Forall₂.get hgs hlt hlt', DPD.le_sum (List.getElem?_eq_getElem hlt')⟩
  have hcv : SparseCounter.getCount g v = (M.count v : Int) := hM.getCount v
  have htot : g.total = some (M.card : Int) := hM.total
  have hden : (0 : ℝ) < alpha + (M.card : ℝ) := by positivity
  have key : ∀ n : ℕ, (log ((XR.fin alpha * XR.fin b + ofInt (n : Int)) /
      (XR.fin alpha + ofInt (M.card : Int))) : XR) =
      log (XR.fin alpha * XR.fin b + ofInt (n : Int)) -
        log (XR.fin alpha + ofInt (M.card : Int)) := by
    intro n
    have hn : (0 : ℝ) < alpha * b + n := by positivity
    simp only [XR.ofInt_eq, XR.fin_mul, XR.fin_add, Int.cast_natCast]
    rw [XR.fin_div _ _ hden.ne', XR.log_fin (div_pos hn hden), XR.log_fin hn, XR.log_fin hden,
      XR.fin_sub, Real.log_div hn.ne' hden.ne']
  unfold DPD.Group.scoreValue
  rw [SparseCounter.getTotal, htot, hcv]
  by_cases hvo : v = DPD.other
  · rw [if_pos hvo] at hb
    have hc0 : M.count v = 0 := Multiset.count_eq_zero.mpr fun hm =>
      (hin v (Multiset.mem_of_le hMs hm)).1 hvo
    rw [if_pos hvo, Res.ok_bind, hb, hc0]
    refine congrArg Res.ok (Eq.trans ?_ (key 0))
    simp [DPD.real]
  · rw [if_neg hvo] at hb
    rw [if_neg hvo, DPD.get_of lvl hb]
    exact congrArg Res.ok (key _)

/-- A cached row for a value without a weight makes `add_group` fail (an assertion, or
undefined behaviour in builds without it). -/
theorem C37_row_without_weight {F : Type} [FloatOps F] (lvl : Nat) (sh : DPD.Shared F)
    (m : MixtureSlave (DPD.Cache F) DPD.Group) (v : UInt32) (hc : v ∈ m.scorer.scores.keys)
    (hb : v ∉ sh.betas.keys) (r : MixtureSlave (DPD.Cache F) DPD.Group) :
    m.addGroup lvl (DPD.ops lvl sh) (DPD.valueScorer lvl sh) ≠ .ok r := by
  obtain ⟨e, he⟩ := (m.scorer.scores.mem_keys_iff v).mp hc
  have hl := (FMap.not_mem_keys_iff _ _).mp hb
  have hne : ∀ c, DPD.addGroup lvl sh m.scorer ≠ .ok c := by
    intro c h
    rw [DPD.addGroup, Res.bind_eq_ok] at h
    obtain ⟨m', h, _⟩ := h
    unfold FMap.mapEntries at h
    split_ifs at h with hall
    have := hall v hc
    rw [he] at this
    by_cases h1 : lvl ≥ 1 <;>
      simp [Sparse.get, distAssert, FMap.contains, hl, h1, Res.isOk] at this
  intro h
  simp only [MixtureSlave.addGroup, DPD.valueScorer, Res.bind_eq_ok] at h
  obtain ⟨c, h, _⟩ := h
  exact hne c h

/-- **C37, outside the protocol.** Removing a group that still holds values, and then
taking those values out of the shared state, leaves a cached row behind, and the next
`add_group` fails; so the restriction to empty groups in the protocol is needed. -/
theorem C37_nonempty_group {F : Type} [FloatOps F] (lvl : Nat)
    (sh : DPD.Shared F) (m : MixtureSlave (DPD.Cache F) DPD.Group) (v : UInt32)
    (hcounts : sh.counts.Holds {v}) (hkeys : ∀ w, w ∈ sh.betas.keys ↔ w = v)
    (hvo : v ≠ DPD.other) (hg : List.Forall₂ SparseCounter.Holds m.groups [{v}]) :
    (∃ m₁ m₂ sh', m.init (DPD.valueScorer lvl sh) = .ok m₁ ∧
      m₁.removeGroup lvl (DPD.valueScorer lvl sh) 0 = .ok m₂ ∧ sh.removeValue lvl v = .ok sh' ∧
      ∀ r, m₂.addGroup lvl (DPD.ops lvl sh') (DPD.valueScorer lvl sh') ≠ .ok r) := by
  obtain ⟨gs, c⟩ := m
  have hgs : gs = [{v}].map DPD.ctr := DPD.map_ctr hg
  subst hgs
  have hcons : DPD.Consistent sh {v} := ⟨hcounts, by simpa using hkeys⟩
  have hp : DPD.Pre sh ([{v}].map DPD.ctr) {v} [{v}] :=
    ⟨hcons, by simpa using fun h : DPD.other = v => hvo h.symm, by simp, by simp, rfl⟩
  obtain ⟨c₁, e₁, hm₁, hk⟩ := DPD.init_mirror lvl hp.known c
  have hrem : ∃ c₂, DPD.removeGroup lvl c₁ 0 = .ok c₂ ∧ c₂.scores.keys = c₁.scores.keys := by
    let bOf : UInt32 → F := fun v => (sh.betas.lookup v).getD (ofInt 0)
    refine ⟨⟨c₁.scores.mapValues fun v e => ⟨e.refCount, DPD.row sh.alpha (bOf v) v []⟩,
      DPD.shiftOf sh.alpha []⟩, ?_, rfl⟩
    rw [DPD.removeGroup, FMap.mapEntries_ok (fun v e =>
      ⟨e.refCount, DPD.row sh.alpha (bOf v) v []⟩) DPD.Entry.fresh (by
        intro w e he
        obtain ⟨b, hb, rfl⟩ := hm₁.cached w e he
        dsimp only
        rw [DPD.row, packedRemove_map lvl _ (by simp)]; rfl)]
    rw [Res.ok_bind, hm₁.shift, DPD.shiftOf, packedRemove_map lvl _ (by simp)]; rfl
  obtain ⟨c₂, e₂, hk₂⟩ := hrem
  rcases DPD.removeValue_spec lvl hcons (v := v) (by simp) hvo (by simp) with
    ⟨hmem, _⟩ | ⟨_, c', b, _, e₃, h'⟩
  · simp at hmem
  refine ⟨_, ⟨[], c₂⟩, _, e₁, ?_, e₃, ?_⟩
  · show (do
      let gs ← packedRemove lvl ([{v}].map DPD.ctr) 0
      let s ← DPD.removeGroup lvl c₁ 0
      return (⟨gs, s⟩ : MixtureSlave (DPD.Cache F) DPD.Group)) = _
    rw [packedRemove_map lvl _ (by simp), Res.ok_bind, e₂]; rfl
  · intro r
    refine C37_row_without_weight lvl _ _ v ?_ ?_ r
    · show v ∈ c₂.scores.keys
      rw [hk₂, hk, hkeys]
    · rw [(h' sh.beta0).keys]; simp

/-- Non-triviality: a history with two groups, a value shared by both, and a removed last
occurrence meets the hypotheses of `C37`. -/
example : valuesAfter [0] [.add 0 3, .addGroup, .add 1 3, .add 1 4, .remove 1 4, .remove 0 3,
      .removeGroup 0, .add 0 5] = some [{3, 5}] ∧
    ValidValues (0 : Multiset UInt32) (sharedOps [.add 0 3, .addGroup, .add 1 3, .add 1 4,
      .remove 1 4, .remove 0 3, .removeGroup 0, .add 0 5]) ∧
    List.Forall₂ SparseCounter.Holds [(SparseCounter.raw.clear : DPD.Group)] [0] := by
  refine ⟨by decide, ?_, ?_⟩
  · simp [sharedOps, ValidValues]
  · exact .cons (SparseCounter.holds_clear SparseCounter.raw) .nil

/-! ## Group::validate -/

/-- **C37, validity of groups.** `Group::validate` accepts a group exactly if every value it
holds is counted in the shared state. -/
theorem C37_group_validate {F : Type} (sh : DPD.Shared F) (g : DPD.Group) (M B : Multiset UInt32)
    (hg : SparseCounter.Holds g M) (hs : sh.counts.Holds B) :
    DPD.Group.validate sh g = (if ∀ v ∈ M, v ∈ B then .ok () else .fail) := by
  have key : (∀ k ∈ g.map.keys, SparseCounter.getCount g k ≠ 0 → sh.counts.getCount k ≠ 0) ↔
      ∀ v ∈ M, v ∈ B := by
    simp only [hg.getCount, hs.getCount]
    constructor
    · intro h v hv
      have hc : (M.count v : Int) ≠ 0 := by
        have := Multiset.count_pos.mpr hv; omega
      have hk : v ∈ g.map.keys := by
        by_contra hk
        have := hg.getCount v
        rw [SparseCounter.getCount, (FMap.not_mem_keys_iff _ _).mp hk] at this
        exact hc (by simpa using this.symm)
      have := h v hk hc
      exact Multiset.count_pos.mp (by omega)
    · intro h v _ hc
      have : v ∈ M := Multiset.count_pos.mp (by omega)
      have := Multiset.count_pos.mpr (h v this)
      omega
  unfold DPD.Group.validate
  by_cases h : ∀ v ∈ M, v ∈ B
  · rw [if_pos h, distAssert0_of (key.mpr h)]
  · rw [if_neg h, distAssert0_of_not (fun h' => h (key.mp h'))]

/-- A group holding 1, with a shared state counting 1 and 2, and with one counting only 2. -/
example : DPD.Group.validate (⟨0, 0, 0, .empty, DPD.ctr {1, 2}⟩ : DPD.Shared Nat) (DPD.ctr {1}) = .ok () ∧
    DPD.Group.validate (⟨0, 0, 0, .empty, DPD.ctr {2}⟩ : DPD.Shared Nat) (DPD.ctr {1}) = .fail := by
  constructor
  · rw [C37_group_validate _ _ {1} {1, 2} (DPD.ctr_holds _) (DPD.ctr_holds _), if_pos (by simp)]
  · rw [C37_group_validate _ _ {1} {2} (DPD.ctr_holds _) (DPD.ctr_holds _), if_neg (by simp)]

end Dist
