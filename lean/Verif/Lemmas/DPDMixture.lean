import Verif.Lemmas.DPDShared
import Verif.Lemmas.Mixture
import Verif.Lemmas.Driver
import Verif.Spec.DPDMixture

/-! # The reference-counted cache of the Dirichlet-process mixture -/

namespace Dist

open Spec FloatOps FloatNotation

namespace DPD

/-- The counter holding exactly `M`. -/
def ctr (M : Multiset UInt32) : Group where
  map :=
    { lookup := fun k => if k ∈ M then some (M.count k : Int) else none
      keys := M.toFinset
      mem_keys := by intro k; by_cases h : k ∈ M <;> simp [h] }
  total := some (M.card : Int)

theorem ctr_holds (M : Multiset UInt32) : SparseCounter.Holds (ctr M) M := by
  refine ⟨fun k => ?_, rfl⟩
  show (if k ∈ M then some (M.count k : Int) else none) = _
  by_cases hk : k ∈ M <;> simp [hk]

theorem eq_ctr {g : Group} {M : Multiset UInt32} (h : SparseCounter.Holds g M) : g = ctr M :=
  SparseCounter.Rep.unique h (ctr_holds M)

theorem getCount_ctr (M : Multiset UInt32) (v : UInt32) :
    SparseCounter.getCount (ctr M) v = (M.count v : Int) := (ctr_holds M).getCount v

theorem getTotal_ctr (M : Multiset UInt32) : SparseCounter.getTotal (ctr M) = .ok (M.card : Int) :=
  rfl

theorem map_ctr {gs : List Group} {Ms : List (Multiset UInt32)}
    (h : List.Forall₂ SparseCounter.Holds gs Ms) : gs = Ms.map ctr := by
  induction h with
  | nil => rfl
  | cons h _ ih => rw [List.map_cons, ← ih, ← eq_ctr h]

section
variable {F σ : Type} [FloatOps F]

theorem group_add (lvl : Nat) {sh : Shared F} {M : Multiset UInt32}
    {v : UInt32} (ho : v ≠ other) (hv : v ∈ sh.betas.keys) (hM : M.card < 2147483647) :
    Group.addValue lvl sh (ctr M) v = .ok (ctr (v ::ₘ M)) := by
  obtain ⟨g', e, h⟩ := add_holds lvl sh (ctr_holds M)
    ⟨v, ho, by rw [FMap.contains_iff]; exact hv⟩ hM
  rw [← eq_ctr h]; exact e

theorem group_remove (lvl : Nat) {sh : Shared F} {M : Multiset UInt32}
    {v : UInt32} (ho : v ≠ other) (hB : v ∈ sh.betas.keys) (hv : v ∈ M) (hM : M.card ≤ 2147483647) :
    Group.removeValue lvl sh (ctr M) v = .ok (ctr (M.erase v)) := by
  obtain ⟨g', e, h⟩ := remove_holds lvl sh (ctr_holds M)
    ⟨v, ho, by rw [FMap.contains_iff]; exact hB⟩ hv hM
  rw [← eq_ctr h]; exact e

/-- The cached row of a value of weight `b`. -/
def row (alpha b : F) (v : UInt32) (Ms : List (Multiset UInt32)) : List F :=
  Ms.map fun M => log (alpha * b + ofInt (M.count v : Int))

/-- The cached normalisers. -/
def shiftOf (alpha : F) (Ms : List (Multiset UInt32)) : List F :=
  Ms.map fun M => log (alpha + ofInt (M.card : Int))

/-- What `init` needs: shared state and groups consistent. -/
structure Pre (sh : Shared F) (gs : List Group) (B : Multiset UInt32)
    (Ms : List (Multiset UInt32)) : Prop where
  cons : Consistent sh B
  other : DPD.other ∉ B
  sub : Ms.sum ≤ B
  card : B.card ≤ 2147483647
  groups : gs = Ms.map ctr

theorem Pre.known {sh : Shared F} {gs : List Group} {B : Multiset UInt32}
    {Ms : List (Multiset UInt32)} (hp : Pre sh gs B Ms) : ∀ v ∈ Ms.sum, v ∈ sh.betas.keys :=
  fun v hv => (hp.cons.keys v).mpr (Multiset.mem_of_le hp.sub hv)

/-- The cache mirrors the groups. -/
structure Mirror (sh : Shared F) (c : Cache F) (Ms : List (Multiset UInt32)) : Prop where
  shift : c.shift = shiftOf sh.alpha Ms
  cached : ∀ v e, c.scores.lookup v = some e → ∃ b, sh.betas.lookup v = some b ∧
    e = ⟨UInt32.ofNat (Ms.sum.count v), row sh.alpha b v Ms⟩
  uncached : ∀ v, c.scores.lookup v = none → v ∉ Ms.sum

theorem sum_set {Ms : List (Multiset UInt32)} {i : Nat} {M : Multiset UInt32}
    (h : Ms[i]? = some M) (M' : Multiset UInt32) : (Ms.set i M').sum + M = Ms.sum + M' := by
  induction Ms generalizing i with
  | nil => simp at h
  | cons a Ms ih =>
    cases i with
    | zero =>
      simp only [List.getElem?_cons_zero, Option.some.injEq] at h
      subst h
      simp only [List.set_cons_zero, List.sum_cons]
      rw [add_comm M', add_assoc, add_comm M', ← add_assoc, add_comm Ms.sum a]
    | succ i =>
      simp only [List.getElem?_cons_succ] at h
      simp only [List.set_cons_succ, List.sum_cons]
      rw [add_assoc, ih h, add_assoc]

theorem le_sum {Ms : List (Multiset UInt32)} {i : Nat} {M : Multiset UInt32}
    (h : Ms[i]? = some M) : M ≤ Ms.sum := by
  induction Ms generalizing i with
  | nil => simp at h
  | cons a Ms ih =>
    cases i with
    | zero =>
      simp only [List.getElem?_cons_zero, Option.some.injEq] at h
      subst h; simp
    | succ i =>
      simp only [List.getElem?_cons_succ] at h
      exact (ih h).trans (by simp)

theorem sum_cons_set {Ms : List (Multiset UInt32)} {i : Nat} {M : Multiset UInt32}
    (h : Ms[i]? = some M) (v : UInt32) : (Ms.set i (v ::ₘ M)).sum = v ::ₘ Ms.sum := by
  have := sum_set h (v ::ₘ M)
  have h2 : v ::ₘ M = {v} + M := rfl
  rw [h2, ← add_assoc] at this
  have := add_right_cancel this
  rw [h2, this, add_comm]; rfl

theorem sum_erase_set {Ms : List (Multiset UInt32)} {i : Nat} {M : Multiset UInt32}
    (h : Ms[i]? = some M) {v : UInt32} (hv : v ∈ M) :
    (Ms.set i (M.erase v)).sum = Ms.sum.erase v := by
  have h1 := sum_set h (M.erase v)
  have h2 : M = {v} + M.erase v := (Multiset.cons_erase hv).symm
  have h3 : (Ms.set i (M.erase v)).sum + {v} + M.erase v = Ms.sum + M.erase v := by
    rw [add_assoc, ← h2]; exact h1
  have h4 := add_right_cancel h3
  rw [← h4, add_comm]
  exact (Multiset.erase_cons_head v _).symm

theorem sum_swapRemove {Ms : List (Multiset UInt32)} {i : Nat} (h : Ms[i]? = some 0) :
    (swapRemove Ms i).sum = Ms.sum := by
  have := (Driver.perm_swapRemove h).sum_eq
  simpa using this

theorem refCounts_ctr (Ms : List (Multiset UInt32)) (v : UInt32) :
    refCounts (Ms.map ctr) v = UInt32.ofNat (Ms.sum.count v) := by
  unfold refCounts
  have gen : ∀ (Ms : List (Multiset UInt32)) (n : Nat),
      (Ms.map ctr).foldl (fun n g => n + UInt32.ofInt (SparseCounter.getCount g v))
        (UInt32.ofNat n) = UInt32.ofNat (n + Ms.sum.count v) := by
    intro Ms
    induction Ms with
    | nil => intro n; simp
    | cons M Ms ih =>
      intro n
      have : UInt32.ofInt ((M.count v : Nat) : Int) = UInt32.ofNat (M.count v) := by
        rw [UInt32.ofInt, ← UInt32.toNat_inj]
        simp only [UInt32.toNat_ofNat']
        omega
      simp only [List.map_cons, List.foldl_cons, List.sum_cons, getCount_ctr, this]
      rw [← UInt32.ofNat_add, ih, Multiset.count_add, add_assoc]
  have := gen Ms 0
  simpa using this

theorem ofNat_eq_one {n : Nat} (h : n < 4294967296) : UInt32.ofNat n = 1 ↔ n = 1 := by
  constructor
  · intro e
    have := congrArg UInt32.toNat e
    rw [UInt32.toNat_ofNat'] at this
    simp at this; omega
  · rintro rfl; rfl

theorem ofNat_eq_zero {n : Nat} (h : n < 4294967296) : UInt32.ofNat n = 0 ↔ n = 0 := by
  constructor
  · intro e
    have := congrArg UInt32.toNat e
    rw [UInt32.toNat_ofNat'] at this
    simp at this; omega
  · rintro rfl; rfl

theorem resizeWith_self {β : Type} (xs : List β) (z : β) : resizeWith xs xs.length z = xs := by
  simp [resizeWith]

/-! ## The checks of the cache -/

theorem Mirror.valid {sh : Shared F} {c : Cache F} {Ms : List (Multiset UInt32)}
    (h : Mirror sh c Ms) : Valid sh c Ms.length := by
  have hsub : ∀ v ∈ c.scores.keys, sh.betas.contains v = true := by
    intro v hv
    obtain ⟨e, he⟩ := (c.scores.mem_keys_iff v).mp hv
    obtain ⟨b, hb, _⟩ := h.cached v e he
    simp [FMap.contains, hb]
  refine ⟨?_, by rw [h.shift]; simp [shiftOf], ?_⟩
  · exact Finset.card_le_card fun v hv => (sh.betas.contains_iff v).mp (hsub v hv)
  · intro v hv
    refine ⟨hsub v hv, ?_⟩
    obtain ⟨e, he⟩ := (c.scores.mem_keys_iff v).mp hv
    obtain ⟨b, hb, rfl⟩ := h.cached v e he
    simp [he, row]

theorem Mirror.validate {sh : Shared F} {c : Cache F} {Ms : List (Multiset UInt32)}
    (h : Mirror sh c Ms) (lvl : Nat) : validate lvl sh c Ms.length = .ok () := by
  rw [DPD.validate, distAssert_of h.valid]

/-! ## `init` -/

theorem init_mirror (lvl : Nat) {sh : Shared F}
    {Ms : List (Multiset UInt32)} (hsub : ∀ v ∈ Ms.sum, v ∈ sh.betas.keys) (c : Cache F) :
    ∃ c', (⟨Ms.map ctr, c⟩ : MixtureSlave _ _).init (valueScorer lvl sh) = .ok ⟨Ms.map ctr, c'⟩ ∧
      Mirror sh c' Ms ∧ ∀ v, v ∈ c'.scores.keys ↔ v ∈ sh.betas.keys := by
  have hlen : (Ms.map ctr).length = Ms.length := by simp
  -- the rows after `resize`
  obtain ⟨m₁, hm₁, hlook⟩ : ∃ m₁ : FMap UInt32 (Entry F),
      (let m := resizeRows sh.betas (Ms.map ctr).length c.scores
       if m.size ≠ sh.betas.size then m.filterKeys sh.betas.contains else m) = m₁ ∧
      (∀ v, (∃ e, m₁.lookup v = some e) ↔ v ∈ sh.betas.keys) ∧
      ∀ v e, m₁.lookup v = some e → e.scores.length = Ms.length := by
    refine ⟨_, rfl, ?_, ?_⟩
    · intro v
      dsimp only
      split_ifs with hsz
      · simp only [FMap.lookup_filterKeys, resizeRows]
        by_cases hv : v ∈ sh.betas.keys
        · have := (sh.betas.contains_iff v).mpr hv
          simp [this, hv]
        · have : ¬ sh.betas.contains v = true := fun h => hv ((sh.betas.contains_iff v).mp h)
          simp [this, hv]
      · rw [not_ne_iff] at hsz
        have hk : (resizeRows sh.betas (Ms.map ctr).length c.scores).keys = sh.betas.keys := by
          symm
          apply Finset.eq_of_subset_of_card_le
          · exact Finset.subset_union_left
          · exact hsz.le
        rw [← FMap.mem_keys_iff, hk]
    · intro v e he
      have hv : sh.betas.contains v = true := by
        by_contra hv
        revert he
        dsimp only
        split_ifs with hsz
        · simp [FMap.lookup_filterKeys, hv]
        · rw [not_ne_iff] at hsz
          have hk : (resizeRows sh.betas (Ms.map ctr).length c.scores).keys = sh.betas.keys := by
            symm
            apply Finset.eq_of_subset_of_card_le
            · exact Finset.subset_union_left
            · exact hsz.le
          intro he
          have := (FMap.mem_keys_iff _ v).mpr ⟨e, he⟩
          rw [hk] at this
          exact hv ((sh.betas.contains_iff v).mpr this)
      have he' : some (⟨1, resizeWith ((c.scores.lookup v).getD Entry.fresh).scores
          (Ms.map ctr).length (ofInt 0)⟩ : Entry F) = some e := by
        rw [← he]
        dsimp only
        split_ifs <;> simp [resizeRows, hv]
      simp only [Option.some.injEq] at he'
      rw [← he']
      simp [resizeWith_length]
  obtain ⟨hkeys, hlens⟩ := hlook
  let shift₁ := resizeWith c.shift (Ms.map ctr).length (ofInt 0 : F)
  have hshift : shift₁.length = Ms.length := by simp [shift₁, resizeWith_length]
  have hval : Valid sh ⟨m₁, shift₁⟩ (Ms.map ctr).length := by
    refine ⟨?_, by simp [hshift], ?_⟩
    · apply Finset.card_le_card
      intro v hv
      exact (hkeys v).mp ((m₁.mem_keys_iff v).mp hv)
    · intro v hv
      obtain ⟨e, he⟩ := (m₁.mem_keys_iff v).mp hv
      refine ⟨(sh.betas.contains_iff v).mpr ((hkeys v).mp ⟨e, he⟩), ?_⟩
      simp [he, hlens v e he]
  have e₁ : resize lvl sh c (Ms.map ctr).length = .ok ⟨m₁, shift₁⟩ := by
    rw [resize]
    simp only [hm₁]
    rw [DPD.validate, distAssert_of hval]; rfl
  -- `update_all`
  let bOf : UInt32 → F := fun v => (sh.betas.lookup v).getD (ofInt 0)
  have hb : ∀ v e, m₁.lookup v = some e → sh.betas.lookup v = some (bOf v) := by
    intro v e he
    obtain ⟨b, hb⟩ := (sh.betas.mem_keys_iff v).mp ((hkeys v).mp ⟨e, he⟩)
    simp [bOf, hb]
  have over : ∀ xs ys : List F, xs.length = ys.length → overwriteLog xs ys = .ok (ys.map log) := by
    intro xs ys h
    rw [overwriteLog, if_pos h.ge, List.drop_eq_nil_of_le h.le, List.append_nil]
  let m₂ : FMap UInt32 (Entry F) := m₁.mapValues fun v _ =>
    ⟨UInt32.ofNat (Ms.sum.count v), row sh.alpha (bOf v) v Ms⟩
  have e₂ : updateAll lvl sh ⟨m₁, shift₁⟩ (Ms.map ctr) = .ok ⟨m₂, shiftOf sh.alpha Ms⟩ := by
    rw [updateAll, DPD.validate, distAssert_of hval, Res.ok_bind]
    have hme := FMap.mapEntries_ok (m := m₁)
      (f := fun v e => do
        let b ← Sparse.get lvl sh.betas v
        let xs ← overwriteLog e.scores
          ((Ms.map ctr).map fun g => sh.alpha * b + ofInt (SparseCounter.getCount g v))
        return (⟨refCounts (Ms.map ctr) v, xs⟩ : Entry F))
      (fun v _ => (⟨UInt32.ofNat (Ms.sum.count v), row sh.alpha (bOf v) v Ms⟩ : Entry F))
      Entry.fresh (by
        intro v e he
        rw [get_of lvl (hb v e he), Res.ok_bind, over _ _ (by simp [hlens v e he]), Res.ok_bind,
          refCounts_ctr]
        simp only [row, List.map_map, Res.pure_eq]
        congr 2
        apply List.map_congr_left
        intro M _
        simp [getCount_ctr])
    rw [hme, Res.ok_bind]
    have ht : (Ms.map ctr).mapM SparseCounter.getTotal = .ok (Ms.map fun M => (M.card : Int)) := by
      rw [mapM_ok SparseCounter.getTotal (fun g => (g.total).getD 0)]
      · simp only [List.map_map]; rfl
      · intro g hg
        obtain ⟨M, _, rfl⟩ := List.mem_map.mp hg
        rfl
    rw [ht, Res.ok_bind]
    dsimp only
    rw [over _ _ (by simp [hshift]), Res.ok_bind]
    simp only [List.map_map]
    rfl
  refine ⟨⟨m₂, shiftOf sh.alpha Ms⟩, ?_, ⟨rfl, ?_, ?_⟩, ?_⟩
  · show (do
      let s ← resize lvl sh c (Ms.map ctr).length
      let s ← updateAll lvl sh s (Ms.map ctr)
      return (⟨Ms.map ctr, s⟩ : MixtureSlave (Cache F) Group)) = _
    rw [e₁, Res.ok_bind, e₂]; rfl
  · intro v e he
    simp only [m₂, FMap.lookup_mapValues, Option.map_eq_some_iff] at he
    obtain ⟨e', he', rfl⟩ := he
    exact ⟨bOf v, hb v e' he', rfl⟩
  · intro v hv hm
    simp only [m₂, FMap.lookup_mapValues, Option.map_eq_none_iff] at hv
    obtain ⟨e, he⟩ := (hkeys v).mpr (hsub v hm)
    rw [hv] at he; simp at he
  · intro v
    simp only [m₂, FMap.keys_mapValues]
    rw [FMap.mem_keys_iff, hkeys]

/-! ## Groups -/

theorem addGroup_mirror (lvl : Nat) {sh : Shared F}
    {Ms : List (Multiset UInt32)} {c : Cache F} (hm : Mirror sh c Ms) :
    ∃ c', (⟨Ms.map ctr, c⟩ : MixtureSlave _ _).addGroup lvl (ops lvl sh) (valueScorer lvl sh) =
        .ok ⟨(Ms ++ [0]).map ctr, c'⟩ ∧ Mirror sh c' (Ms ++ [0]) ∧
        c'.scores.keys = c.scores.keys := by
  have h0 : (SparseCounter.raw.clear : Group) = ctr 0 := eq_ctr (SparseCounter.holds_clear _)
  let bOf : UInt32 → F := fun v => (sh.betas.lookup v).getD (ofInt 0)
  have hb : ∀ v e, c.scores.lookup v = some e → sh.betas.lookup v = some (bOf v) ∧
      e = ⟨UInt32.ofNat (Ms.sum.count v), row sh.alpha (bOf v) v Ms⟩ := by
    intro v e he
    obtain ⟨b, hb, rfl⟩ := hm.cached v e he
    have : bOf v = b := by simp [bOf, hb]
    rw [this]; exact ⟨hb, rfl⟩
  have e₁ : addGroup lvl sh c = .ok ⟨c.scores.mapValues fun v e =>
      { e with scores := packedAdd (row sh.alpha (bOf v) v Ms) (log (sh.alpha * bOf v)) },
      packedAdd (shiftOf sh.alpha Ms) (log sh.alpha)⟩ := by
    rw [addGroup, FMap.mapEntries_ok (fun v e =>
      { e with scores := packedAdd (row sh.alpha (bOf v) v Ms) (log (sh.alpha * bOf v)) })
      Entry.fresh (by
        intro v e he
        obtain ⟨h1, h2⟩ := hb v e he
        rw [get_of lvl h1, Res.ok_bind, h2]; rfl)]
    rw [hm.shift]; rfl
  let m₂ : FMap UInt32 (Entry F) := c.scores.mapValues fun v e =>
    ⟨e.refCount, row sh.alpha (bOf v) v (Ms ++ [0])⟩
  have e₂ : updateGroup lvl sh ⟨c.scores.mapValues fun v e =>
      { e with scores := packedAdd (row sh.alpha (bOf v) v Ms) (log (sh.alpha * bOf v)) },
      packedAdd (shiftOf sh.alpha Ms) (log sh.alpha)⟩ (Ms.map ctr).length (ctr 0) =
      .ok ⟨m₂, shiftOf sh.alpha (Ms ++ [0])⟩ := by
    rw [updateGroup, FMap.mapEntries_ok (fun v e =>
      ⟨e.refCount, row sh.alpha (bOf v) v (Ms ++ [0])⟩) Entry.fresh (by
        intro v e he
        simp only [FMap.lookup_mapValues, Option.map_eq_some_iff] at he
        obtain ⟨e', he', rfl⟩ := he
        obtain ⟨h1, h2⟩ := hb v e' he'
        rw [setEntry, get_of lvl h1, Res.ok_bind, getCount_ctr, row, List.length_map,
          setAt_push (fun M : Multiset UInt32 => log (sh.alpha * bOf v + ofInt (M.count v : Int)))
            Ms 0, Res.ok_bind]
        rfl)]
    rw [Res.ok_bind, setShift, getTotal_ctr, Res.ok_bind, shiftOf, List.length_map,
      setAt_push (fun M : Multiset UInt32 => log (sh.alpha + ofInt (M.card : Int))) Ms 0,
      Res.ok_bind]
    simp only [Res.pure_eq, shiftOf, m₂]
    congr 2
    ext v : 1
    simp [FMap.lookup_mapValues, Option.map_map, Function.comp_def]
  refine ⟨⟨m₂, shiftOf sh.alpha (Ms ++ [0])⟩, ?_, ⟨rfl, ?_, ?_⟩, rfl⟩
  · show (do
      let s ← addGroup lvl sh c
      let g ← SlaveGroups.groupAt lvl (Ms.map ctr ++ [SparseCounter.raw.clear]) (Ms.map ctr).length
      let s ← updateGroup lvl sh s (Ms.map ctr).length g
      return (⟨Ms.map ctr ++ [SparseCounter.raw.clear], s⟩ : MixtureSlave (Cache F) Group)) = _
    rw [e₁, Res.ok_bind, h0, groupAt_of (g := ctr 0) (by simp), Res.ok_bind, e₂]
    simp
  · intro v e he
    simp only [m₂, FMap.lookup_mapValues, Option.map_eq_some_iff] at he
    obtain ⟨e', he', rfl⟩ := he
    obtain ⟨h1, h2⟩ := hb v e' he'
    refine ⟨bOf v, h1, ?_⟩
    rw [h2]; simp
  · intro v hv
    simp only [m₂, FMap.lookup_mapValues, Option.map_eq_none_iff] at hv
    simpa using hm.uncached v hv

theorem removeGroup_mirror (lvl : Nat) {sh : Shared F}
    {Ms : List (Multiset UInt32)} {c : Cache F} (hm : Mirror sh c Ms) {i : Nat}
    (hi : Ms[i]? = some 0) :
    ∃ c', (⟨Ms.map ctr, c⟩ : MixtureSlave _ _).removeGroup lvl (valueScorer lvl sh) i =
        .ok ⟨(swapRemove Ms i).map ctr, c'⟩ ∧ Mirror sh c' (swapRemove Ms i) ∧
        c'.scores.keys = c.scores.keys := by
  have hlt : i < Ms.length := (List.getElem?_eq_some_iff.mp hi).1
  let bOf : UInt32 → F := fun v => (sh.betas.lookup v).getD (ofInt 0)
  have hb : ∀ v e, c.scores.lookup v = some e → sh.betas.lookup v = some (bOf v) ∧
      e = ⟨UInt32.ofNat (Ms.sum.count v), row sh.alpha (bOf v) v Ms⟩ := by
    intro v e he
    obtain ⟨b, hb, rfl⟩ := hm.cached v e he
    have : bOf v = b := by simp [bOf, hb]
    rw [this]; exact ⟨hb, rfl⟩
  let m₂ : FMap UInt32 (Entry F) := c.scores.mapValues fun v e =>
    ⟨e.refCount, row sh.alpha (bOf v) v (swapRemove Ms i)⟩
  have e₁ : removeGroup lvl c i = .ok ⟨m₂, shiftOf sh.alpha (swapRemove Ms i)⟩ := by
    rw [removeGroup, FMap.mapEntries_ok (fun v e =>
      ⟨e.refCount, row sh.alpha (bOf v) v (swapRemove Ms i)⟩) Entry.fresh (by
        intro v e he
        obtain ⟨_, h2⟩ := hb v e he
        rw [h2]
        dsimp only
        rw [row, packedRemove_map lvl _ hlt]; rfl)]
    rw [Res.ok_bind, hm.shift, shiftOf, packedRemove_map lvl _ hlt]; rfl
  refine ⟨⟨m₂, shiftOf sh.alpha (swapRemove Ms i)⟩, ?_, ⟨rfl, ?_, ?_⟩, rfl⟩
  · show (do
      let gs ← packedRemove lvl (Ms.map ctr) i
      let s ← removeGroup lvl c i
      return (⟨gs, s⟩ : MixtureSlave (Cache F) Group)) = _
    rw [packedRemove_map lvl _ hlt, Res.ok_bind, e₁]; rfl
  · intro v e he
    simp only [m₂, FMap.lookup_mapValues, Option.map_eq_some_iff] at he
    obtain ⟨e', he', rfl⟩ := he
    obtain ⟨h1, h2⟩ := hb v e' he'
    refine ⟨bOf v, h1, ?_⟩
    rw [h2, sum_swapRemove hi]
  · intro v hv
    simp only [m₂, FMap.lookup_mapValues, Option.map_eq_none_iff] at hv
    rw [sum_swapRemove hi]
    exact hm.uncached v hv

/-! ## Values -/

/-- Rows of other values do not change. -/
theorem row_set_other (alpha b : F) {v w : UInt32} (hw : w ≠ v) {Ms : List (Multiset UInt32)}
    {i : Nat} {M M' : Multiset UInt32} (hi : Ms[i]? = some M) (hc : M'.count w = M.count w) :
    row alpha b w (Ms.set i M') = row alpha b w Ms := by
  unfold row
  rw [List.map_set, hc]
  have : (Ms.map fun M => log (alpha * b + ofInt (M.count w : Int)))[i]? =
      some (log (alpha * b + ofInt (M.count w : Int))) := by
    rw [List.getElem?_map, hi]; rfl
  obtain ⟨h, e⟩ := List.getElem?_eq_some_iff.mp this
  rw [← e, List.set_getElem_self]

theorem row_zero {alpha b : F} (hz : alpha * b + ofInt 0 = alpha * b) {v : UInt32}
    {Ms : List (Multiset UInt32)} (hv : v ∉ Ms.sum) :
    row alpha b v Ms = List.replicate Ms.length (log (alpha * b)) := by
  induction Ms with
  | nil => rfl
  | cons M Ms ih =>
    rw [List.sum_cons, Multiset.mem_add, not_or] at hv
    simp only [row, List.map_cons, List.length_cons, List.replicate_succ]
    rw [Multiset.count_eq_zero.mpr hv.1]
    have := ih hv.2
    simp only [row] at this
    rw [this]
    simp [hz]

theorem Mirror.transfer {sh sh' : Shared F} {c : Cache F} {Ms : List (Multiset UInt32)}
    (h : Mirror sh c Ms) (ha : sh'.alpha = sh.alpha)
    (hb : ∀ v e, c.scores.lookup v = some e → sh'.betas.lookup v = sh.betas.lookup v) :
    Mirror sh' c Ms := by
  refine ⟨by rw [ha]; exact h.shift, ?_, h.uncached⟩
  intro v e he
  obtain ⟨b, h1, h2⟩ := h.cached v e he
  exact ⟨b, (hb v e he).trans h1, by rw [ha]; exact h2⟩

theorem addValue_mirror (lvl : Nat) {sh : Shared F}
    (hz : ∀ b, sh.alpha * b + ofInt 0 = sh.alpha * b)
    {Ms : List (Multiset UInt32)} {c : Cache F} (hm : Mirror sh c Ms) {i : Nat}
    {M : Multiset UInt32} (hi : Ms[i]? = some M) {v : UInt32} (hv : v ∈ sh.betas.keys)
    (ho : v ≠ other) (hcard : Ms.sum.card < 2147483647) :
    ∃ c', (⟨Ms.map ctr, c⟩ : MixtureSlave _ _).addValue lvl (ops lvl sh) (valueScorer lvl sh) i v =
        .ok ⟨(Ms.set i (v ::ₘ M)).map ctr, c'⟩ ∧ Mirror sh c' (Ms.set i (v ::ₘ M)) ∧
        c'.scores.keys = insert v c.scores.keys := by
  have hlt : i < Ms.length := (List.getElem?_eq_some_iff.mp hi).1
  have hMcard := Multiset.card_le_card (le_sum hi)
  have hadd : (ops lvl sh).add (ctr M) v = .ok (ctr (v ::ₘ M)) :=
    group_add lvl ho hv (by omega)
  have hgi : (Ms.map ctr)[i]? = some (ctr M) := by rw [List.getElem?_map, hi]; rfl
  obtain ⟨b, hb⟩ := (sh.betas.mem_keys_iff v).mp hv
  have hcv := Multiset.count_le_card v Ms.sum
  -- the value's row before the update, and its reference count after it
  have key : ∃ e m', Sparse.getOrAdd c.scores v Entry.fresh = (e, m') ∧
      (∀ w, w ≠ v → m'.lookup w = c.scores.lookup w) ∧
      m'.keys = insert v c.scores.keys ∧
      e.refCount + 1 = UInt32.ofNat (Ms.sum.count v + 1) ∧
      (if e.refCount + 1 = 1 then do
          let b ← Sparse.get lvl sh.betas v
          return resizeWith e.scores c.shift.length (log (sh.alpha * b))
        else .ok e.scores : Res (List F)) = .ok (row sh.alpha b v Ms) := by
    have hshift : c.shift.length = Ms.length := by rw [hm.shift]; simp [shiftOf]
    cases hl : c.scores.lookup v with
    | some e =>
      obtain ⟨b', hb', rfl⟩ := hm.cached v e hl
      rw [hb] at hb'; simp only [Option.some.injEq] at hb'; subst hb'
      refine ⟨⟨UInt32.ofNat (Ms.sum.count v), row sh.alpha b v Ms⟩, c.scores,
        by simp only [Sparse.getOrAdd, hl], fun _ _ => rfl, ?_, ?_, ?_⟩
      · rw [Finset.insert_eq_of_mem]
        exact (c.scores.mem_keys_iff v).mpr ⟨_, hl⟩
      · rw [UInt32.ofNat_add]; rfl
      · rw [get_of lvl hb]
        have : resizeWith (row sh.alpha b v Ms) c.shift.length (log (sh.alpha * b)) =
            row sh.alpha b v Ms := by
          have h2 : c.shift.length = (row sh.alpha b v Ms).length := by rw [hshift]; simp [row]
          rw [h2, resizeWith_self]
        simp only [Res.ok_bind, this, Res.pure_eq, ite_self]
    | none =>
      have hns := hm.uncached v hl
      refine ⟨Entry.fresh, c.scores.set v Entry.fresh, by simp only [Sparse.getOrAdd, hl], ?_, by simp, ?_, ?_⟩
      · intro w hw; simp [hw]
      · rw [Multiset.count_eq_zero.mpr hns]; rfl
      · rw [if_pos (by rfl), get_of lvl hb, Res.ok_bind, row_zero (hz b) hns, hshift]
        simp [resizeWith, Entry.fresh]
  obtain ⟨e, m', e1, hother, hkeys, href, hxs⟩ := key
  have hset : setEntry lvl sh (row sh.alpha b v Ms) i (ctr (v ::ₘ M)) v =
      .ok (row sh.alpha b v (Ms.set i (v ::ₘ M))) := by
    rw [setEntry, get_of lvl hb, Res.ok_bind, getCount_ctr]
    exact setAt_map (fun M : Multiset UInt32 => log (sh.alpha * b + ofInt (M.count v : Int)))
      (v ::ₘ M) hi
  have hsh : setShift sh c.shift i (ctr (v ::ₘ M)) = .ok (shiftOf sh.alpha (Ms.set i (v ::ₘ M))) := by
    rw [setShift, getTotal_ctr, Res.ok_bind, hm.shift]
    exact setAt_map (fun M : Multiset UInt32 => log (sh.alpha + ofInt (M.card : Int)))
      (v ::ₘ M) hi
  have e2 : addValue lvl sh c i (ctr (v ::ₘ M)) v =
      .ok ⟨m'.set v ⟨UInt32.ofNat (Ms.sum.count v + 1), row sh.alpha b v (Ms.set i (v ::ₘ M))⟩,
        shiftOf sh.alpha (Ms.set i (v ::ₘ M))⟩ := by
    rw [addValue, distAssert_of ho, Res.ok_bind, e1]
    simp only
    rw [hxs, Res.ok_bind, hset, Res.ok_bind, hsh, Res.ok_bind, href]
    rfl
  refine ⟨⟨m'.set v ⟨UInt32.ofNat (Ms.sum.count v + 1), row sh.alpha b v (Ms.set i (v ::ₘ M))⟩,
        shiftOf sh.alpha (Ms.set i (v ::ₘ M))⟩, ?_, ⟨rfl, ?_, ?_⟩, ?_⟩
  rotate_left
  · intro w e' he'
    simp only [FMap.lookup_set] at he'
    rw [sum_cons_set hi]
    by_cases hw : w = v
    · subst hw
      simp only [if_true, Option.some.injEq] at he'
      exact ⟨b, hb, by rw [← he', Multiset.count_cons_self]⟩
    · rw [if_neg hw, hother w hw] at he'
      obtain ⟨b', hb', rfl⟩ := hm.cached w e' he'
      refine ⟨b', hb', ?_⟩
      rw [Multiset.count_cons_of_ne hw, row_set_other _ _ hw hi (Multiset.count_cons_of_ne hw M)]
  · intro w hw
    simp only [FMap.lookup_set] at hw
    split_ifs at hw with hwv
    rw [hother w hwv] at hw
    rw [sum_cons_set hi, Multiset.mem_cons, not_or]
    exact ⟨hwv, hm.uncached w hw⟩
  · rw [FMap.keys_set, hkeys]; simp
  · show (do
      let gs ← SlaveGroups.addValue lvl (ops lvl sh) (Ms.map ctr) i v
      let g ← SlaveGroups.groupAt lvl gs i
      let s ← addValue lvl sh c i g v
      return (⟨gs, s⟩ : MixtureSlave (Cache F) Group)) = _
    rw [SlaveGroups.addValue, groupAt_of hgi, Res.ok_bind, hadd, Res.ok_bind,
      setAt_map ctr (v ::ₘ M) hi, Res.ok_bind, groupAt_of (g := ctr (v ::ₘ M)) (by simp [hlt]),
      Res.ok_bind, e2]
    rfl

theorem removeValue_mirror (lvl : Nat) {sh : Shared F}
    {Ms : List (Multiset UInt32)} {c : Cache F} (hm : Mirror sh c Ms) {i : Nat}
    {M : Multiset UInt32} (hi : Ms[i]? = some M) {v : UInt32} (hv : v ∈ M)
    (hvB : v ∈ sh.betas.keys) (ho : v ≠ other) (hcard : Ms.sum.card ≤ 2147483647) :
    ∃ c', (⟨Ms.map ctr, c⟩ : MixtureSlave _ _).removeValue lvl (ops lvl sh) (valueScorer lvl sh) i v =
        .ok ⟨(Ms.set i (M.erase v)).map ctr, c'⟩ ∧ Mirror sh c' (Ms.set i (M.erase v)) ∧
        (∀ w, w ∈ c'.scores.keys ↔ w ∈ c.scores.keys ∧ (w = v → v ∈ Ms.sum.erase v)) := by
  have hlt : i < Ms.length := (List.getElem?_eq_some_iff.mp hi).1
  have hMcard := Multiset.card_le_card (le_sum hi)
  have hvs : v ∈ Ms.sum := Multiset.mem_of_le (le_sum hi) hv
  have hrem : (ops lvl sh).remove (ctr M) v = .ok (ctr (M.erase v)) :=
    group_remove lvl ho hvB hv (by omega)
  have hgi : (Ms.map ctr)[i]? = some (ctr M) := by rw [List.getElem?_map, hi]; rfl
  obtain ⟨b, hb⟩ := (sh.betas.mem_keys_iff v).mp hvB
  have hcv := Multiset.count_le_card v Ms.sum
  have hpos : 0 < Ms.sum.count v := Multiset.count_pos.mpr hvs
  obtain ⟨e, hl⟩ : ∃ e, c.scores.lookup v = some e := by
    cases hl : c.scores.lookup v with
    | some e => exact ⟨e, rfl⟩
    | none => exact absurd hvs (hm.uncached v hl)
  obtain ⟨b', hb', rfl⟩ := hm.cached v e hl
  rw [hb] at hb'; simp only [Option.some.injEq] at hb'; subst hb'
  have hcon : c.scores.contains v = true := by simp [FMap.contains, hl]
  have href : UInt32.ofNat (Ms.sum.count v) - 1 = UInt32.ofNat (Ms.sum.count v - 1) := by
    obtain ⟨k, hk⟩ : ∃ k, Ms.sum.count v = k + 1 := ⟨Ms.sum.count v - 1, by omega⟩
    rw [hk, UInt32.ofNat_add]
    simp
  have hset : setEntry lvl sh (row sh.alpha b v Ms) i (ctr (M.erase v)) v =
      .ok (row sh.alpha b v (Ms.set i (M.erase v))) := by
    rw [setEntry, get_of lvl hb, Res.ok_bind, getCount_ctr]
    exact setAt_map (fun M : Multiset UInt32 => log (sh.alpha * b + ofInt (M.count v : Int)))
      (M.erase v) hi
  have hsh : setShift sh c.shift i (ctr (M.erase v)) =
      .ok (shiftOf sh.alpha (Ms.set i (M.erase v))) := by
    rw [setShift, getTotal_ctr, Res.ok_bind, hm.shift]
    exact setAt_map (fun M : Multiset UInt32 => log (sh.alpha + ofInt (M.card : Int)))
      (M.erase v) hi
  let m' : FMap UInt32 (Entry F) := if Ms.sum.count v - 1 = 0 then c.scores.erase v
    else c.scores.set v ⟨UInt32.ofNat (Ms.sum.count v - 1), row sh.alpha b v (Ms.set i (M.erase v))⟩
  have e2 : removeValue lvl sh c i (ctr (M.erase v)) v =
      .ok ⟨m', shiftOf sh.alpha (Ms.set i (M.erase v))⟩ := by
    rw [removeValue, distAssert_of ho, Res.ok_bind, get_of lvl hl, Res.ok_bind]
    dsimp only
    rw [href]
    by_cases h0 : Ms.sum.count v - 1 = 0
    · rw [if_pos ((ofNat_eq_zero (by omega)).mpr h0), Sparse.remove, distAssert_of hcon]
      simp only [Res.ok_bind, Res.pure_eq, hsh, m', h0, if_true]
    · rw [if_neg (fun h => h0 ((ofNat_eq_zero (by omega)).mp h)), hset]
      simp only [Res.ok_bind, Res.pure_eq, hsh, m', h0, if_false]
  have hce : (Ms.sum.erase v).count v = Ms.sum.count v - 1 := Multiset.count_erase_self v _
  refine ⟨⟨m', shiftOf sh.alpha (Ms.set i (M.erase v))⟩, ?_, ⟨rfl, ?_, ?_⟩, ?_⟩
  · show (do
      let gs ← SlaveGroups.removeValue lvl (ops lvl sh) (Ms.map ctr) i v
      let g ← SlaveGroups.groupAt lvl gs i
      let s ← removeValue lvl sh c i g v
      return (⟨gs, s⟩ : MixtureSlave (Cache F) Group)) = _
    rw [SlaveGroups.removeValue, groupAt_of hgi, Res.ok_bind, hrem, Res.ok_bind,
      setAt_map ctr (M.erase v) hi, Res.ok_bind, groupAt_of (g := ctr (M.erase v)) (by simp [hlt]),
      Res.ok_bind, e2]
    rfl
  · intro w e' he'
    rw [sum_erase_set hi hv]
    by_cases hw : w = v
    · subst hw
      simp only [m'] at he'
      split_ifs at he' with h0
      · simp at he'
      · simp only [FMap.lookup_set, if_true, Option.some.injEq] at he'
        exact ⟨b, hb, by rw [← he', hce]⟩
    · have : m'.lookup w = c.scores.lookup w := by
        simp only [m']; split_ifs <;> simp [hw]
      rw [this] at he'
      obtain ⟨b', hb', rfl⟩ := hm.cached w e' he'
      refine ⟨b', hb', ?_⟩
      rw [Multiset.count_erase_of_ne hw,
        row_set_other _ _ hw hi (Multiset.count_erase_of_ne hw M)]
  · intro w hw
    rw [sum_erase_set hi hv]
    by_cases hwv : w = v
    · subst hwv
      simp only [m'] at hw
      split_ifs at hw with h0
      · rw [← Multiset.count_eq_zero, hce]; exact h0
      · simp at hw
    · have : m'.lookup w = c.scores.lookup w := by
        simp only [m']; split_ifs <;> simp [hwv]
      rw [this] at hw
      rw [Multiset.mem_erase_of_ne hwv]
      exact hm.uncached w hw
  · intro w
    have hmk : v ∈ c.scores.keys := (c.scores.mem_keys_iff v).mpr ⟨_, hl⟩
    dsimp only
    by_cases hwv : w = v
    · subst hwv
      have hiff : w ∈ Ms.sum.erase w ↔ ¬ Ms.sum.count w - 1 = 0 := by
        rw [← Multiset.count_pos, hce]; omega
      simp only [m', hmk, true_and, forall_const, hiff]
      split_ifs with h0 <;> simp [h0]
    · simp only [m', hwv, false_imp_iff, and_true]
      split_ifs <;> simp [hwv]

/-! ## The whole protocol -/

theorem protocol_mirror (lvl : Nat) (rng : Rng F σ) (h : List (MixOp UInt32)) :
    ∀ (sh : Shared F) (B : Multiset UInt32) (Ms Ms' : List (Multiset UInt32)) (c : Cache F)
      (s : σ) (sh' : Shared F) (s' : σ),
      (∀ b, sh.alpha * b + ofInt 0 = sh.alpha * b) → Pre sh (Ms.map ctr) B Ms → Mirror sh c Ms →
      valuesAfter Ms h = some Ms' → ValidValues B (sharedOps h) → AvoidsOther (sharedOps h) →
      runShared lvl rng sh s (sharedOps h) = .ok (sh', s') →
      ∃ c', runProtocol lvl rng sh ⟨Ms.map ctr, c⟩ s h = .ok (sh', ⟨Ms'.map ctr, c'⟩, s') ∧
        Pre sh' (Ms'.map ctr) (contents B (sharedOps h)) Ms' ∧ Mirror sh' c' Ms' ∧
        sh'.alpha = sh.alpha ∧ (B = Ms.sum → (∀ v ∈ c.scores.keys, v ∈ Ms.sum) →
          ∀ v ∈ c'.scores.keys, v ∈ Ms'.sum) := by
  induction h with
  | nil =>
    intro sh B Ms Ms' c s sh' s' hz hp hm hv _ _ hrun
    simp only [valuesAfter, Option.some.injEq] at hv
    simp only [sharedOps, runShared, Res.ok.injEq, Prod.mk.injEq] at hrun
    obtain ⟨rfl, rfl⟩ := hrun
    subst hv
    exact ⟨c, rfl, hp, hm, rfl, fun _ h => h⟩
  | cons op h ih =>
    intro sh B Ms Ms' c s sh' s' hz hp hm hv hval hav hrun
    simp only [valuesAfter] at hv
    cases hop : op.values Ms with
    | none => rw [hop] at hv; simp at hv
    | some Ms₁ =>
      rw [hop] at hv
      simp only at hv
      cases op with
      | init =>
        simp only [MixOp.values, Option.some.injEq] at hop
        subst hop
        obtain ⟨c₁, e₁, hm₁, hk⟩ := init_mirror lvl hp.known c
        obtain ⟨c', e, r1, r2, r3, r4⟩ := ih sh B Ms Ms' c₁ s sh' s' hz hp hm₁ hv hval hav hrun
        exact ⟨c', by rw [runProtocol, e₁, Res.ok_bind, e], r1, r2, r3,
          fun hB _ => r4 hB fun v hv => by rw [← hB]; exact (hp.cons.keys v).mp ((hk v).mp hv)⟩
      | addGroup =>
        simp only [MixOp.values, Option.some.injEq] at hop
        subst hop
        obtain ⟨c₁, e₁, hm₁, hk⟩ := addGroup_mirror lvl hm
        obtain ⟨c', e, r1, r2, r3, r4⟩ := ih sh B _ Ms' c₁ s sh' s' hz
          ⟨hp.cons, hp.other, by simpa using hp.sub, hp.card, rfl⟩ hm₁ hv hval hav hrun
        exact ⟨c', by rw [runProtocol, e₁, Res.ok_bind, e], r1, r2, r3,
          fun hB hc => r4 (by simpa using hB) (by rw [hk]; simpa using hc)⟩
      | removeGroup i =>
        simp only [MixOp.values] at hop
        split_ifs at hop with hi
        simp only [Option.some.injEq] at hop
        subst hop
        obtain ⟨c₁, e₁, hm₁, hk⟩ := removeGroup_mirror lvl hm hi
        obtain ⟨c', e, r1, r2, r3, r4⟩ := ih sh B _ Ms' c₁ s sh' s' hz
          ⟨hp.cons, hp.other, by rw [sum_swapRemove hi]; exact hp.sub, hp.card, rfl⟩
          hm₁ hv hval hav hrun
        rw [sum_swapRemove hi] at r4
        exact ⟨c', by rw [runProtocol, e₁, Res.ok_bind, e], r1, r2, r3,
          fun hB hc => r4 hB (by rw [hk]; exact hc)⟩
      | add i v =>
        simp only [MixOp.values] at hop
        cases hi : Ms[i]? with
        | none => rw [hi] at hop; simp at hop
        | some M =>
          rw [hi] at hop
          simp only [Option.some.injEq] at hop
          subst hop
          obtain ⟨hlt, hval⟩ := hval
          obtain ⟨hvo, hav⟩ := hav
          simp only [sharedOps, runShared, Res.bind_eq_ok] at hrun
          obtain ⟨⟨sh₁, s₁⟩, e₀, hrun⟩ := hrun
          have key : Consistent sh₁ (v ::ₘ B) ∧ sh₁.alpha = sh.alpha ∧
              ∀ w ∈ B, sh₁.betas.lookup w = sh.betas.lookup w := by
            by_cases hmem : v ∈ B
            · obtain ⟨c', e, h'⟩ := addValue_old lvl rng hp.cons hmem hvo hlt s
              rw [e] at e₀
              simp only [Res.ok.injEq, Prod.mk.injEq] at e₀
              obtain ⟨rfl, rfl⟩ := e₀
              exact ⟨h', rfl, fun _ _ => rfl⟩
            · obtain ⟨c', _, e, h'⟩ := addValue_new lvl rng hp.cons hmem hvo hlt s
              rw [e] at e₀
              simp only [Res.bind_eq_ok] at e₀
              obtain ⟨_, _, ⟨p, s₂⟩, _, e₀⟩ := e₀
              simp only [Res.ok.injEq, Prod.mk.injEq] at e₀
              obtain ⟨rfl, rfl⟩ := e₀
              refine ⟨h' _ _, rfl, fun w hw => ?_⟩
              have : w ≠ v := by rintro rfl; exact hmem hw
              simp [this]
          have hm₁ : Mirror sh₁ c Ms := hm.transfer key.2.1 (by
            intro w e he
            obtain ⟨b, hb, _⟩ := hm.cached w e he
            exact key.2.2 w ((hp.cons.keys w).mp ((sh.betas.mem_keys_iff w).mpr ⟨b, hb⟩)))
          have hz₁ : ∀ b, sh₁.alpha * b + ofInt 0 = sh₁.alpha * b := by rw [key.2.1]; exact hz
          obtain ⟨c₂, e₂, hm₂, hk₂⟩ := addValue_mirror lvl hz₁ hm₁ hi (v := v)
            ((key.1.keys v).mpr (by simp)) hvo
            ((Multiset.card_le_card hp.sub).trans_lt (by omega))
          obtain ⟨c', e, r1, r2, r3, r4⟩ := ih sh₁ (v ::ₘ B) _ Ms' c₂ s₁ sh' s' hz₁
            ⟨key.1, by
              rw [Multiset.mem_cons, not_or]; exact ⟨fun h => hvo h.symm, hp.other⟩, by
              rw [sum_cons_set hi]; exact Multiset.cons_le_cons v hp.sub, by simp; omega, rfl⟩
            hm₂ hv hval hav hrun
          rw [sum_cons_set hi] at r4
          refine ⟨c', ?_, r1, r2, r3.trans key.2.1, fun hB hc => r4 (by rw [hB]) ?_⟩
          rotate_left
          · intro w hw
            rw [hk₂, Finset.mem_insert] at hw
            rw [Multiset.mem_cons]
            exact hw.imp id (hc w)
          rw [runProtocol, e₀, Res.ok_bind]
          simp only
          rw [e₂, Res.ok_bind, e]
      | remove i v =>
        simp only [MixOp.values] at hop
        cases hi : Ms[i]? with
        | none => rw [hi] at hop; simp at hop
        | some M =>
          rw [hi] at hop
          simp only at hop
          split_ifs at hop with hvM
          simp only [Option.some.injEq] at hop
          subst hop
          obtain ⟨hvB, hval⟩ := hval
          obtain ⟨hvo, hav⟩ := hav
          simp only [sharedOps, runShared, Res.bind_eq_ok] at hrun
          obtain ⟨sh₁, e₀, hrun⟩ := hrun
          obtain ⟨c₂, e₂, hm₂, hk₂⟩ := removeValue_mirror lvl hm hi hvM
            ((hp.cons.keys v).mpr hvB) hvo ((Multiset.card_le_card hp.sub).trans hp.card)
          have key : Consistent sh₁ (B.erase v) ∧ sh₁.alpha = sh.alpha ∧
              ∀ w, (w = v → v ∈ B.erase v) → sh₁.betas.lookup w = sh.betas.lookup w := by
            rcases removeValue_spec lvl hp.cons hvB hvo hp.card with
              ⟨_, c', e, h'⟩ | ⟨hn, c', b, _, e, h'⟩
            · rw [e] at e₀; simp only [Res.ok.injEq] at e₀; subst e₀
              exact ⟨h', rfl, fun _ _ => rfl⟩
            · rw [e] at e₀; simp only [Res.ok.injEq] at e₀; subst e₀
              refine ⟨h' _, rfl, fun w hw => ?_⟩
              have : w ≠ v := by rintro rfl; exact hn (hw rfl)
              simp [this]
          have hsub : Ms.sum.erase v ≤ B.erase v := Multiset.erase_le_erase v hp.sub
          have hm₁ : Mirror sh₁ c₂ (Ms.set i (M.erase v)) := hm₂.transfer key.2.1 (by
            intro w e he
            apply key.2.2 w
            intro hw
            exact Multiset.mem_of_le hsub
              (((hk₂ w).mp ((c₂.scores.mem_keys_iff w).mpr ⟨e, he⟩)).2 hw))
          have hz₁ : ∀ b, sh₁.alpha * b + ofInt 0 = sh₁.alpha * b := by rw [key.2.1]; exact hz
          have hcard := Multiset.card_erase_le (a := v) (s := B)
          obtain ⟨c', e, r1, r2, r3, r4⟩ := ih sh₁ (B.erase v) _ Ms' c₂ s sh' s' hz₁
            ⟨key.1, fun h => hp.other (Multiset.mem_of_mem_erase h), by
              rw [sum_erase_set hi hvM]; exact hsub, by have := hp.card; omega, rfl⟩
            hm₁ hv hval hav hrun
          rw [sum_erase_set hi hvM] at r4
          refine ⟨c', ?_, r1, r2, r3.trans key.2.1, fun hB hc => r4 (by rw [hB]) ?_⟩
          rotate_left
          · intro w hw
            obtain ⟨h1, h2⟩ := (hk₂ w).mp hw
            by_cases hwv : w = v
            · subst hwv; exact h2 rfl
            · exact (Multiset.mem_erase_of_ne hwv).mpr (hc w h1)
          rw [runProtocol, e₂, Res.ok_bind, e₀, Res.ok_bind, e]

/-! ## Scores -/

theorem mirror_scores (lvl : Nat) {sh : Shared F}
    (hoB : other ∉ sh.betas.keys) (hz : ∀ b, sh.alpha * b + ofInt 0 = sh.alpha * b)
    {Ms : List (Multiset UInt32)} {c : Cache F} (hm : Mirror sh c Ms) {v : UInt32} {b : F}
    (hb : if v = other then sh.beta0 = b else sh.betas.lookup v = some b) :
    ScoresLike lvl (valueScorer lvl sh) ⟨Ms.map ctr, c⟩ v (fun g =>
      log (sh.alpha * b + ofInt (SparseCounter.getCount g v)) -
        log (sh.alpha + ofInt (g.total.getD 0))) := by
  have hval : validate lvl sh c (Ms.map ctr).length = .ok () := by
    rw [List.length_map]; exact hm.validate lvl
  cases hl : c.scores.lookup v with
  | some e =>
    obtain ⟨b', hb', rfl⟩ := hm.cached v e hl
    have hvo : v ≠ other := by
      rintro rfl; exact hoB ((sh.betas.mem_keys_iff _).mpr ⟨b', hb'⟩)
    rw [if_neg hvo, hb'] at hb
    simp only [Option.some.injEq] at hb
    subst hb
    constructor
    · intro i g hg
      have hlt : i < (Ms.map ctr).length := (List.getElem?_eq_some_iff.mp hg).1
      rw [List.getElem?_map, Option.map_eq_some_iff] at hg
      obtain ⟨M, hM, rfl⟩ := hg
      show (do distAssert lvl 2 (i < (Ms.map ctr).length)
               scoreValueGroup lvl sh c (Ms.map ctr) i v) = _
      rw [distAssert_of hlt, Res.ok_bind, scoreValueGroup, hval, Res.ok_bind, hl]
      simp only
      rw [row, getAt_map _ hM, Res.ok_bind, hm.shift, shiftOf, getAt_map _ hM, Res.ok_bind,
        getCount_ctr]
      rfl
    · intro accum hlen
      show (do distAssert lvl 2 (accum.length = (Ms.map ctr).length)
               scoreValue lvl sh c (Ms.map ctr) v accum) = _
      rw [distAssert_of hlen, Res.ok_bind, scoreValue, hval, Res.ok_bind, hl]
      simp only
      rw [vectorAddSubtract, hm.shift]
      refine accumulate_map _ _ _ 0 accum hlen ?_
      intro k g hg
      rw [List.getElem?_map, Option.map_eq_some_iff] at hg
      obtain ⟨M, hM, rfl⟩ := hg
      rw [Nat.zero_add, row, getAt_map _ hM, Res.ok_bind, shiftOf, getAt_map _ hM, Res.ok_bind,
        getCount_ctr]
      rfl
  | none =>
    have hns := hm.uncached v hl
    have hcount : ∀ M ∈ Ms, Multiset.count v M = 0 := by
      intro M hM
      obtain ⟨i, hi⟩ := List.getElem?_of_mem hM
      exact Multiset.count_eq_zero.mpr fun h => hns (Multiset.mem_of_le (le_sum hi) h)
    have hub : uncachedBeta lvl sh v = .ok b := by
      rw [uncachedBeta]
      split_ifs at hb ⊢ with h
      · rw [hb]
      · exact get_of lvl hb
    constructor
    · intro i g hg
      have hlt : i < (Ms.map ctr).length := (List.getElem?_eq_some_iff.mp hg).1
      rw [List.getElem?_map, Option.map_eq_some_iff] at hg
      obtain ⟨M, hM, rfl⟩ := hg
      show (do distAssert lvl 2 (i < (Ms.map ctr).length)
               scoreValueGroup lvl sh c (Ms.map ctr) i v) = _
      rw [distAssert_of hlt, Res.ok_bind, scoreValueGroup, hval, Res.ok_bind, hl]
      simp only
      rw [hub, Res.ok_bind, hm.shift, shiftOf, getAt_map _ hM, Res.ok_bind,
        getCount_ctr, hcount M (List.mem_of_getElem? hM)]
      simp only [Nat.cast_zero, hz]
      rfl
    · intro accum hlen
      show (do distAssert lvl 2 (accum.length = (Ms.map ctr).length)
               scoreValue lvl sh c (Ms.map ctr) v accum) = _
      rw [distAssert_of hlen, Res.ok_bind, scoreValue, hval, Res.ok_bind, hl]
      simp only
      rw [hub, Res.ok_bind, hm.shift]
      refine accumulate_map _ _ _ 0 accum hlen ?_
      intro k g hg
      rw [List.getElem?_map, Option.map_eq_some_iff] at hg
      obtain ⟨M, hM, rfl⟩ := hg
      rw [Nat.zero_add, shiftOf, getAt_map _ hM, Res.ok_bind,
        getCount_ctr, hcount M (List.mem_of_getElem? hM)]
      simp only [Nat.cast_zero, hz]
      rfl

end

end DPD

end Dist
