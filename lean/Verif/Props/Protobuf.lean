import Verif.Base.XR
import Verif.Model.Protobuf
import Verif.Lemmas.DPD

/-! # C40: protobuf round trips

Everything but the reconstruction of `beta0` is bit for bit, with every float type. -/

namespace Dist

open Spec FloatOps FloatNotation

namespace Proto

/-- An `int` survives the trip through a `uint64` field, negative or not. -/
theorem u64ToInt_intToU64 {x : Int} (h : InInt32 x) : u64ToInt (intToU64 x) = x := by
  unfold InInt32 int32Min int32Max at h
  have e : (intToU64 x).toNat = (x % 18446744073709551616).toNat := by
    unfold intToU64 UInt64.ofInt
    rw [UInt64.toNat_ofNat']
    exact Nat.mod_eq_of_lt (by omega)
  unfold u64ToInt
  rw [e, Int.bmod_def]
  omega

theorem toUInt32_toUInt64 (x : UInt32) : x.toUInt64.toUInt32 = x := by
  apply UInt32.toNat_inj.mp
  simp

theorem foldl_append {α β : Type} (f : α → β) (l : List α) (acc : List β) :
    l.foldl (fun l a => l ++ [f a]) acc = acc ++ l.map f := by
  induction l generalizing acc with
  | nil => simp
  | cons a l ih => simp [ih]

theorem loadDDLoop_eq (cs : List Int) (hc : ∀ c ∈ cs, InInt32 c) (t : Int) (acc : List Int)
    (hb : |t| + (cs.map fun c => |c|).sum ≤ 2147483647) :
    loadDDLoop (cs.map intToU64) t acc = .ok ⟨t + cs.sum, acc ++ cs⟩ := by
  induction cs generalizing t acc with
  | nil => simp [loadDDLoop]
  | cons c cs ih =>
    simp only [List.map_cons, List.sum_cons] at hb ⊢
    have hnn : 0 ≤ (cs.map fun c => |c|).sum := List.sum_nonneg (by
      intro x hx; simp only [List.mem_map] at hx
      obtain ⟨_, _, rfl⟩ := hx; exact abs_nonneg _)
    have habs : |t + c| ≤ |t| + |c| := abs_add_le _ _
    have := abs_le.mp (show |t + c| ≤ 2147483647 by omega)
    simp only [loadDDLoop]
    rw [u64ToInt_intToU64 (hc c (by simp)),
      i32_of (by unfold InInt32 int32Min int32Max; omega), Res.ok_bind,
      ih (fun x hx => hc x (by simp [hx])) _ _ (by omega)]
    simp [add_assoc]

theorem loadDPDGroupLoop_eq (es : List (UInt32 × Int)) (hc : ∀ e ∈ es, InInt32 e.2)
    (g : DPD.Group) :
    loadDPDGroupLoop (es.map (·.1)) (es.map fun e => intToU64 e.2) g =
      SparseCounter.mergeLoop g es := by
  induction es generalizing g with
  | nil => rfl
  | cons e es ih =>
    simp only [List.map_cons, loadDPDGroupLoop, SparseCounter.mergeLoop]
    rw [u64ToInt_intToU64 (hc e (by simp))]
    congr 1
    funext p
    exact ih (fun x hx => hc x (by simp [hx])) p.2

theorem loadDPDLoop_eq {F : Type} [FloatOps F] (lvl : Nat) (es : List (UInt32 × F))
    (cnt : UInt32 → Int)
    (hc : ∀ e ∈ es, InInt32 (cnt e.1)) (hpos : ∀ e ∈ es, lt (ofInt 0) e.2 = true)
    (hnd : (es.map Prod.fst).Nodup) (betas : FMap UInt32 F)
    (hfresh : ∀ e ∈ es, e.1 ∉ betas.keys) (c c' : SparseCounter UInt32) (sum : F)
    (hm : SparseCounter.mergeLoop c (es.map fun e => (e.1, cnt e.1)) = .ok c') :
    loadDPDLoop lvl (es.map (·.1)) (es.map (·.2)) (es.map fun e => intToU64 (cnt e.1)) betas c sum =
      .ok (es.foldl (fun m e => m.set e.1 e.2) betas, c', es.foldl (fun s e => s + e.2) sum) := by
  induction es generalizing betas c sum with
  | nil =>
    simp only [List.map_nil, SparseCounter.mergeLoop, Res.ok.injEq] at hm
    subst hm; rfl
  | cons e es ih =>
    simp only [List.map_cons, loadDPDLoop, List.foldl_cons]
    simp only [List.map_cons, List.nodup_cons] at hnd
    have hf : betas.contains e.1 = false := by
      rw [Bool.eq_false_iff]; intro h
      exact hfresh e (by simp) ((FMap.contains_iff _ _).mp h)
    rw [distAssert0_of (hpos e (by simp)), Res.ok_bind, Sparse.add, distAssert_of hf,
      u64ToInt_intToU64 (hc e (by simp))]
    simp only [List.map_cons, SparseCounter.mergeLoop] at hm
    obtain ⟨p, h1, h2⟩ := Res.bind_eq_ok.mp hm
    simp only [Res.ok_bind, Res.pure_eq, hf, h1]
    refine ih (fun x hx => hc x (by simp [hx])) (fun x hx => hpos x (by simp [hx])) hnd.2 _ ?_ _ _ h2
    intro x hx
    simp only [FMap.keys_set, Finset.mem_insert, not_or, Bool.false_eq_true, if_false]
    refine ⟨?_, hfresh x (by simp [hx])⟩
    rintro h
    exact hnd.1 (List.mem_map.mpr ⟨x, hx, h⟩)

theorem lookup_foldl_set {F : Type} (es : List (UInt32 × F)) (m : FMap UInt32 F) (k : UInt32)
    (hnd : (es.map Prod.fst).Nodup) :
    (es.foldl (fun m e => m.set e.1 e.2) m).lookup k =
      if h : ∃ e ∈ es, e.1 = k then some h.choose.2 else m.lookup k := by
  induction es generalizing m with
  | nil => simp
  | cons e es ih =>
    simp only [List.map_cons, List.nodup_cons] at hnd
    rw [List.foldl_cons, ih _ hnd.2]
    by_cases h : ∃ x ∈ es, x.1 = k
    · have h' : ∃ x ∈ e :: es, x.1 = k := by
        obtain ⟨x, hx, hk⟩ := h; exact ⟨x, by simp [hx], hk⟩
      rw [dif_pos h, dif_pos h']
      have a := h.choose_spec
      have b := h'.choose_spec
      rcases List.mem_cons.mp b.1 with hb | hb
      · exfalso
        apply hnd.1
        rw [show e.1 = k from by rw [← hb]; exact b.2]
        exact List.mem_map.mpr ⟨_, a.1, a.2⟩
      · congr 2
        have := List.inj_on_of_nodup_map hnd.2 a.1 hb (a.2.trans b.2.symm)
        exact this
    · rw [dif_neg h, FMap.lookup_set]
      by_cases hk : e.1 = k
      · have h' : ∃ x ∈ e :: es, x.1 = k := ⟨e, by simp, hk⟩
        rw [dif_pos h', if_pos hk.symm]
        have b := h'.choose_spec
        rcases List.mem_cons.mp b.1 with hb | hb
        · rw [hb]
        · exact absurd ⟨_, hb, b.2⟩ h
      · have h' : ¬ ∃ x ∈ e :: es, x.1 = k := by
          rintro ⟨x, hx, hx'⟩
          rcases List.mem_cons.mp hx with rfl | hx
          · exact hk hx'
          · exact h ⟨x, hx, hx'⟩
        rw [dif_neg h', if_neg (Ne.symm hk)]

/-- Refilling an empty table with the entries of a table, in any order, gives the table. -/
theorem refill {F : Type} (m : FMap UInt32 F) (ks : List UInt32) (hks : m.Enum ks) :
    (m.entries ks).foldl (fun m e => m.set e.1 e.2) FMap.empty = m := by
  have hmem : ∀ e, e ∈ m.entries ks ↔ m.lookup e.1 = some e.2 := by
    intro e
    simp only [FMap.entries, List.mem_filterMap, Option.map_eq_some_iff]
    constructor
    · rintro ⟨k, _, v, hv, rfl⟩; exact hv
    · intro h
      exact ⟨e.1, (hks.mem _).mpr ((FMap.mem_keys_iff _ _).mpr ⟨_, h⟩), e.2, h, rfl⟩
  have hfst : (m.entries ks).map Prod.fst = ks := by
    have : ∀ l : List UInt32, (∀ k ∈ l, k ∈ m.keys) → (m.entries l).map Prod.fst = l := by
      intro l
      induction l with
      | nil => intro _; rfl
      | cons k l ih =>
        intro h
        obtain ⟨v, hv⟩ := (FMap.mem_keys_iff _ _).mp (h k (by simp))
        have := ih fun x hx => h x (by simp [hx])
        unfold FMap.entries at this ⊢
        rw [List.filterMap_cons, hv]
        simp only [Option.map_some, List.map_cons, this]
    exact this ks fun k hk => (hks.mem k).mp hk
  ext k : 1
  rw [lookup_foldl_set _ _ _ (by rw [hfst]; exact hks.nodup)]
  split_ifs with h
  · have := h.choose_spec
    have e := (hmem _).mp this.1
    rw [this.2] at e
    exact e.symm
  · rw [FMap.lookup_empty]
    rcases hl : m.lookup k with _ | v
    · rfl
    · exact absurd ⟨(k, v), (hmem (k, v)).mpr hl, rfl⟩ h

end Proto

open Proto

variable {F : Type}

/-! ## Models with plain members -/

/-- **C40 (clustering).** -/
theorem C40_clustering (m old : PitmanYor F) (msg : PitmanYorMsg F) (l lold : LowEntropy)
    (lmsg : LowEntropyMsg) (hl : InInt32 l.datasetSize) :
    loadPitmanYor old (dumpPitmanYor m msg) = m ∧
      loadLowEntropy lold (dumpLowEntropy l lmsg) = l := by
  refine ⟨rfl, ?_⟩
  simp only [loadLowEntropy, dumpLowEntropy, u64ToInt_intToU64 hl]

/-- **C40 (Beta-Bernoulli).** All `int` counts, negative ones included. -/
theorem C40_bb (s olds : BB.Shared F) (smsg : BBSharedMsg F) (g oldg : BB.Group)
    (gmsg : BBGroupMsg) (h1 : InInt32 g.heads) (h2 : InInt32 g.tails) :
    loadBBShared olds (dumpBBShared s smsg) = s ∧ loadBBGroup oldg (dumpBBGroup g gmsg) = g := by
  refine ⟨rfl, ?_⟩
  simp only [loadBBGroup, dumpBBGroup, u64ToInt_intToU64 h1, u64ToInt_intToU64 h2]

/-- **C40 (Gamma-Poisson).** -/
theorem C40_gp (s olds : GP.Shared F) (smsg : GPSharedMsg F) (g oldg : GP.Group F)
    (gmsg : GPGroupMsg F) :
    loadGPShared olds (dumpGPShared s smsg) = s ∧ loadGPGroup oldg (dumpGPGroup g gmsg) = g := by
  refine ⟨rfl, ?_⟩
  simp only [loadGPGroup, dumpGPGroup, toUInt32_toUInt64]

/-- **C40 (Beta-Negative-Binomial).** -/
theorem C40_bnb (s olds : BNB.Shared F) (smsg : BNBSharedMsg F) (g oldg : BNB.Group)
    (gmsg : BNBGroupMsg) :
    loadBNBShared olds (dumpBNBShared s smsg) = s ∧
      loadBNBGroup oldg (dumpBNBGroup g gmsg) = g := by
  simp only [loadBNBGroup, dumpBNBGroup, loadBNBShared, dumpBNBShared, toUInt32_toUInt64, and_self]

/-- **C40 (Normal-Inverse-ChiSq).** -/
theorem C40_nich (s olds : NICH.Shared F) (smsg : NICHSharedMsg F) (g oldg : NICH.Group F)
    (gmsg : NICHGroupMsg F) (hg : InInt32 g.count) :
    loadNICHShared olds (dumpNICHShared s smsg) = s ∧
      loadNICHGroup oldg (dumpNICHGroup g gmsg) = g := by
  refine ⟨rfl, ?_⟩
  simp only [loadNICHGroup, dumpNICHGroup, u64ToInt_intToU64 hg]

/-- Converting through the wrong width would lose negative counts: the message of a group
with `heads = -1` holds `2^64 - 1`. -/
example : (dumpBBGroup ⟨-1, 3⟩ ⟨0, 0⟩).heads = 18446744073709551615 := by decide

/-! ## Dirichlet-Discrete -/

/-- **C40 (Dirichlet-Discrete), hyperparameters.** -/
theorem C40_dd_shared (maxDim : Nat) (s old : DD.Shared F) (msg : DDSharedMsg F)
    (h : s.alphas.length ≤ maxDim) : loadDDShared maxDim old (dumpDDShared s msg) = .ok s := by
  have e : dumpDDShared s msg = ⟨s.alphas⟩ := by
    simp only [dumpDDShared]; rw [foldl_append (fun a => a)]; simp
  rw [e, loadDDShared, distAssert0_of h]; rfl

/-- **C40 (Dirichlet-Discrete), groups.** Loading restores the counts and computes their
sum; so a group whose total is the sum of its counts is restored. -/
theorem C40_dd_group_partial (maxDim : Nat) (g old : DD.Group) (msg : DDGroupMsg)
    (h : g.counts.length ≤ maxDim) (hc : ∀ c ∈ g.counts, InInt32 c)
    (hb : (g.counts.map fun c => |c|).sum ≤ 2147483647) :
    loadDDGroup maxDim old (dumpDDGroup g msg) = .ok ⟨g.counts.sum, g.counts⟩ ∧
      (g.countSum = g.counts.sum → loadDDGroup maxDim old (dumpDDGroup g msg) = .ok g) := by
  have e : dumpDDGroup g msg = ⟨g.counts.map intToU64⟩ := by
    simp only [dumpDDGroup]; rw [foldl_append]; simp
  have main : loadDDGroup maxDim old (dumpDDGroup g msg) = .ok ⟨g.counts.sum, g.counts⟩ := by
    rw [e, loadDDGroup, distAssert0_of (by simpa using h), Res.ok_bind,
      loadDDLoop_eq _ hc _ _ (by simpa using hb)]
    simp
  refine ⟨main, fun ht => ?_⟩
  rw [main, ← ht]

/-- **C40, finding.** After a merge the total of a Dirichlet-Discrete group is stale (see
C27): a save and load changes it, and with it every later score. -/
theorem C40_dd_merged :
    ∃ g : DD.Group, DD.Group.merge ⟨1, [1, 0]⟩ ⟨2, [0, 2]⟩ = .ok g ∧
      ∃ g', loadDDGroup 256 g (dumpDDGroup g ⟨[]⟩) = .ok g' ∧ g'.counts = g.counts ∧
        g'.countSum ≠ g.countSum := by
  refine ⟨⟨1, [1, 2]⟩, by decide, ⟨3, [1, 2]⟩, ?_, rfl, by decide⟩
  exact (C40_dd_group_partial 256 ⟨1, [1, 2]⟩ _ _ (by decide) (by decide) (by decide)).1

example : (∀ c ∈ ([5, -3, 0] : List Int), InInt32 c) ∧
    (([5, -3, 0] : List Int).map fun c => |c|).sum ≤ 2147483647 := by decide

/-! ## Dirichlet-Process-Discrete -/

/-- **C40 (Dirichlet-Process-Discrete), groups.** Whatever order the table is visited in,
a group (with debt allowed) holding no zero entries and the right total is restored, as
long as the magnitudes of its counts add up within `int`. -/
theorem C40_dpd_group_partial (lvl : Nat) (g old : DPD.Group) (msg : DPDGroupMsg) (ks : List UInt32)
    (hks : g.map.Enum ks) (hnz : ∀ k, g.map.lookup k ≠ some 0)
    (htot : g.total = some (ks.map g.getCount).sum)
    (hb : (ks.map fun k => |g.getCount k|).sum ≤ 2147483647) :
    loadDPDGroup lvl old (dumpDPDGroup ks g msg) = .ok g := by
  have hrep : SparseCounter.Rep g ⟨g.getCount, (ks.map g.getCount).sum⟩ := by
    refine ⟨fun k => ?_, htot⟩
    show _ = if g.getCount k = 0 then none else some (g.getCount k)
    unfold SparseCounter.getCount
    rcases hl : g.map.lookup k with _ | v
    · rfl
    · have : v ≠ 0 := by rintro rfl; exact hnz k hl
      simp [this]
  have hk0 : ∀ k ∈ ks, g.getCount k ≠ 0 := fun k hk =>
    (hrep.mem_keys k).mp ((hks.mem k).mp hk)
  have he := hrep.entries hk0
  have hin : ∀ k ∈ ks, |g.getCount k| ≤ 2147483647 := fun k hk =>
    le_trans (List.single_le_sum (by
      intro x hx; simp only [List.mem_map] at hx
      obtain ⟨_, _, rfl⟩ := hx; exact abs_nonneg _) _ (List.mem_map.mpr ⟨k, hk, rfl⟩)) hb
  have hin' : ∀ k ∈ ks, InInt32 (g.getCount k) := fun k hk => by
    have := abs_le.mp (hin k hk)
    unfold InInt32 int32Min int32Max; omega
  rw [loadDPDGroup, distAssert_of (by simp [dumpDPDGroup]), Res.ok_bind]
  simp only [dumpDPDGroup]
  rw [he, loadDPDGroupLoop_eq _ (by
    intro e hx; obtain ⟨k, hk, rfl⟩ := List.mem_map.mp hx; exact hin' k hk)]
  obtain ⟨c', h1, h2⟩ := (SparseCounter.rep_clear old).mergeLoop
    (ks.map fun k => (k, g.getCount k))
    (by simpa [List.map_map, Function.comp_def] using hks.nodup)
    (by
      intro e hx; obtain ⟨k, hk, rfl⟩ := List.mem_map.mp hx
      simpa [SignedMultiset.empty] using hin' k hk)
    (by simpa [SignedMultiset.empty, List.map_map, Function.comp_def] using hb)
  have hc' : c' = g := by
    refine h2.unique (hrep.congr (fun k => ?_) ?_)
    · rw [SparseCounter.foldl_add_count, List.map_map]
      simp only [Function.comp_def, SignedMultiset.empty, zero_add]
      rw [SparseCounter.sum_ite_enum ks hks.nodup]
      split_ifs with h
      · rfl
      · by_contra hne
        exact h ((hks.mem k).mpr ((hrep.mem_keys k).mpr hne))
    · rw [SparseCounter.foldl_add_total]
      simp [SignedMultiset.empty, List.map_map, Function.comp_def]
  rw [h1, hc']

/-- In particular every group holding a multiset of at most `2^31 - 1` values. -/
theorem C40_dpd_group_holds (lvl : Nat) (g old : DPD.Group) (msg : DPDGroupMsg)
    (ks : List UInt32) (hks : g.map.Enum ks) (M : Multiset UInt32) (hM : g.Holds M)
    (hcard : M.card ≤ 2147483647) :
    loadDPDGroup lvl old (dumpDPDGroup ks g msg) = .ok g := by
  have hmem : ∀ k, k ∈ ks ↔ k ∈ M := fun k => (hks.mem k).trans (hM.mem_keys k)
  have hsum : (ks.map fun k => (M.count k : Int)).sum = M.card := by
    have h2 : M.card = ∑ k ∈ M.toFinset, M.count k := (Multiset.toFinset_sum_count_eq M).symm
    have h3 : M.toFinset = ks.toFinset := by ext k; simp [hmem]
    rw [h2, h3, List.sum_toFinset _ hks.nodup]
    push_cast
    rw [List.map_map]
    rfl
  refine C40_dpd_group_partial lvl g old msg ks hks ?_ ?_ ?_
  · intro k hk
    rw [hM.lookup] at hk
    split_ifs at hk with h
    have := Multiset.one_le_count_iff_mem.mpr h
    have := Option.some.inj hk
    omega
  · rw [show g.getCount = fun k => (M.count k : Int) from funext hM.getCount, hsum]
    exact SparseCounter.Rep.total hM
  · simp only [hM.getCount, Nat.abs_cast, hsum]; omega

/-- **C40, finding.** With debt the sum of magnitudes matters: this group has counts
`2^31 - 1`, 1 and -1, its total fits `int`, but loading its message overflows, in this
visiting order. -/
theorem C40_dpd_overflow (lvl : Nat) (old : DPD.Group) :
    loadDPDGroup lvl old
      (dumpDPDGroup [0, 1, 2]
        ⟨((FMap.empty.set 0 2147483647).set 1 1).set 2 (-1), some 2147483647⟩ ⟨[], []⟩) = .ub ∧
    loadDPDGroup lvl old
      (dumpDPDGroup [0, 2, 1]
        ⟨((FMap.empty.set 0 2147483647).set 1 1).set 2 (-1), some 2147483647⟩ ⟨[], []⟩) =
      .ok ⟨((FMap.empty.set 0 2147483647).set 1 1).set 2 (-1), some 2147483647⟩ := by
  have h1 : ∀ es : List (UInt32 × Int), (∀ e ∈ es, InInt32 e.2) →
      loadDPDGroup lvl old ⟨es.map (·.1), es.map fun e => intToU64 e.2⟩ =
        SparseCounter.mergeLoop (SparseCounter.clear old) es := by
    intro es h
    rw [loadDPDGroup, distAssert_of (by simp), Res.ok_bind, loadDPDGroupLoop_eq es h]
  constructor
  · show loadDPDGroup lvl old ⟨([(0, 2147483647), (1, 1), (2, -1)] : List (UInt32 × Int)).map (·.1),
      ([(0, 2147483647), (1, 1), (2, -1)] : List (UInt32 × Int)).map fun e => intToU64 e.2⟩ = _
    rw [h1 _ (by decide)]
    simp [SparseCounter.mergeLoop, SparseCounter.add, SparseCounter.clear, SparseCounter.bumpTotal,
      i32, InInt32, int32Min, int32Max]
  · show loadDPDGroup lvl old ⟨([(0, 2147483647), (2, -1), (1, 1)] : List (UInt32 × Int)).map (·.1),
      ([(0, 2147483647), (2, -1), (1, 1)] : List (UInt32 × Int)).map fun e => intToU64 e.2⟩ = _
    rw [h1 _ (by decide)]
    have : ((FMap.empty.set 0 2147483647).set 2 (-1)).set 1 1 =
        (((FMap.empty : FMap UInt32 Int).set 0 2147483647).set 1 1).set 2 (-1) := by
      ext k : 1
      simp only [FMap.lookup_set]
      by_cases h1 : k = 1
      · subst h1; rfl
      · by_cases h2 : k = 2 <;> simp [h1, h2]
    rw [← this]
    simp [SparseCounter.mergeLoop, SparseCounter.add, SparseCounter.clear, SparseCounter.bumpTotal,
      i32, InInt32, int32Min, int32Max]

/-- **C40 (Dirichlet-Process-Discrete), hyperparameters.** Whatever order the table is
visited in and with every float type: all members but `beta0` are restored, and `beta0` is
recomputed as `max(0, 1 - sum of betas)`. -/
theorem C40_dpd_shared_partial [FloatOps F] (lvl : Nat) (sh old : DPD.Shared F) (msg : DPDSharedMsg F)
    (ks : List UInt32) (hks : sh.betas.Enum ks)
    (hpos : ∀ k b, sh.betas.lookup k = some b → lt (ofInt 0) b = true)
    (hsum : le (((sh.betas.entries ks).map (·.2)).foldl (· + ·) (ofInt 0))
      (lit 1 1 + lit 1 10000 : F) = true)
    (hcnt : ∀ k, k ∉ sh.betas.keys → sh.counts.map.lookup k = none)
    (hnz : ∀ k, sh.counts.map.lookup k ≠ some 0)
    (htot : sh.counts.total = some (ks.map sh.counts.getCount).sum)
    (hb : (ks.map fun k => |sh.counts.getCount k|).sum ≤ 2147483647) :
    loadDPDShared lvl old (dumpDPDShared ks sh msg) =
      .ok ⟨sh.gamma, sh.alpha, DPD.Shared.maxf (ofInt 0)
        (lit 1 1 - ((sh.betas.entries ks).map (·.2)).foldl (· + ·) (ofInt 0)),
        sh.betas, sh.counts⟩ := by
  have hrep : SparseCounter.Rep sh.counts ⟨sh.counts.getCount, (ks.map sh.counts.getCount).sum⟩ := by
    refine ⟨fun k => ?_, htot⟩
    show _ = if sh.counts.getCount k = 0 then none else some (sh.counts.getCount k)
    unfold SparseCounter.getCount
    rcases hl : sh.counts.map.lookup k with _ | v
    · rfl
    · have : v ≠ 0 := by rintro rfl; exact hnz k hl
      simp [this]
  have hin' : ∀ k ∈ ks, InInt32 (sh.counts.getCount k) := fun k hk => by
    have := abs_le.mp (le_trans (List.single_le_sum (by
      intro x hx; simp only [List.mem_map] at hx
      obtain ⟨_, _, rfl⟩ := hx; exact abs_nonneg _) _
      (List.mem_map.mpr ⟨k, hk, rfl⟩ :
        |sh.counts.getCount k| ∈ ks.map fun k => |sh.counts.getCount k|)) hb)
    unfold InInt32 int32Min int32Max; omega
  have hmem : ∀ e ∈ sh.betas.entries ks, sh.betas.lookup e.1 = some e.2 ∧ e.1 ∈ ks := by
    intro e he
    simp only [FMap.entries, List.mem_filterMap, Option.map_eq_some_iff] at he
    obtain ⟨k, hk, v, hv, rfl⟩ := he
    exact ⟨hv, hk⟩
  have hfst : (sh.betas.entries ks).map Prod.fst = ks := by
    have : ∀ l : List UInt32, (∀ k ∈ l, k ∈ sh.betas.keys) →
        (sh.betas.entries l).map Prod.fst = l := by
      intro l
      induction l with
      | nil => intro _; rfl
      | cons k l ih =>
        intro h
        obtain ⟨v, hv⟩ := (FMap.mem_keys_iff _ _).mp (h k (by simp))
        have := ih fun x hx => h x (by simp [hx])
        unfold FMap.entries at this ⊢
        rw [List.filterMap_cons, hv]
        simp only [Option.map_some, List.map_cons, this]
    exact this ks fun k hk => (hks.mem k).mp hk
  have hmap : (sh.betas.entries ks).map (fun e => (e.1, sh.counts.getCount e.1)) =
      ks.map fun k => (k, sh.counts.getCount k) := by
    rw [← hfst, List.map_map, hfst]; rfl
  obtain ⟨c', h1, h2⟩ := (SparseCounter.rep_clear old.counts).mergeLoop
    (ks.map fun k => (k, sh.counts.getCount k))
    (by simpa [List.map_map, Function.comp_def] using hks.nodup)
    (by
      intro e hx; obtain ⟨k, hk, rfl⟩ := List.mem_map.mp hx
      simpa [SignedMultiset.empty] using hin' k hk)
    (by simpa [SignedMultiset.empty, List.map_map, Function.comp_def] using hb)
  have hc' : c' = sh.counts := by
    refine h2.unique (hrep.congr (fun k => ?_) ?_)
    · rw [SparseCounter.foldl_add_count, List.map_map]
      simp only [Function.comp_def, SignedMultiset.empty, zero_add]
      rw [SparseCounter.sum_ite_enum ks hks.nodup]
      split_ifs with h
      · rfl
      · have := hcnt k (fun hk => h ((hks.mem k).mpr hk))
        simp [SparseCounter.getCount, this]
    · rw [SparseCounter.foldl_add_total]
      simp [SignedMultiset.empty, List.map_map, Function.comp_def]
  have hl := loadDPDLoop_eq lvl (sh.betas.entries ks) sh.counts.getCount
    (fun e he => hin' e.1 (hmem e he).2) (fun e he => hpos e.1 e.2 (hmem e he).1)
    (by rw [hfst]; exact hks.nodup) FMap.empty (by simp) old.counts.clear c' (ofInt 0)
    (by rw [hmap]; exact h1)
  rw [refill _ _ hks, hc'] at hl
  have hf : (sh.betas.entries ks).foldl (fun s e => s + e.2) (ofInt 0) =
      ((sh.betas.entries ks).map (·.2)).foldl (· + ·) (ofInt 0) := by
    rw [List.foldl_map]
  rw [hf] at hl
  rw [loadDPDShared, distAssert0_of (by simp [dumpDPDShared]), Res.ok_bind,
    distAssert0_of (by simp [dumpDPDShared]), Res.ok_bind]
  simp only [dumpDPDShared]
  rw [hl, Res.ok_bind]
  simp only []
  rw [distAssert0_of hsum, Res.ok_bind, Res.pure_eq]

/-- In exact arithmetic the whole state is restored if the weights are a probability
distribution. -/
theorem C40_dpd_shared_exact (lvl : Nat) (gamma alpha : XR) (b0 : ℝ) (betas : FMap UInt32 XR)
    (w : UInt32 → ℝ) (counts : SparseCounter UInt32) (old : DPD.Shared XR)
    (msg : DPDSharedMsg XR) (ks : List UInt32) (hks : betas.Enum ks)
    (hw : ∀ k ∈ betas.keys, betas.lookup k = some (.fin (w k)) ∧ 0 < w k)
    (h0 : 0 ≤ b0) (h1 : b0 + ∑ k ∈ betas.keys, w k = 1)
    (hcnt : ∀ k, k ∉ betas.keys → counts.map.lookup k = none)
    (hnz : ∀ k, counts.map.lookup k ≠ some 0)
    (htot : counts.total = some (ks.map counts.getCount).sum)
    (hb : (ks.map fun k => |counts.getCount k|).sum ≤ 2147483647) :
    loadDPDShared lvl old (dumpDPDShared ks ⟨gamma, alpha, .fin b0, betas, counts⟩ msg) =
      .ok ⟨gamma, alpha, .fin b0, betas, counts⟩ := by
  have he : betas.entries ks = ks.map fun k => (k, XR.fin (w k)) := by
    rw [DPD.entries_known (.fin 0) fun k hk => (hks.mem k).mp hk]
    apply List.map_congr_left
    intro k hk
    rw [(hw k ((hks.mem k).mp hk)).1]; rfl
  have hfold : ∀ (l : List UInt32) (a : ℝ),
      (l.map fun k => XR.fin (w k)).foldl (· + ·) (XR.fin a) = .fin (a + (l.map w).sum) := by
    intro l
    induction l with
    | nil => simp
    | cons k l ih => intro a; simp [ih, add_assoc]
  have hs : (ks.map w).sum = 1 - b0 := by
    rw [← List.sum_toFinset _ hks.nodup, hks.toFinset]; linarith
  have hsum : ((betas.entries ks).map (·.2)).foldl (· + ·) (ofInt 0 : XR) = .fin (1 - b0) := by
    rw [he, List.map_map, XR.ofInt_eq, Int.cast_zero]
    show (ks.map fun k => XR.fin (w k)).foldl (· + ·) (XR.fin 0) = _
    rw [hfold, hs, zero_add]
  rw [C40_dpd_shared_partial lvl ⟨gamma, alpha, .fin b0, betas, counts⟩ old msg ks hks ?_ ?_ hcnt hnz htot hb]
  · have hm : DPD.Shared.maxf (ofInt 0) (lit 1 1 - XR.fin (1 - b0)) = XR.fin b0 := by
      simp only [DPD.Shared.maxf, XR.ofInt_eq, XR.lit_eq, XR.fin_sub, XR.lt_fin]
      norm_num
      intro h
      have : b0 = 0 := le_antisymm h h0
      rw [this]
    simp only [hsum, hm]
  · intro k b hk
    have hm := (FMap.mem_keys_iff _ _).mpr ⟨b, hk⟩
    obtain ⟨e, hp⟩ := hw k hm
    have hk' : betas.lookup k = some b := hk
    rw [e] at hk'
    obtain rfl := Option.some.inj hk'
    simp [XR.ofInt_eq, XR.lt_fin, hp]
  · rw [show (((⟨gamma, alpha, .fin b0, betas, counts⟩ : DPD.Shared XR).betas.entries ks).map
      (·.2)).foldl (· + ·) (ofInt 0 : XR) = .fin (1 - b0) from hsum]
    simp only [XR.lit_eq, XR.fin_add, XR.le_fin]
    norm_num
    linarith

/-- A state meeting the hypotheses: value 3 with weight 1/4 seen twice, 3/4 unassigned. -/
example (lvl : Nat) (old : DPD.Shared XR) (msg : DPDSharedMsg XR) :
    loadDPDShared lvl old (dumpDPDShared [3] ⟨.fin 1, .fin 1, .fin (3 / 4),
        FMap.empty.set 3 (.fin (1 / 4)), ⟨FMap.empty.set 3 2, some 2⟩⟩ msg) =
      .ok ⟨.fin 1, .fin 1, .fin (3 / 4), FMap.empty.set 3 (.fin (1 / 4)),
        ⟨FMap.empty.set 3 2, some 2⟩⟩ := by
  refine C40_dpd_shared_exact lvl _ _ _ _ (fun _ => 1 / 4) _ old msg [3] ⟨by simp, by simp⟩ ?_
    (by norm_num) ?_ ?_ ?_ rfl (by decide)
  · intro k hk
    simp only [FMap.keys_set, FMap.keys_empty, Finset.mem_insert, Finset.notMem_empty,
      or_false] at hk
    subst hk
    refine ⟨by simp, by norm_num⟩
  · simp; norm_num
  · intro k hk
    simp only [FMap.keys_set, FMap.keys_empty, Finset.mem_insert, Finset.notMem_empty,
      or_false] at hk
    simp [hk]
  · intro k
    rw [FMap.lookup_set]
    split_ifs <;> simp

/-- **C40, finding.** Counts of a value without a weight are not saved: here value 7 has
count 1 and no weight, and the loaded state has an empty table of counts. -/
theorem C40_dpd_lost (lvl : Nat) (old : DPD.Shared XR) :
    ∃ s, loadDPDShared lvl old
      (dumpDPDShared [] ⟨.fin 1, .fin 1, .fin 1, .empty, ⟨FMap.empty.set 7 1, some 1⟩⟩
        ⟨.fin 0, .fin 0, [], [], []⟩) = .ok s ∧ s.counts = ⟨.empty, some 0⟩ := by
  refine ⟨⟨.fin 1, .fin 1, .fin 1, .empty, ⟨.empty, some 0⟩⟩, ?_, rfl⟩
  rw [loadDPDShared, distAssert0_of (by rfl), Res.ok_bind, distAssert0_of (by rfl), Res.ok_bind]
  show (distAssert0 (le (ofInt 0 : XR) _ = true) >>= _) = _
  rw [distAssert0_of (by simp only [XR.ofInt_eq, XR.lit_eq, XR.fin_add, XR.le_fin]; norm_num)]
  have : DPD.Shared.maxf (ofInt 0) (lit 1 1 - ofInt 0 : XR) = .fin 1 := by
    simp only [DPD.Shared.maxf, XR.ofInt_eq, XR.lit_eq, XR.fin_sub, XR.lt_fin]
    norm_num
  rw [Res.ok_bind, Res.pure_eq, this]
  rfl

/-! ## Normal-Inverse-Wishart -/

namespace Proto

theorem listVec_vecList {d : Nat} (v : NIW.Vec F d) (h : (vecList v).length = d) :
    listVec (vecList v) h = v := by
  funext i; simp [listVec, vecList]

theorem listVec_of {d : Nat} (v : NIW.Vec F d) (l : List F) (h : l.length = d)
    (hl : l = vecList v) : listVec l h = v := by
  subst hl; exact listVec_vecList v h

theorem matList_eq {d : Nat} (m : NIW.Mat F d) : matList m = List.ofFn (fun k : Fin (d * d) =>
    m ⟨k.val / d, Nat.div_lt_of_lt_mul k.isLt⟩
      ⟨k.val % d, Nat.mod_lt _ (Nat.pos_of_ne_zero (by
        rintro rfl; exact absurd k.isLt (by simp)))⟩) := by
  rw [List.ofFn_mul, matList]
  congr 1
  congr 1
  funext i
  congr 1
  funext j
  have hj := j.isLt
  have hd : 0 < d := by omega
  congr 1
  · ext1; simp only []
    rw [Nat.mul_comm, Nat.mul_add_div hd, Nat.div_eq_of_lt hj, Nat.add_zero]
  · ext1; simp only []
    rw [Nat.mul_comm, Nat.mul_add_mod, Nat.mod_eq_of_lt hj]

theorem length_matList {d : Nat} (m : NIW.Mat F d) : (matList m).length = d * d := by
  rw [matList_eq]; simp

theorem listMat_matList {d : Nat} (m : NIW.Mat F d) (h : (matList m).length = d * d) :
    listMat (matList m) h = m := by
  funext i j
  have hj := j.isLt
  have hd : 0 < d := by omega
  simp only [listMat]
  have : ∀ (l : List F) (hl : l = matList m) (hlt : i.val * d + j.val < l.length),
      l[i.val * d + j.val]'hlt = m i j := by
    intro l hl hlt
    rw [matList_eq] at hl
    subst hl
    rw [List.getElem_ofFn]
    congr 1
    · ext1; simp only []
      rw [Nat.mul_comm, Nat.mul_add_div hd, Nat.div_eq_of_lt hj, Nat.add_zero]
    · ext1; simp only []
      rw [Nat.mul_comm, Nat.mul_add_mod, Nat.mod_eq_of_lt hj]
  exact this _ rfl _

end Proto

/-- **C40 (Normal-Inverse-Wishart), hyperparameters.** Every dimension, fixed or dynamic;
the dimension is recovered from the message. -/
theorem C40_niw_shared [FloatOps F] (lvl : Nat) {d : Nat} (fixed : Option Nat)
    (hf : fixed = some d ∨ fixed = none ∧ 0 < d) (spd : {d : Nat} → NIW.Mat F d → Bool)
    (s : NIW.Shared F d) (msg : NIWSharedMsg F) (hk : lt (ofInt 0) s.kappa = true)
    (hs : spd s.psi = true) (hn : lt (ofInt d - lit 1 1) s.nu = true) :
    loadNIWShared lvl fixed spd (dumpNIWShared s msg) = .ok ⟨d, s⟩ := by
  obtain ⟨mu, kappa, psi, nu⟩ := s
  have key : ∀ (l : List F) (q : List F) (hl : l = vecList mu) (hq : q = matList psi),
      loadNIWShared lvl fixed spd ⟨l, kappa, q, nu⟩ = .ok ⟨d, ⟨mu, kappa, psi, nu⟩⟩ := by
    intro l q hl hq
    have hlen : l.length = d := by rw [hl]; simp [vecList]
    subst hlen
    have h1 : checkRowOrColSize fixed l.length = .ok () := by
      rcases hf with rfl | ⟨rfl, h⟩
      · simp only [checkRowOrColSize]; rw [distAssert0_of trivial]
      · simp only [checkRowOrColSize]; exact distAssert0_of h
    have hq' : q.length = l.length * l.length := by rw [hq, length_matList]
    have hm : listMat q hq' = psi := by subst hq; exact listMat_matList psi hq'
    have hv : listVec l rfl = mu := listVec_of mu l rfl hl
    simp only [loadNIWShared]
    rw [h1, Res.ok_bind, distAssert0_of hk, Res.ok_bind, dif_pos hq', hm, distAssert_of hs,
      Res.ok_bind, distAssert0_of hn, Res.ok_bind, hv]
    rfl
  exact key _ _ rfl rfl

/-- **C40 (Normal-Inverse-Wishart), groups.** -/
theorem C40_niw_group (lvl : Nat) {d : Nat} (fixed : Option Nat)
    (hf : fixed = some d ∨ fixed = none ∧ 0 < d) (sym : {d : Nat} → NIW.Mat F d → Bool)
    (g : NIW.Group F d) (msg : NIWGroupMsg F) (hs : sym g.sumXXT = true) :
    loadNIWGroup lvl fixed sym (dumpNIWGroup g msg) = .ok ⟨d, g⟩ := by
  obtain ⟨n, s, m⟩ := g
  have key : ∀ (l : List F) (q : List F) (hl : l = vecList s) (hq : q = matList m),
      loadNIWGroup lvl fixed sym ⟨n, l, q⟩ = .ok ⟨d, ⟨n, s, m⟩⟩ := by
    intro l q hl hq
    have hlen : l.length = d := by rw [hl]; simp [vecList]
    subst hlen
    have h1 : checkRowOrColSize fixed l.length = .ok () := by
      rcases hf with rfl | ⟨rfl, h⟩
      · simp only [checkRowOrColSize]; rw [distAssert0_of trivial]
      · simp only [checkRowOrColSize]; exact distAssert0_of h
    have hq' : q.length = l.length * l.length := by rw [hq, length_matList]
    have hm : listMat q hq' = m := by subst hq; exact listMat_matList m hq'
    have hv : listVec l rfl = s := listVec_of s l rfl hl
    simp only [loadNIWGroup]
    rw [h1, Res.ok_bind, dif_pos hq', hm, distAssert_of hs, Res.ok_bind, hv]
    rfl
  exact key _ _ rfl rfl

end Dist
