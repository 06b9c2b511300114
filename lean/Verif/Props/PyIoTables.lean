import Verif.Props.PyIo
import Verif.Props.Protobuf

/-! # C79: Dirichlet-Process-Discrete dictionaries and messages of the Python bindings -/

namespace Dist.Py

open FloatOps FloatNotation Spec

variable {D F : Type} (c : Conv D F)

theorem toU32_inj {a b : Int} (ha : InInt32 a) (hb : InInt32 b) (h : toU32 a = toU32 b) : a = b := by
  rw [← ofU32_toU32 ha, h, ofU32_toU32 hb]

theorem toU32_toNat (u : UInt32) : toU32 (u.toNat : Int) = u := by
  have := u.toNat_lt
  apply UInt32.toNat_inj.mp
  unfold toU32 UInt32.ofInt
  rw [UInt32.toNat_ofNat']
  norm_num
  omega

theorem ofU32_small {u : UInt32} (h : u.toNat < 2 ^ 31) : ofU32 u = (u.toNat : Int) := by
  unfold ofU32; rw [Int.bmod_def]; omega

theorem ofU32_large {u : UInt32} (h : 2 ^ 31 ≤ u.toNat) : ofU32 u < 0 := by
  have := u.toNat_lt
  unfold ofU32; rw [Int.bmod_def]; omega

theorem inInt32_toNat {u : UInt32} : InInt32 (u.toNat : Int) ↔ u.toNat < 2 ^ 31 := by
  unfold InInt32 int32Min int32Max; omega

theorem sparse_add_fresh {V : Type} (lvl : Nat) (m : FMap UInt32 V) (k : UInt32) (v : V)
    (h : k ∉ m.keys) : Sparse.add lvl m k v = .ok (m.set k v) := by
  have hf : m.contains k = false := by
    rw [Bool.eq_false_iff]; intro h'
    exact h ((FMap.contains_iff _ _).mp h')
  rw [Sparse.add, distAssert_of hf, hf]
  rfl

theorem nodup_toU32 {es : List (Int × D)} (h : (es.map Prod.fst).Nodup)
    (hi : ∀ e ∈ es, InInt32 e.1) : (es.map fun e => toU32 e.1).Nodup := by
  rw [show (es.map fun e => toU32 e.1) = (es.map Prod.fst).map toU32 by
    rw [List.map_map]; rfl]
  refine List.Nodup.map_on ?_ h
  intro a ha b hb hab
  obtain ⟨x, hx, rfl⟩ := List.mem_map.mp ha
  obtain ⟨y, hy, rfl⟩ := List.mem_map.mp hb
  exact toU32_inj (hi x hx) (hi y hy) hab

/-- The first loop of `load` on distinct keys. -/
theorem loadBetas_eq (lvl : Nat) (es : List (Int × D)) (beta0 : D) (s : DPD.Shared F)
    (hi : ∀ e ∈ es, InInt32 e.1) (hnd : (es.map fun e => toU32 e.1).Nodup)
    (hf : ∀ e ∈ es, toU32 e.1 ∉ s.betas.keys) :
    loadBetas c lvl es beta0 s = .ok { s with
        betas := es.foldl (fun m e => m.set (toU32 e.1) (c.narrow e.2)) s.betas }
      (es.foldl (fun b e => c.sub b (c.widen (c.narrow e.2))) beta0) := by
  induction es generalizing beta0 s with
  | nil => rfl
  | cons e es ih =>
    obtain ⟨z, x⟩ := e
    simp only [List.map_cons, List.nodup_cons] at hnd
    have ih' := ih (c.sub beta0 (c.widen (c.narrow x)))
      { s with betas := s.betas.set (toU32 z) (c.narrow x) }
      (fun e he => hi e (by simp [he])) hnd.2 (by
        intro e he
        simp only [FMap.keys_set, Finset.mem_insert, not_or]
        refine ⟨fun h => hnd.1 ?_, hf e (by simp [he])⟩
        rw [← h]; exact List.mem_map.mpr ⟨e, he, rfl⟩)
    simp only [loadBetas, act_bind, asInt_of (hi (z, x) (by simp)), act_lift_ok, act_get,
      sparse_add_fresh lvl s.betas _ _ (hf (z, x) (by simp)), act_modify, ih', List.foldl_cons]

/-- The second loop of `load` is a merge. -/
theorem loadCounts_eq (es : List (Int × Int)) (s : DPD.Shared F) (m : SparseCounter UInt32)
    (hi : ∀ e ∈ es, InInt32 e.1) (hn : ∀ e ∈ es, InInt32 e.2)
    (h : SparseCounter.mergeLoop s.counts (es.map fun e => (toU32 e.1, e.2)) = .ok m) :
    loadCounts es s = .ok { s with counts := m } () := by
  induction es generalizing s with
  | nil =>
    simp only [List.map_nil, SparseCounter.mergeLoop, Res.ok.injEq] at h
    subst h; rfl
  | cons e es ih =>
    obtain ⟨z, n⟩ := e
    simp only [List.map_cons, SparseCounter.mergeLoop] at h
    rw [Res.bind_eq_ok] at h
    obtain ⟨p, hp, h⟩ := h
    have := ih { s with counts := p.2 } (fun e he => hi e (by simp [he]))
      (fun e he => hn e (by simp [he])) h
    simp only [loadCounts, act_bind, asInt_of (hi (z, n) (by simp)), asInt_of (hn (z, n) (by simp)),
      act_lift_ok, act_get, hp, act_modify, this]

theorem loadDPDShared_eq (lvl : Nat) (raw : DPDSharedRaw D) (old : DPD.Shared F)
    (m : SparseCounter UInt32) (hb : ∀ e ∈ raw.betas, InInt32 e.1)
    (hc : ∀ e ∈ raw.counts, InInt32 e.1) (hn : ∀ e ∈ raw.counts, InInt32 e.2)
    (hnd : (raw.betas.map fun e => toU32 e.1).Nodup)
    (hm : SparseCounter.mergeLoop old.counts.clear
      (raw.counts.map fun e => (toU32 e.1, e.2)) = .ok m) :
    loadDPDShared c lvl raw old = .ok ⟨c.narrow raw.gamma, c.narrow raw.alpha,
      c.narrow (raw.betas.foldl (fun b e => c.sub b (c.widen (c.narrow e.2))) c.one),
      raw.betas.foldl (fun m e => m.set (toU32 e.1) (c.narrow e.2)) .empty, m⟩ () := by
  have h1 := loadBetas_eq c lvl raw.betas c.one
    { old with gamma := c.narrow raw.gamma, alpha := c.narrow raw.alpha, betas := .empty,
               counts := old.counts.clear } hb hnd (by simp)
  have h2 := loadCounts_eq (F := F) raw.counts ⟨c.narrow raw.gamma, c.narrow raw.alpha,
      c.narrow (raw.betas.foldl (fun b e => c.sub b (c.widen (c.narrow e.2))) c.one),
      raw.betas.foldl (fun m e => m.set (toU32 e.1) (c.narrow e.2)) .empty, old.counts.clear⟩ m
      hc hn hm
  simp only [loadDPDShared, act_bind, act_modify, h1, h2]

theorem lookup_refill {V : Type} (es : List (UInt32 × V)) (hnd : (es.map Prod.fst).Nodup)
    (m : FMap UInt32 V) :
    (∀ e ∈ es, (es.foldl (fun m e => m.set e.1 e.2) m).lookup e.1 = some e.2) ∧
    ∀ k, k ∉ es.map Prod.fst → (es.foldl (fun m e => m.set e.1 e.2) m).lookup k = m.lookup k := by
  induction es generalizing m with
  | nil => simp
  | cons e es ih =>
    simp only [List.map_cons, List.nodup_cons] at hnd
    obtain ⟨h1, h2⟩ := ih hnd.2 (m.set e.1 e.2)
    refine ⟨?_, ?_⟩
    · intro x hx
      rcases List.mem_cons.mp hx with rfl | hx
      · rw [List.foldl_cons, h2 _ hnd.1]; simp
      · exact h1 x hx
    · intro k hk
      simp only [List.map_cons, List.mem_cons, not_or] at hk
      rw [List.foldl_cons, h2 k hk.2]
      simp [hk.1]

/-- **C79 (Dirichlet-Process-Discrete), loading.** A dictionary with integer keys and counts
that fit a C `int`, the counts adding up within it, loads: every weight is rounded to single
precision, every count is kept, negative keys count modulo `2^32`, and `beta0` becomes one
minus the weights, computed in double precision. -/
theorem C79_dpd_load (lvl : Nat) (raw : DPDSharedRaw D) (old : DPD.Shared F)
    (hb : ∀ e ∈ raw.betas, InInt32 e.1) (hc : ∀ e ∈ raw.counts, InInt32 e.1)
    (hndb : (raw.betas.map Prod.fst).Nodup) (hndc : (raw.counts.map Prod.fst).Nodup)
    (hs : (raw.counts.map fun e => |e.2|).sum ≤ 2147483647) :
    ∃ s, loadDPDShared c lvl raw old = .ok s () ∧
      s.gamma = c.narrow raw.gamma ∧ s.alpha = c.narrow raw.alpha ∧
      s.beta0 = c.narrow (raw.betas.foldl (fun b e => c.sub b (c.widen (c.narrow e.2))) c.one) ∧
      (∀ e ∈ raw.betas, s.betas.lookup (toU32 e.1) = some (c.narrow e.2)) ∧
      (∀ k, (∀ e ∈ raw.betas, toU32 e.1 ≠ k) → s.betas.lookup k = none) ∧
      (∀ e ∈ raw.counts, s.counts.getCount (toU32 e.1) = e.2) ∧
      (∀ k, (∀ e ∈ raw.counts, toU32 e.1 ≠ k) → s.counts.getCount k = 0) := by
  have hn : ∀ e ∈ raw.counts, InInt32 e.2 := by
    intro e he
    have := abs_le.mp (le_trans (List.single_le_sum (by
      intro x hx; simp only [List.mem_map] at hx
      obtain ⟨_, _, rfl⟩ := hx; exact abs_nonneg _) _
      (List.mem_map.mpr ⟨e, he, rfl⟩ : |e.2| ∈ raw.counts.map fun e => |e.2|)) hs)
    unfold InInt32 int32Min int32Max; omega
  have hndc' := nodup_toU32 hndc hc
  have hndb' := nodup_toU32 hndb hb
  obtain ⟨m, h1, h2⟩ := (SparseCounter.rep_clear old.counts).mergeLoop
    (raw.counts.map fun e => (toU32 e.1, e.2))
    (by simpa [List.map_map, Function.comp_def] using hndc')
    (by
      intro e hx; obtain ⟨k, hk, rfl⟩ := List.mem_map.mp hx
      simpa [SignedMultiset.empty] using hn k hk)
    (by simpa [SignedMultiset.empty, List.map_map, Function.comp_def] using hs)
  have hfold : raw.betas.foldl (fun (m : FMap UInt32 F) e => m.set (toU32 e.1) (c.narrow e.2)) .empty
      = (raw.betas.map fun e => (toU32 e.1, c.narrow e.2)).foldl (fun m e => m.set e.1 e.2)
        .empty := by rw [List.foldl_map]
  have hfst : (raw.betas.map fun e => (toU32 e.1, c.narrow e.2)).map Prod.fst =
      raw.betas.map fun e => toU32 e.1 := by rw [List.map_map]; rfl
  obtain ⟨l1, l2⟩ := lookup_refill (raw.betas.map fun e => (toU32 e.1, c.narrow e.2))
    (by rw [hfst]; exact hndb') .empty
  refine ⟨_, loadDPDShared_eq c lvl raw old m hb hc hn hndb' h1, rfl, rfl, rfl, ?_, ?_, ?_, ?_⟩
  · intro e he
    refine Eq.trans (congrArg (fun m => FMap.lookup m _) hfold) ?_
    exact l1 (toU32 e.1, c.narrow e.2) (List.mem_map.mpr ⟨e, he, rfl⟩)
  · intro k hk
    refine Eq.trans (congrArg (fun m => FMap.lookup m _) hfold) ?_
    rw [l2 k (by
      rw [hfst]; intro h
      obtain ⟨e, he, h⟩ := List.mem_map.mp h
      exact hk e he h)]
    rfl
  · intro e he
    show m.getCount _ = _
    rw [h2.getCount, SparseCounter.foldl_add_count]
    simp only [SignedMultiset.empty, zero_add, List.map_map, Function.comp_def]
    have : ∀ l : List (Int × Int), (l.map fun e => toU32 e.1).Nodup → e ∈ l →
        (l.map fun x => if toU32 x.1 = toU32 e.1 then x.2 else 0).sum = e.2 := by
      intro l
      induction l with
      | nil => simp
      | cons x l ih =>
        intro hnd hm
        simp only [List.map_cons, List.nodup_cons, List.sum_cons] at hnd ⊢
        rcases List.mem_cons.mp hm with rfl | hm
        · rw [if_pos rfl]
          have : (l.map fun x => if toU32 x.1 = toU32 e.1 then x.2 else 0).sum = 0 := by
            apply List.sum_eq_zero
            intro y hy
            obtain ⟨x, hx, rfl⟩ := List.mem_map.mp hy
            rw [if_neg]
            intro h; exact hnd.1 (h ▸ List.mem_map.mpr ⟨x, hx, rfl⟩)
          rw [this]; ring
        · rw [ih hnd.2 hm, if_neg]
          · ring
          · intro h; exact hnd.1 (h ▸ List.mem_map.mpr ⟨e, hm, rfl⟩)
    exact this _ hndc' he
  · intro k hk
    show m.getCount _ = _
    rw [h2.getCount, SparseCounter.foldl_add_count]
    simp only [SignedMultiset.empty, zero_add, List.map_map, Function.comp_def]
    apply List.sum_eq_zero
    intro y hy
    obtain ⟨x, hx, rfl⟩ := List.mem_map.mp hy
    rw [if_neg (hk x hx)]

/-- The key -1 stands for the value `0xFFFFFFFF` that the C++ reserves (`OTHER`), which
`Shared::add_value` refuses in a build with checks. -/
theorem C79_dpd_minus_one : toU32 (-1) = DPD.other := by decide

theorem map_fst_entries {V : Type} (m : FMap UInt32 V) {ks : List UInt32} (h : m.Enum ks) :
    (m.entries ks).map Prod.fst = ks := by
  have : ∀ l : List UInt32, (∀ k ∈ l, k ∈ m.keys) → (m.entries l).map Prod.fst = l := by
    intro l
    induction l with
    | nil => intro _; rfl
    | cons k l ih =>
      intro h
      obtain ⟨v, hv⟩ := (FMap.mem_keys_iff _ _).mp (h k (by simp))
      have := ih fun x hx => h x (by simp [hx])
      unfold FMap.entries at this ⊢
      rw [List.filterMap_cons, hv]
      simp only [Option.map_some, List.map_cons, this]
  exact this ks fun k hk => (h.mem k).mp hk

theorem mergeLoop_counts {V : Type} (m : FMap UInt32 V) {ks : List UInt32} (hks : m.Enum ks)
    (cnt old : SparseCounter UInt32)
    (hb : (ks.map fun k => |cnt.getCount k|).sum ≤ 2147483647) :
    ∃ c', SparseCounter.mergeLoop old.clear ((m.entries ks).map fun e => (e.1, cnt.getCount e.1)) =
      .ok c' ∧ c'.Rep ⟨fun k => if k ∈ m.keys then cnt.getCount k else 0,
        (ks.map cnt.getCount).sum⟩ := by
  have hmap : (m.entries ks).map (fun e => (e.1, cnt.getCount e.1)) =
      ks.map fun k => (k, cnt.getCount k) := by
    conv_rhs => rw [← map_fst_entries m hks, List.map_map]
    rfl
  rw [hmap]
  obtain ⟨c', h1, h2⟩ := (SparseCounter.rep_clear old).mergeLoop
    (ks.map fun k => (k, cnt.getCount k))
    (by simpa [List.map_map, Function.comp_def] using hks.nodup)
    (by
      intro e hx; obtain ⟨k, hk, rfl⟩ := List.mem_map.mp hx
      have := abs_le.mp (le_trans (List.single_le_sum (by
        intro x hx; simp only [List.mem_map] at hx
        obtain ⟨_, _, rfl⟩ := hx; exact abs_nonneg _) _
        (List.mem_map.mpr ⟨k, hk, rfl⟩ :
          |cnt.getCount k| ∈ ks.map fun k => |cnt.getCount k|)) hb)
      simp only [SignedMultiset.empty, Int.zero_add]
      unfold InInt32 int32Min int32Max; omega)
    (by simpa [SignedMultiset.empty, List.map_map, Function.comp_def] using hb)
  refine ⟨c', h1, h2.congr (fun k => ?_) ?_⟩
  · rw [SparseCounter.foldl_add_count, List.map_map]
    simp only [Function.comp_def, SignedMultiset.empty, zero_add]
    rw [SparseCounter.sum_ite_enum ks hks.nodup]
    simp only [hks.mem]
  · rw [SparseCounter.foldl_add_total]
    simp [SignedMultiset.empty, List.map_map, Function.comp_def]

/-- **C79 (Dirichlet-Process-Discrete), dictionary round trip.** Whatever order the table is
visited in and whatever the keys: the weights come back exactly, `beta0` is recomputed, and
of the counts only those of values with a weight survive. -/
theorem C79_dpd_shared (lvl : Nat) (sh old : DPD.Shared F) (ks : List UInt32)
    (hks : sh.betas.Enum ks)
    (hb : (ks.map fun k => |sh.counts.getCount k|).sum ≤ 2147483647) :
    ∃ s, loadDPDShared c lvl (dumpDPDShared c ks sh) old = .ok s () ∧
      s.gamma = sh.gamma ∧ s.alpha = sh.alpha ∧ s.betas = sh.betas ∧
      s.beta0 = c.narrow ((sh.betas.entries ks).foldl (fun b e => c.sub b (c.widen e.2)) c.one) ∧
      ∀ k, s.counts.getCount k = if k ∈ sh.betas.keys then sh.counts.getCount k else 0 := by
  obtain ⟨m, h1, h2⟩ := mergeLoop_counts sh.betas hks sh.counts old.counts hb
  have hin : ∀ e ∈ sh.betas.entries ks, InInt32 (sh.counts.getCount e.1) := by
    intro e he
    have hk : e.1 ∈ ks := by
      rw [← map_fst_entries sh.betas hks]; exact List.mem_map.mpr ⟨e, he, rfl⟩
    have := abs_le.mp (le_trans (List.single_le_sum (by
      intro x hx; simp only [List.mem_map] at hx
      obtain ⟨_, _, rfl⟩ := hx; exact abs_nonneg _) _
      (List.mem_map.mpr ⟨e.1, hk, rfl⟩ :
        |sh.counts.getCount e.1| ∈ ks.map fun k => |sh.counts.getCount k|)) hb)
    unfold InInt32 int32Min int32Max; omega
  have key := loadDPDShared_eq c lvl (dumpDPDShared c ks sh) old m
    (by
      intro e he
      obtain ⟨x, _, hx⟩ := List.mem_map.mp he
      rw [← hx]
      dsimp only
      exact inInt32_ofU32 x.1)
    (by
      intro e he
      obtain ⟨x, _, hx⟩ := List.mem_map.mp he
      rw [← hx]
      dsimp only
      exact inInt32_ofU32 x.1)
    (by
      intro e he
      obtain ⟨x, hx, rfl⟩ := List.mem_map.mp he
      simp only [toU32_ofU32]
      exact hin x hx)
    (by
      have : ((dumpDPDShared c ks sh).betas.map fun e => toU32 e.1) = ks := by
        rw [← map_fst_entries sh.betas hks]
        simp only [dumpDPDShared, List.map_map, Function.comp_def, toU32_ofU32,
          map_fst_entries sh.betas hks]
      rw [this]; exact hks.nodup)
    (by
      simp only [dumpDPDShared, List.map_map, Function.comp_def, toU32_ofU32]
      exact h1)
  refine ⟨_, key, ?_, ?_, ?_, ?_, ?_⟩
  · simp [dumpDPDShared, c.narrow_widen]
  · simp [dumpDPDShared, c.narrow_widen]
  · simp only [dumpDPDShared, List.foldl_map, toU32_ofU32, c.narrow_widen]
    exact Proto.refill _ _ hks
  · simp only [dumpDPDShared, List.foldl_map, c.narrow_widen]
  · intro k
    simp only [h2.getCount]

/-- **C79, finding.** A dictionary may hold the count of a value that has no weight; loading
keeps it and dumping loses it. -/
theorem C79_dpd_count_lost (gamma alpha : D) (z n : Int) (hz : InInt32 z) (hn0 : n ≠ 0)
    (hn : |n| ≤ 2147483647) (lvl : Nat) (old : DPD.Shared F) :
    ∃ s, loadDPDShared c lvl ⟨gamma, alpha, [], [(z, n)]⟩ old = .ok s () ∧
      s.counts.getCount (toU32 z) = n ∧
      ∀ ks, s.betas.Enum ks → (dumpDPDShared c ks s).counts = [] := by
  obtain ⟨s, h1, _, _, _, _, h2, h3, _⟩ := C79_dpd_load c lvl ⟨gamma, alpha, [], [(z, n)]⟩ old
    (by simp) (by simpa using hz) (by simp) (by simp) (by simpa using hn)
  refine ⟨s, h1, by simpa using h3, fun ks hks => ?_⟩
  have : ks = [] := by
    rw [List.eq_nil_iff_forall_not_mem]
    intro k hk
    obtain ⟨v, hv⟩ := (FMap.mem_keys_iff _ _).mp ((hks.mem k).mp hk)
    rw [h2 k (by simp)] at hv; cases hv
  subst this
  rfl

/-- Real numbers, never rounded. -/
noncomputable def exactConv : Conv ℝ ℝ := ⟨id, id, 1, (· - ·), fun _ => rfl⟩

/-- **C79.** Without rounding `beta0` is one minus the sum of the weights.  Nothing keeps it
from being negative, where the C++ `protobuf_load` takes the larger of this and zero. -/
theorem C79_dpd_beta0 (lvl : Nat) (raw : DPDSharedRaw ℝ) (old : DPD.Shared ℝ)
    (hb : ∀ e ∈ raw.betas, InInt32 e.1) (hc : ∀ e ∈ raw.counts, InInt32 e.1)
    (hndb : (raw.betas.map Prod.fst).Nodup) (hndc : (raw.counts.map Prod.fst).Nodup)
    (hs : (raw.counts.map fun e => |e.2|).sum ≤ 2147483647) :
    ∃ s, loadDPDShared exactConv lvl raw old = .ok s () ∧
      s.beta0 = 1 - (raw.betas.map Prod.snd).sum ∧
      (1 < (raw.betas.map Prod.snd).sum → s.beta0 < 0) := by
  obtain ⟨s, h1, _, _, h2, _⟩ := C79_dpd_load exactConv lvl raw old hb hc hndb hndc hs
  have : ∀ (l : List (Int × ℝ)) (b : ℝ),
      l.foldl (fun b e => exactConv.sub b (exactConv.widen (exactConv.narrow e.2))) b =
        b - (l.map Prod.snd).sum := by
    intro l
    induction l with
    | nil => intro b; simp
    | cons e l ih =>
      intro b
      rw [List.foldl_cons, ih]
      simp only [exactConv, id, List.map_cons, List.sum_cons]
      ring
  have e : s.beta0 = 1 - (raw.betas.map Prod.snd).sum := by
    rw [h2, this]; rfl
  exact ⟨s, h1, e, fun h => by rw [e]; linarith⟩

/-- The example of the bindings (distributions/lp/models/dpd.pyx:37-53) loads. -/
example (old : DPD.Shared ℝ) : ∃ s, loadDPDShared exactConv 1
    ⟨1 / 2, 1 / 2, [(0, 1 / 4), (7, 1 / 2), (8, 1 / 4)], [(0, 1), (7, 2), (8, 4)]⟩ old = .ok s () ∧
    s.beta0 = 0 ∧ s.betas.lookup 7 = some (1 / 2) ∧ s.counts.getCount 8 = 4 := by
  obtain ⟨s, h1, _, _, h2, h3, _, h4, _⟩ := C79_dpd_load exactConv 1
    ⟨1 / 2, 1 / 2, [(0, 1 / 4), (7, 1 / 2), (8, 1 / 4)], [(0, 1), (7, 2), (8, 4)]⟩ old
    (by intro e he; fin_cases he <;> (show InInt32 _) <;> decide)
    (by intro e he; fin_cases he <;> (show InInt32 _) <;> decide)
    (by simp) (by simp) (by simp)
  refine ⟨s, h1, ?_, h3 (7, 1 / 2) (by simp), h4 (8, 4) (by simp)⟩
  rw [h2]
  simp only [exactConv, id, List.foldl]
  norm_num

/-! ## Messages -/

/-- **C79 (Dirichlet-Process-Discrete), message round trip.** For values below `2^31` and
non-negative counts the message restores the weights and the counts of values with a
weight, and recomputes `beta0`. -/
theorem C79_dpd_message (lvl : Nat) (sh old : DPD.Shared F) (ks : List UInt32)
    (before : Proto.DPDSharedMsg F) (hks : sh.betas.Enum ks) (hk : ∀ k ∈ ks, k.toNat < 2 ^ 31)
    (hn : ∀ k ∈ ks, 0 ≤ sh.counts.getCount k)
    (hb : (ks.map fun k => sh.counts.getCount k).sum ≤ 2147483647) :
    ∃ msg s, pbDumpDPDShared c ks sh before = .ok msg ∧
      pbLoadDPDShared c lvl msg old = .ok s () ∧
      s.gamma = sh.gamma ∧ s.alpha = sh.alpha ∧ s.betas = sh.betas ∧
      s.beta0 = c.narrow ((sh.betas.entries ks).foldl (fun b e => c.sub b (c.widen e.2)) c.one) ∧
      ∀ k, s.counts.getCount k = if k ∈ sh.betas.keys then sh.counts.getCount k else 0 := by
  have habs : (ks.map fun k => |sh.counts.getCount k|) = ks.map fun k => sh.counts.getCount k :=
    List.map_congr_left fun k hk => abs_of_nonneg (hn k hk)
  obtain ⟨m, h1, h2⟩ := mergeLoop_counts sh.betas hks sh.counts old.counts (by rw [habs]; exact hb)
  have hmem : ∀ e ∈ sh.betas.entries ks, e.1 ∈ ks := by
    intro e he
    rw [← map_fst_entries sh.betas hks]; exact List.mem_map.mpr ⟨e, he, rfl⟩
  have hle : ∀ k ∈ ks, sh.counts.getCount k ≤ 2147483647 := by
    intro k hk
    refine le_trans (List.single_le_sum (by
      intro x hx; simp only [List.mem_map] at hx
      obtain ⟨y, hy, rfl⟩ := hx; exact hn y hy) _
      (List.mem_map.mpr ⟨k, hk, rfl⟩)) hb
  -- the message
  have hdump : ∀ (es : List (UInt32 × F)) (msg : Proto.DPDSharedMsg F), (∀ e ∈ es, e.1 ∈ ks) →
      pbDumpDPDLoop c sh.counts es msg = .ok { msg with
        values := msg.values ++ es.map (·.1), betas := msg.betas ++ es.map (·.2),
        counts := msg.counts ++ es.map fun e => UInt64.ofNat (sh.counts.getCount e.1).toNat } := by
    intro es
    induction es with
    | nil => intro msg _; simp [pbDumpDPDLoop]
    | cons e es ih =>
      intro msg he
      have hk1 := hk e.1 (he e (by simp))
      have hn1 := hn e.1 (he e (by simp))
      have hl1 := hle e.1 (he e (by simp))
      have f1 : asField 32 (ofU32 e.1) = .ok e.1.toNat := by
        rw [ofU32_small hk1]
        unfold asField
        rw [if_pos ⟨by omega, by norm_num; omega⟩]; simp
      have f2 : asField 64 (sh.counts.getCount e.1) = .ok (sh.counts.getCount e.1).toNat := by
        unfold asField
        rw [if_pos ⟨hn1, by norm_num; omega⟩]
      rw [pbDumpDPDLoop, f1, Res.ok_bind, toU32_ofU32, f2, Res.ok_bind,
        ih _ fun x hx => he x (by simp [hx])]
      simp [c.narrow_widen]
  have hload : ∀ (es : List (UInt32 × F)) (beta0 : D) (s : DPD.Shared F) (m : SparseCounter UInt32),
      (∀ e ∈ es, e.1 ∈ ks) → (es.map Prod.fst).Nodup → (∀ e ∈ es, e.1 ∉ s.betas.keys) →
      SparseCounter.mergeLoop s.counts (es.map fun e => (e.1, sh.counts.getCount e.1)) = .ok m →
      pbLoadDPDLoop c lvl (es.map (·.1)) (es.map (·.2))
        (es.map fun e => UInt64.ofNat (sh.counts.getCount e.1).toNat) beta0 s =
        .ok { s with betas := es.foldl (fun m e => m.set e.1 e.2) s.betas, counts := m }
          (es.foldl (fun b e => c.sub b (c.widen e.2)) beta0) := by
    intro es
    induction es with
    | nil =>
      intro beta0 s m _ _ _ hm
      simp only [List.map_nil, SparseCounter.mergeLoop, Res.ok.injEq] at hm
      subst hm; rfl
    | cons e es ih =>
      intro beta0 s m he hnd hf hm
      simp only [List.map_cons, List.nodup_cons] at hnd
      have hk1 := hk e.1 (he e (by simp))
      have hn1 := hn e.1 (he e (by simp))
      have hl1 := hle e.1 (he e (by simp))
      have g1 : asInt (e.1.toNat : Int) = .ok (e.1.toNat : Int) := asInt_of (inInt32_toNat.2 hk1)
      have g2 : asInt ((UInt64.ofNat (sh.counts.getCount e.1).toNat).toNat : Int) =
          .ok (sh.counts.getCount e.1) := by
        have : ((UInt64.ofNat (sh.counts.getCount e.1).toNat).toNat : Int) =
            sh.counts.getCount e.1 := by
          rw [UInt64.toNat_ofNat', Nat.mod_eq_of_lt (by omega)]; omega
        rw [this]; exact asInt_of (by unfold InInt32 int32Min int32Max; omega)
      simp only [List.map_cons, SparseCounter.mergeLoop] at hm
      rw [Res.bind_eq_ok] at hm
      obtain ⟨p, hp, hm⟩ := hm
      have := ih (c.sub beta0 (c.widen e.2))
        { s with betas := s.betas.set e.1 e.2, counts := p.2 } m
        (fun x hx => he x (by simp [hx])) hnd.2 (by
          intro x hx
          simp only [FMap.keys_set, Finset.mem_insert, not_or]
          refine ⟨fun h => hnd.1 ?_, hf x (by simp [hx])⟩
          rw [← h]; exact List.mem_map.mpr ⟨x, hx, rfl⟩) hm
      simp only [List.map_cons, pbLoadDPDLoop, act_bind, g1, act_lift_ok, act_get, toU32_toNat,
        c.narrow_widen, sparse_add_fresh lvl s.betas _ _ (hf e (by simp)), act_modify, g2, hp,
        List.tail_cons, this, List.foldl_cons]
  have hfst := map_fst_entries sh.betas hks
  refine ⟨⟨sh.gamma, sh.alpha, (sh.betas.entries ks).map (·.1), (sh.betas.entries ks).map (·.2),
    (sh.betas.entries ks).map fun e => UInt64.ofNat (sh.counts.getCount e.1).toNat⟩,
    ⟨sh.gamma, sh.alpha, c.narrow ((sh.betas.entries ks).foldl
      (fun b e => c.sub b (c.widen e.2)) c.one), sh.betas, m⟩, ?_, ?_, rfl, rfl, rfl, rfl, ?_⟩
  · rw [pbDumpDPDShared, hdump _ _ hmem]
    simp [c.narrow_widen]
  · have := hload (sh.betas.entries ks) c.one
      { old with gamma := sh.gamma, alpha := sh.alpha, betas := .empty,
                 counts := old.counts.clear } m hmem (by rw [hfst]; exact hks.nodup) (by simp) h1
    simp only [Proto.refill _ _ hks] at this
    simp only [pbLoadDPDShared, act_bind, act_modify, c.narrow_widen, this]
  · intro k
    simp only [h2.getCount]

/-- **C79, finding.** A value of at least `2^31` makes `protobuf_dump` raise `ValueError`,
though the C++ `protobuf_dump` writes it; and such a message makes `protobuf_load` raise
`OverflowError`. -/
theorem C79_dpd_message_large (lvl : Nat) (sh old : DPD.Shared F) (ks : List UInt32)
    (before : Proto.DPDSharedMsg F) (hks : sh.betas.Enum ks) (k : UInt32) (hk : k ∈ ks)
    (hl : 2 ^ 31 ≤ k.toNat) (vs : List UInt32) (b : F) (bs : List F) (ns : List UInt64) :
    pbDumpDPDShared c ks sh before = .fail ∧
    ∃ s, pbLoadDPDShared c lvl ⟨sh.gamma, sh.alpha, k :: vs, b :: bs, ns⟩ old = .fail s := by
  have hfst := map_fst_entries sh.betas hks
  refine ⟨?_, ?_⟩
  · have : ∀ (es : List (UInt32 × F)) (msg : Proto.DPDSharedMsg F), (∃ e ∈ es, 2 ^ 31 ≤ e.1.toNat) →
        pbDumpDPDLoop c sh.counts es msg = .fail := by
      intro es
      induction es with
      | nil => rintro msg ⟨e, he, _⟩; simp at he
      | cons e es ih =>
        rintro msg ⟨x, hx, hxl⟩
        rw [pbDumpDPDLoop]
        by_cases h1 : 2 ^ 31 ≤ e.1.toNat
        · have : asField 32 (ofU32 e.1) = .fail := by
            unfold asField; rw [if_neg]; have := ofU32_large h1; omega
          rw [this]; rfl
        · have : asField 32 (ofU32 e.1) = .ok e.1.toNat := by
            rw [ofU32_small (by omega)]
            unfold asField
            rw [if_pos ⟨by omega, by norm_num; omega⟩]; simp
          rw [this, Res.ok_bind]
          unfold asField
          split_ifs
          · rw [Res.ok_bind]
            refine ih _ ⟨x, ?_, hxl⟩
            rcases List.mem_cons.mp hx with rfl | hx
            · exact absurd hxl h1
            · exact hx
          · rfl
    refine this _ _ ?_
    rw [← hfst] at hk
    obtain ⟨e, he, rfl⟩ := List.mem_map.mp hk
    exact ⟨e, he, hl⟩
  · have h1 : asInt (k.toNat : Int) = .fail :=
      asInt_not (by rw [inInt32_toNat]; omega)
    exact ⟨{ old with gamma := c.narrow (c.widen sh.gamma), alpha := c.narrow (c.widen sh.alpha),
                      betas := .empty, counts := old.counts.clear },
      by simp only [pbLoadDPDShared, act_bind, act_modify, pbLoadDPDLoop, h1, act_lift_fail]⟩

/-! ## Groups -/

theorem loadDPDGroupLoop_rep (lvl : Nat) (es : List (UInt32 × Int)) (g : DPD.Group)
    (s : SignedMultiset UInt32) (h : g.Rep s) (hnd : (es.map Prod.fst).Nodup)
    (hf : ∀ e ∈ es, s.count e.1 = 0)
    (hb : |s.total| + (es.map fun e => |e.2|).sum ≤ 2147483647) :
    ((∀ e ∈ es, e.1.toNat < 2 ^ 31) →
      ∃ g', loadDPDGroupLoop lvl (es.map fun e => ((e.1.toNat : Int), e.2)) g = .ok g' () ∧
        g'.Rep (es.foldl (fun s e => s.add e.1 e.2) s)) ∧
    ((∃ e ∈ es, 2 ^ 31 ≤ e.1.toNat) →
      ∃ g', loadDPDGroupLoop lvl (es.map fun e => ((e.1.toNat : Int), e.2)) g = .fail g') := by
  induction es generalizing g s with
  | nil => exact ⟨fun _ => ⟨g, rfl, h⟩, by rintro ⟨e, he, _⟩; simp at he⟩
  | cons e es ih =>
    simp only [List.map_cons, List.nodup_cons, List.sum_cons] at hnd hb
    have hnn : 0 ≤ (es.map fun e => |e.2|).sum := List.sum_nonneg (by
      intro x hx; simp only [List.mem_map] at hx
      obtain ⟨_, _, rfl⟩ := hx; exact abs_nonneg _)
    have ht := abs_nonneg s.total
    have habs : |s.total + e.2| ≤ |s.total| + |e.2| := abs_add_le _ _
    have h1 := abs_le.mp (show |s.total + e.2| ≤ 2147483647 by omega)
    have h2 := abs_le.mp (show |e.2| ≤ 2147483647 by omega)
    by_cases hk : e.1.toNat < 2 ^ 31
    · obtain ⟨g1, hg1, hr1⟩ := h.initCount lvl (hf e (by simp)) (v := e.2)
        (by unfold InInt32 int32Min int32Max; omega)
      obtain ⟨ih1, ih2⟩ := ih g1 (s.add e.1 e.2) hr1 hnd.2 (by
          intro x hx
          have hne : x.1 ≠ e.1 := fun h => hnd.1 (h ▸ List.mem_map.mpr ⟨x, hx, rfl⟩)
          have := hf x (by simp [hx])
          simp only [SignedMultiset.add, hne, if_false]
          simpa using this)
        (by
          show |s.total + e.2| + _ ≤ _
          omega)
      have hstep : ∀ rest, loadDPDGroupLoop lvl (((e.1.toNat : Int), e.2) :: rest) g =
          loadDPDGroupLoop lvl rest g1 := by
        intro rest
        simp only [loadDPDGroupLoop, act_bind, asInt_of (inInt32_toNat.2 hk),
          asInt_of (show InInt32 e.2 by unfold InInt32 int32Min int32Max; omega), act_lift_ok,
          act_get, toU32_toNat, hg1, act_modify]
      rw [List.map_cons, hstep]
      refine ⟨fun ha => ih1 fun x hx => ha x (by simp [hx]), ?_⟩
      rintro ⟨x, hx, hxl⟩
      refine ih2 ⟨x, ?_, hxl⟩
      rcases List.mem_cons.mp hx with rfl | hx
      · omega
      · exact hx
    · refine ⟨fun ha => absurd (ha e (by simp)) hk, fun _ => ⟨g, ?_⟩⟩
      rw [List.map_cons]
      simp only [loadDPDGroupLoop, act_bind,
        asInt_not (show ¬ InInt32 (e.1.toNat : Int) by rw [inInt32_toNat]; exact hk),
        act_lift_fail]

/-- **C79 (Dirichlet-Process-Discrete), groups.** A dumped group loads back exactly when all
its values are below `2^31`; when one is not, `load` raises `OverflowError`, because `dump`
writes the values unsigned and `load` reads them as C `int`. -/
theorem C79_dpd_group (lvl : Nat) (g old : DPD.Group) (ks : List UInt32)
    (hks : g.map.Enum ks) (hnz : ∀ k, g.map.lookup k ≠ some 0)
    (htot : g.total = some (ks.map g.getCount).sum)
    (hb : (ks.map fun k => |g.getCount k|).sum ≤ 2147483647) :
    ((∀ k ∈ ks, k.toNat < 2 ^ 31) → loadDPDGroup lvl (dumpDPDGroup ks g) old = .ok g ()) ∧
    ((∃ k ∈ ks, 2 ^ 31 ≤ k.toNat) →
      ∃ s, loadDPDGroup lvl (dumpDPDGroup ks g) old = .fail s) := by
  have hrep : SparseCounter.Rep g ⟨g.getCount, (ks.map g.getCount).sum⟩ := by
    refine ⟨fun k => ?_, htot⟩
    show _ = if g.getCount k = 0 then none else some (g.getCount k)
    unfold SparseCounter.getCount
    rcases hl : g.map.lookup k with _ | v
    · rfl
    · have : v ≠ 0 := by rintro rfl; exact hnz k hl
      simp [this]
  have hk0 : ∀ k ∈ ks, g.getCount k ≠ 0 := fun k hk =>
    (hrep.mem_keys k).mp ((hks.mem k).mp hk)
  have he := hrep.entries hk0
  simp only at he
  obtain ⟨l1, l2⟩ := loadDPDGroupLoop_rep lvl (ks.map fun k => (k, g.getCount k)) old.clear .empty
    (SparseCounter.rep_clear old) (by simpa [List.map_map, Function.comp_def] using hks.nodup)
    (by simp [SignedMultiset.empty])
    (by simpa [SignedMultiset.empty, List.map_map, Function.comp_def] using hb)
  have hload : loadDPDGroup lvl (dumpDPDGroup ks g) old = loadDPDGroupLoop lvl
      ((ks.map fun k => (k, g.getCount k)).map fun e => ((e.1.toNat : Int), e.2)) old.clear := by
    rw [dumpDPDGroup, he]
    simp only [loadDPDGroup, act_bind, act_modify]
  rw [hload]
  refine ⟨fun ha => ?_, fun ⟨k, hk, hkl⟩ =>
    l2 ⟨(k, g.getCount k), List.mem_map.mpr ⟨k, hk, rfl⟩, hkl⟩⟩
  obtain ⟨g', h1, h2⟩ := l1 (by
    intro e hx; obtain ⟨k, hk, rfl⟩ := List.mem_map.mp hx; exact ha k hk)
  have hc' : g' = g := by
    refine h2.unique (hrep.congr (fun k => ?_) ?_)
    · rw [SparseCounter.foldl_add_count, List.map_map]
      simp only [Function.comp_def, SignedMultiset.empty, zero_add]
      rw [SparseCounter.sum_ite_enum ks hks.nodup]
      split_ifs with h
      · rfl
      · by_contra hne
        exact h ((hks.mem k).mpr ((hrep.mem_keys k).mpr hne))
    · rw [SparseCounter.foldl_add_total]
      simp [SignedMultiset.empty, List.map_map, Function.comp_def]
  rw [h1, hc']

/-- Not vacuous: one value held twice, small or large. -/
example (old : DPD.Group) :
    loadDPDGroup 1 (dumpDPDGroup [7] ⟨FMap.empty.set 7 2, some 2⟩) old =
      .ok ⟨FMap.empty.set 7 2, some 2⟩ () ∧
    ∃ s, loadDPDGroup 1 (dumpDPDGroup [3000000000] ⟨FMap.empty.set 3000000000 2, some 2⟩) old =
      .fail s := by
  have hen : ∀ k : UInt32, ((FMap.empty : FMap UInt32 Int).set k 2).Enum [k] := fun k =>
    ⟨by simp, by simp⟩
  have hz : ∀ k x : UInt32, ((FMap.empty : FMap UInt32 Int).set k 2).lookup x ≠ some 0 := by
    intro k x; simp only [FMap.lookup_set]; split_ifs <;> simp
  refine ⟨(C79_dpd_group 1 _ old [7] (hen 7) (hz 7) (by simp [SparseCounter.getCount])
    (by simp [SparseCounter.getCount])).1 ?_, (C79_dpd_group 1 _ old [3000000000] (hen _) (hz _)
    (by simp [SparseCounter.getCount]) (by simp [SparseCounter.getCount])).2 ?_⟩
  · intro k hk; rw [List.mem_singleton.mp hk]; decide
  · exact ⟨3000000000, by simp, by decide⟩

end Dist.Py
