import Verif.Model.Close
import Verif.Base.XR
import Mathlib.Data.List.Sort
import Mathlib.Data.List.NodupEquivFin

/-!
# C53: closeness of messages
-/

namespace Dist

open Proto FloatOps FloatNotation

namespace Proto

theorem fabs_fin (a : ℝ) : (fabs (.fin a) : XR) = .fin |a| := by
  unfold fabs
  rw [XR.ofInt_eq]
  rcases lt_or_ge a 0 with h | h
  · rw [if_pos (by rw [XR.lt_fin]; simpa using h), XR.fin_neg, abs_of_neg h]
  · rw [if_neg (by rw [XR.lt_fin]; simpa using h), abs_of_nonneg h]

theorem fabs_nan : (fabs .nan : XR) = .nan := by
  unfold fabs; rfl

/-- The comparison in exact arithmetic. -/
theorem closeF_fin (a b : ℝ) :
    closeF (.fin a) (.fin b : XR) = true ↔ |a - b| ≤ (1 + |a| + |b|) * (1 / 10) := by
  unfold closeF
  rw [XR.fin_sub, fabs_fin, fabs_fin, fabs_fin]
  simp only [XR.ofInt_eq, XR.fin_add, XR.lit_eq, XR.fin_mul, XR.le_fin]
  norm_num

theorem closeF_nan_left (x : XR) : closeF .nan x = false := by
  unfold closeF; rw [XR.nan_sub, fabs_nan]; rfl

theorem closeF_nan_right (x : XR) : closeF x .nan = false := by
  unfold closeF; rw [XR.sub_nan, fabs_nan]; rfl

theorem closeF_refl (a : ℝ) : closeF (.fin a) (.fin a : XR) = true := by
  rw [closeF_fin, sub_self, abs_zero]; positivity

theorem closeF_symm (x y : XR) : closeF x y = closeF y x := by
  cases x with
  | nan => rw [closeF_nan_left, closeF_nan_right]
  | fin a =>
    cases y with
    | nan => rw [closeF_nan_left, closeF_nan_right]
    | fin b =>
      rw [Bool.eq_iff_iff, closeF_fin, closeF_fin, abs_sub_comm a b,
        add_assoc, add_comm |a| |b|, ← add_assoc]

theorem closeLoop_symm {α : Type} {close : α → α → Bool} (h : ∀ x y, close x y = close y x) :
    ∀ xs ys, closeLoop close xs ys = closeLoop close ys xs
  | [], [] => rfl
  | [], _ :: _ => rfl
  | _ :: _, [] => rfl
  | x :: xs, y :: ys => by unfold closeLoop; rw [h x y, closeLoop_symm h xs ys]

theorem closeList_symm {α : Type} {close : α → α → Bool} (h : ∀ x y, close x y = close y x)
    (xs ys : List α) : closeList close xs ys = closeList close ys xs := by
  unfold closeList
  rw [closeLoop_symm h]
  simp only [ne_eq, eq_comm]

theorem closeList_refl {α : Type} {close : α → α → Bool} {xs : List α}
    (h : ∀ x ∈ xs, close x x = true) : closeList close xs xs = true := by
  unfold closeList
  rw [if_neg (by simp)]
  induction xs with
  | nil => rfl
  | cons x xs ih =>
    unfold closeLoop
    rw [h x (by simp), if_pos rfl, ih fun y hy => h y (by simp [hy])]

theorem closePair_symm {α β : Type} {c1 : α → α → Bool} {c2 : β → β → Bool}
    (h1 : ∀ x y, c1 x y = c1 y x) (h2 : ∀ x y, c2 x y = c2 y x) (x y : α × β) :
    closePair c1 c2 x y = closePair c1 c2 y x := by
  unfold closePair; rw [h1, h2]

theorem decideEq_symm {α : Type} [DecidableEq α] (x y : α) : decide (x = y) = decide (y = x) := by
  simp only [eq_comm]

theorem zipField_ok {α : Type} {keys : List UInt32} {field : List α}
    (h : keys.length ≤ field.length) : zipField keys field = .ok (keys.zip field) := if_pos h

end Proto

/-- The number is not a NaN. -/
def Spec.Finite (x : XR) : Prop := ∃ r, x = .fin r

/-- What `std::sort` guarantees on pairs with distinct first components, whatever the second
components are (so also for NaN): a permutation in increasing order of the first components. -/
def Spec.SortsByKey {α : Type} (sort : List (UInt32 × α) → List (UInt32 × α)) : Prop :=
  ∀ l : List (UInt32 × α), (l.map Prod.fst).Nodup →
    (sort l).Perm l ∧ (sort l).Pairwise fun a b => a.1 ≤ b.1

namespace Proto

theorem sort_unique {α : Type} {sort : List (UInt32 × α) → List (UInt32 × α)}
    (hs : Spec.SortsByKey sort) {l l' : List (UInt32 × α)} (hn : (l.map Prod.fst).Nodup)
    (hp : l.Perm l') : sort l = sort l' := by
  have hn' : (l'.map Prod.fst).Nodup := (hp.map _).nodup_iff.mp hn
  obtain ⟨p1, s1⟩ := hs l hn
  obtain ⟨p2, s2⟩ := hs l' hn'
  have hpp : (sort l).Perm (sort l') := p1.trans (hp.trans p2.symm)
  refine List.Perm.eq_of_pairwise ?_ s1 s2 hpp
  intro a b ha hb h1 h2
  have hkey : a.1 = b.1 := UInt32.le_antisymm h1 h2
  have ha' : a ∈ l := p1.mem_iff.mp ha
  have hb' : b ∈ l := hp.mem_iff.mpr (p2.mem_iff.mp hb)
  exact List.inj_on_of_nodup_map hn ha' hb' hkey

end Proto

/-- **C53, order of dumping, DPD shared parameters.** Reordering the entries of a message
(value, weight and count together) changes no comparison, on either side; bit for bit, with
any floating point and any sort that meets the contract of `std::sort`. -/
theorem C53_dpd_shared_order {F : Type} [FloatOps F]
    (sort1 : List (UInt32 × F) → List (UInt32 × F))
    (sort2 : List (UInt32 × UInt64) → List (UInt32 × UInt64))
    (h1 : Spec.SortsByKey sort1) (h2 : Spec.SortsByKey sort2) (gamma alpha : F)
    (ts ts' : List (UInt32 × F × UInt64)) (hn : (ts.map Prod.fst).Nodup) (hp : ts.Perm ts')
    (y : DPDSharedMsg F) :
    let msg (l : List (UInt32 × F × UInt64)) : DPDSharedMsg F :=
      ⟨gamma, alpha, l.map (·.1), l.map (·.2.1), l.map (·.2.2)⟩
    closeDPDShared sort1 sort2 (msg ts) y = closeDPDShared sort1 sort2 (msg ts') y ∧
    closeDPDShared sort1 sort2 y (msg ts) = closeDPDShared sort1 sort2 y (msg ts') := by
  intro msg
  have z1 : ∀ l, zipField (msg l).values (msg l).betas = .ok (l.map fun t => (t.1, t.2.1)) := by
    intro l
    rw [zipField_ok (by simp [msg])]
    simp only [msg, List.zip_map', Res.ok.injEq]
  have z2 : ∀ l, zipField (msg l).values (msg l).counts = .ok (l.map fun t => (t.1, t.2.2)) := by
    intro l
    rw [zipField_ok (by simp [msg])]
    simp only [msg, List.zip_map', Res.ok.injEq]
  have e1 : sort1 (ts.map fun t => (t.1, t.2.1)) = sort1 (ts'.map fun t => (t.1, t.2.1)) :=
    sort_unique h1 (by simpa [Function.comp_def] using hn) (hp.map _)
  have e2 : sort2 (ts.map fun t => (t.1, t.2.2)) = sort2 (ts'.map fun t => (t.1, t.2.2)) :=
    sort_unique h2 (by simpa [Function.comp_def] using hn) (hp.map _)
  have hl : (msg ts).values.length = (msg ts').values.length := by
    simp only [msg, List.length_map]; exact hp.length_eq
  unfold closeDPDShared
  simp only [z1, z2, hl, Res.ok_bind, e1, e2]
  exact ⟨rfl, rfl⟩

/-- **C53, order of dumping, DPD groups.** -/
theorem C53_dpd_group_order (sort : List (UInt32 × UInt32) → List (UInt32 × UInt32))
    (h : Spec.SortsByKey sort) (ts ts' : List (UInt32 × UInt64)) (hn : (ts.map Prod.fst).Nodup)
    (hp : ts.Perm ts') (y : DPDGroupMsg) :
    let msg (l : List (UInt32 × UInt64)) : DPDGroupMsg := ⟨l.map (·.1), l.map (·.2)⟩
    closeDPDGroup sort (msg ts) y = closeDPDGroup sort (msg ts') y ∧
    closeDPDGroup sort y (msg ts) = closeDPDGroup sort y (msg ts') := by
  intro msg
  have z : ∀ l, zipField (msg l).keys ((msg l).values.map UInt64.toUInt32) =
      .ok (l.map fun t => (t.1, t.2.toUInt32)) := by
    intro l
    rw [zipField_ok (by simp [msg])]
    simp only [msg, List.map_map, List.zip_map', Res.ok.injEq]
    rfl
  have e : sort (ts.map fun t => (t.1, t.2.toUInt32)) =
      sort (ts'.map fun t => (t.1, t.2.toUInt32)) :=
    sort_unique h (by simpa [Function.comp_def] using hn) (hp.map _)
  have hl : (msg ts).keys.length = (msg ts').keys.length := by
    simp only [msg, List.length_map]; exact hp.length_eq
  unfold closeDPDGroup
  simp only [z, hl, Res.ok_bind, e]
  exact ⟨trivial, trivial⟩

/-- Insertion sort by the first component meets the contract. -/
theorem Proto.insertionSort_sortsByKey {α : Type} :
    Spec.SortsByKey fun l : List (UInt32 × α) => l.insertionSort fun a b => a.1 ≤ b.1 := by
  intro l _
  haveI : Std.Total fun a b : UInt32 × α => a.1 ≤ b.1 := ⟨fun a b => UInt32.le_total _ _⟩
  haveI : IsTrans (UInt32 × α) fun a b => a.1 ≤ b.1 := ⟨fun _ _ _ h h' => UInt32.le_trans h h'⟩
  exact ⟨List.perm_insertionSort _ _, List.pairwise_insertionSort _ _⟩

example (y : DPDGroupMsg) :
    closeDPDGroup (fun l => l.insertionSort fun a b => a.1 ≤ b.1) ⟨[5, 2], [1, 7]⟩ y =
    closeDPDGroup (fun l => l.insertionSort fun a b => a.1 ≤ b.1) ⟨[2, 5], [7, 1]⟩ y :=
  (C53_dpd_group_order _ Proto.insertionSort_sortsByKey [(5, 1), (2, 7)] [(2, 7), (5, 1)]
    (by decide) (List.Perm.swap ..) y).1

theorem Proto.entries_keys_sublist {V : Type} (m : FMap UInt32 V) (ks : List UInt32) :
    ((m.entries ks).map Prod.fst).Sublist ks := by
  unfold FMap.entries
  induction ks with
  | nil => simp
  | cons k ks ih =>
    rw [List.filterMap_cons]
    cases m.lookup k with
    | none => exact ih.cons _
    | some v => simpa using ih

/-- **C53, the dump of one DPD group compares equal to any other dump of it**: for every
group and every two hash iteration orders. -/
theorem C53_dpd_group_dumps (sort : List (UInt32 × UInt32) → List (UInt32 × UInt32))
    (h : Spec.SortsByKey sort) (g : DPD.Group) (ks ks' : List UInt32) (hk : g.map.Enum ks)
    (hk' : g.map.Enum ks') (m m' : DPDGroupMsg) :
    closeDPDGroup sort (dumpDPDGroup ks g m) (dumpDPDGroup ks' g m') = .ok true := by
  have hp : ks.Perm ks' := hk.perm hk'
  have hpe : (g.map.entries ks).Perm (g.map.entries ks') := hp.filterMap _
  have key := C53_dpd_group_order sort h
    ((g.map.entries ks).map fun e => (e.1, intToU64 e.2))
    ((g.map.entries ks').map fun e => (e.1, intToU64 e.2)) ?_ (hpe.map _)
    (dumpDPDGroup ks' g m')
  · simp only [List.map_map] at key
    have k1 := key.1
    have e : ∀ ks m, dumpDPDGroup ks g m = ⟨(g.map.entries ks).map
        ((fun x => x.1) ∘ fun e => (e.1, intToU64 e.2)), (g.map.entries ks).map
        ((fun x => x.2) ∘ fun e => (e.1, intToU64 e.2))⟩ := fun _ _ => rfl
    rw [e ks m, k1, e ks' m']
    unfold closeDPDGroup
    simp only [ne_eq, not_true_eq_false, if_false]
    rw [zipField_ok (by simp)]
    simp
  · rw [List.map_map]
    exact (Proto.entries_keys_sublist g.map ks).nodup hk.1

/-- **C53, the dump of one DPD shared state compares equal to any other dump of it**, in exact
arithmetic with finite parameters: for every state and every two hash iteration orders. -/
theorem C53_dpd_shared_dumps (sort1 : List (UInt32 × XR) → List (UInt32 × XR))
    (sort2 : List (UInt32 × UInt64) → List (UInt32 × UInt64))
    (h1 : Spec.SortsByKey sort1) (h2 : Spec.SortsByKey sort2) (s : DPD.Shared XR)
    (hg : Spec.Finite s.gamma) (ha : Spec.Finite s.alpha)
    (hb : ∀ k v, s.betas.lookup k = some v → Spec.Finite v)
    (ks ks' : List UInt32) (hk : s.betas.Enum ks)
    (hk' : s.betas.Enum ks') (m m' : DPDSharedMsg XR) :
    closeDPDShared sort1 sort2 (dumpDPDShared ks s m) (dumpDPDShared ks' s m') = .ok true := by
  have hp : ks.Perm ks' := hk.perm hk'
  have hpe : (s.betas.entries ks).Perm (s.betas.entries ks') := hp.filterMap _
  let f : UInt32 × XR → UInt32 × XR × UInt64 := fun e =>
    (e.1, e.2, intToU64 (s.counts.getCount e.1))
  have hnd : ∀ {ks}, s.betas.Enum ks → ((s.betas.entries ks).map Prod.fst).Nodup := fun h =>
    (Proto.entries_keys_sublist s.betas _).nodup h.1
  have key := C53_dpd_shared_order sort1 sort2 h1 h2 s.gamma s.alpha
    ((s.betas.entries ks).map f) ((s.betas.entries ks').map f)
    (by rw [List.map_map]; exact hnd hk) (hpe.map _) (dumpDPDShared ks' s m')
  have k1 := key.1
  simp only [List.map_map] at k1
  have e : ∀ ks m, dumpDPDShared ks s m = ⟨s.gamma, s.alpha,
      (s.betas.entries ks).map ((fun x => x.1) ∘ f),
      (s.betas.entries ks).map ((fun x => x.2.1) ∘ f),
      (s.betas.entries ks).map ((fun x => x.2.2) ∘ f)⟩ := fun _ _ => rfl
  rw [e ks m, k1, e ks' m']
  obtain ⟨a, ha⟩ := ha
  obtain ⟨c, hg⟩ := hg
  unfold closeDPDShared
  rw [hg, ha]
  simp only [closeF_refl, Bool.not_true, Bool.or_self, Bool.false_eq_true, if_false, ne_eq,
    not_true_eq_false]
  rw [zipField_ok (by simp), zipField_ok (by simp)]
  simp only [Res.ok_bind, Res.pure_eq, Res.ok.injEq, decide_true, Bool.and_true]
  apply closeList_refl
  intro x hx
  rw [List.zip_map'] at hx
  have hx' := (h1 _ (by simpa [Function.comp_def, f] using hnd hk')).1.mem_iff.mp hx
  obtain ⟨en, hen, rfl⟩ := List.mem_map.mp hx'
  unfold FMap.entries at hen
  obtain ⟨k, -, hk⟩ := List.mem_filterMap.mp hen
  obtain ⟨v, hv, rfl⟩ := Option.map_eq_some_iff.mp hk
  obtain ⟨r, hr⟩ := hb k v hv
  simp [closePair, f, hr, closeF_refl]

/-- One stored value with weight 1/4. -/
example (sort1 : List (UInt32 × XR) → List (UInt32 × XR))
    (sort2 : List (UInt32 × UInt64) → List (UInt32 × UInt64))
    (h1 : Spec.SortsByKey sort1) (h2 : Spec.SortsByKey sort2) (m : DPDSharedMsg XR) :
    let s : DPD.Shared XR := ⟨.fin 1, .fin 1, .fin (3 / 4),
        FMap.empty.set 3 (.fin (1 / 4)), ⟨FMap.empty.set 3 2, some 2⟩⟩
    closeDPDShared sort1 sort2 (dumpDPDShared [3] s m) (dumpDPDShared [3] s m) = .ok true := by
  intro s
  refine C53_dpd_shared_dumps sort1 sort2 h1 h2 s ⟨_, rfl⟩ ⟨_, rfl⟩ ?_ [3] [3]
    ⟨by simp, by simp [s]⟩ ⟨by simp, by simp [s]⟩ m m
  intro k v hv
  simp only [s, FMap.lookup_set] at hv
  split_ifs at hv
  · exact ⟨_, (Option.some.inj hv).symm⟩
  · simp at hv

/-! ## Reflexive and symmetric -/

/-- **C53, symmetry**, in exact arithmetic, NaN included: swapping the messages does not change
the answer, for every kind of message. -/
theorem C53_symm :
    (∀ x y : BBSharedMsg XR, closeBBShared x y = closeBBShared y x) ∧
    (∀ x y : BNBSharedMsg XR, closeBNBShared x y = closeBNBShared y x) ∧
    (∀ x y : DDSharedMsg XR, closeDDShared x y = closeDDShared y x) ∧
    (∀ x y : GPSharedMsg XR, closeGPShared x y = closeGPShared y x) ∧
    (∀ x y : GPGroupMsg XR, closeGPGroup x y = closeGPGroup y x) ∧
    (∀ x y : NICHSharedMsg XR, closeNICHShared x y = closeNICHShared y x) ∧
    (∀ x y : NICHGroupMsg XR, closeNICHGroup x y = closeNICHGroup y x) ∧
    (∀ x y : NIWSharedMsg XR, closeNIWShared x y = closeNIWShared y x) ∧
    (∀ x y : NIWGroupMsg XR, closeNIWGroup x y = closeNIWGroup y x) := by
  refine ⟨?_, ?_, ?_, ?_, ?_, ?_, ?_, ?_, ?_⟩
  · intro x y; unfold closeBBShared; rw [closeF_symm x.alpha, closeF_symm x.beta]
  · intro x y; unfold closeBNBShared
    rw [closeF_symm x.alpha, closeF_symm x.beta, decideEq_symm x.r]
  · intro x y; exact closeList_symm closeF_symm _ _
  · intro x y; unfold closeGPShared; rw [closeF_symm x.alpha, closeF_symm x.invBeta]
  · intro x y; unfold closeGPGroup; rw [decideEq_symm x.count, decideEq_symm x.sum]
  · intro x y; unfold closeNICHShared
    rw [closeF_symm x.mu, closeF_symm x.kappa, closeF_symm x.sigmasq, closeF_symm x.nu]
  · intro x y; unfold closeNICHGroup
    rw [closeF_symm x.mean, closeF_symm x.countTimesVariance, decideEq_symm x.count]
  · intro x y; unfold closeNIWShared
    rw [closeList_symm closeF_symm x.mu, closeF_symm x.kappa, closeList_symm closeF_symm x.psi,
      closeF_symm x.nu]
  · intro x y; unfold closeNIWGroup
    rw [closeList_symm closeF_symm x.sumX, closeList_symm closeF_symm x.sumXXT,
      decideEq_symm x.count]

/-- **C53, symmetry for DPD messages** whose repeated fields have the same length. -/
theorem C53_dpd_symm (sort1 : List (UInt32 × XR) → List (UInt32 × XR))
    (sort2 : List (UInt32 × UInt64) → List (UInt32 × UInt64))
    (sort : List (UInt32 × UInt32) → List (UInt32 × UInt32)) :
    (∀ x y : DPDSharedMsg XR, x.values.length = x.betas.length →
      x.values.length = x.counts.length → y.values.length = y.betas.length →
      y.values.length = y.counts.length →
      closeDPDShared sort1 sort2 x y = closeDPDShared sort1 sort2 y x) ∧
    (∀ x y : DPDGroupMsg, x.keys.length = x.values.length → y.keys.length = y.values.length →
      closeDPDGroup sort x y = closeDPDGroup sort y x) := by
  constructor
  · intro x y h1 h2 h3 h4
    unfold closeDPDShared
    rw [closeF_symm x.gamma, closeF_symm x.alpha, zipField_ok h1.le, zipField_ok h2.le,
      zipField_ok h3.le, zipField_ok h4.le]
    simp only [Res.ok_bind, ne_eq, eq_comm (a := x.values.length)]
    rw [closeList_symm (closePair_symm (decideEq_symm) closeF_symm), decideEq_symm (sort2 _)]
  · intro x y h1 h2
    unfold closeDPDGroup
    rw [zipField_ok (by simp [h1]), zipField_ok (by simp [h2])]
    simp only [Res.ok_bind, ne_eq, eq_comm (a := x.keys.length)]
    rw [decideEq_symm (sort _)]

/-- **C53, reflexivity** on finite values. -/
theorem C53_refl :
    (∀ a b : ℝ, closeBBShared (F := XR) ⟨.fin a, .fin b⟩ ⟨.fin a, .fin b⟩ = true) ∧
    (∀ (a b : ℝ) r, closeBNBShared (F := XR) ⟨.fin a, .fin b, r⟩ ⟨.fin a, .fin b, r⟩ = true) ∧
    (∀ as : List ℝ, closeDDShared (F := XR) ⟨as.map .fin⟩ ⟨as.map .fin⟩ = true) ∧
    (∀ a b : ℝ, closeGPShared (F := XR) ⟨.fin a, .fin b⟩ ⟨.fin a, .fin b⟩ = true) ∧
    (∀ m : GPGroupMsg XR, closeGPGroup m m = true) ∧
    (∀ a b c d : ℝ, closeNICHShared (F := XR) ⟨.fin a, .fin b, .fin c, .fin d⟩
      ⟨.fin a, .fin b, .fin c, .fin d⟩ = true) ∧
    (∀ n (a b : ℝ), closeNICHGroup (F := XR) ⟨n, .fin a, .fin b⟩ ⟨n, .fin a, .fin b⟩ = true) ∧
    (∀ (mu psi : List ℝ) (k n : ℝ), closeNIWShared (F := XR)
      ⟨mu.map .fin, .fin k, psi.map .fin, .fin n⟩ ⟨mu.map .fin, .fin k, psi.map .fin, .fin n⟩
        = true) ∧
    (∀ n (s t : List ℝ), closeNIWGroup (F := XR) ⟨n, s.map .fin, t.map .fin⟩
      ⟨n, s.map .fin, t.map .fin⟩ = true) := by
  have hl : ∀ as : List ℝ, closeList closeF (as.map XR.fin) (as.map XR.fin) = true := by
    intro as
    apply closeList_refl
    intro x hx
    obtain ⟨a, -, rfl⟩ := List.mem_map.mp hx
    exact closeF_refl a
  refine ⟨?_, ?_, ?_, ?_, ?_, ?_, ?_, ?_, ?_⟩
  · intro a b; simp [closeBBShared, closeF_refl]
  · intro a b r; simp [closeBNBShared, closeF_refl]
  · intro as; exact hl as
  · intro a b; simp [closeGPShared, closeF_refl]
  · intro m; simp [closeGPGroup]
  · intro a b c d; simp [closeNICHShared, closeF_refl]
  · intro n a b; simp [closeNICHGroup, closeF_refl]
  · intro mu psi k n; simp [closeNIWShared, closeF_refl, hl]
  · intro n s t; simp [closeNIWGroup, hl]

/-- **C53, what close means** for numbers: within ten percent of one plus the magnitudes. -/
theorem C53_tolerance (a b : ℝ) :
    closeF (.fin a) (.fin b : XR) = true ↔ 10 * |a - b| ≤ 1 + |a| + |b| := by
  rw [closeF_fin]
  constructor <;> intro h <;> linarith

/-- Close is not transitive: 0 is close to 0.1, 0.1 to 0.23, but 0 is not close to 0.23. -/
theorem C53_not_transitive :
    closeF (.fin 0) (.fin (1 / 10) : XR) = true ∧
    closeF (.fin (1 / 10)) (.fin (23 / 100) : XR) = true ∧
    closeF (.fin 0) (.fin (23 / 100) : XR) = false := by
  refine ⟨?_, ?_, ?_⟩
  · rw [C53_tolerance]; norm_num
  · rw [C53_tolerance]; norm_num [abs_of_pos, abs_of_neg]
  · rw [← Bool.not_eq_true, C53_tolerance]; norm_num [abs_of_pos, abs_of_neg]

/-- A NaN is not close to anything, itself included. -/
theorem C53_nan (x : XR) : closeF .nan x = false ∧ closeF x .nan = false :=
  ⟨closeF_nan_left x, closeF_nan_right x⟩

/-- Gamma-Poisson groups that differ only in their log product compare close, whatever the two
log products are. -/
theorem C53_gp_log_prod {F : Type} [FloatOps F] (count sum : UInt64) (p q : F) :
    closeGPGroup ⟨count, sum, p⟩ ⟨count, sum, q⟩ = true := by simp [closeGPGroup]

/-- **C53, finding.** DPD group counts are compared modulo `2^32`: a count of `2^32` and a count
of 0 compare equal. -/
theorem C53_dpd_group_truncates (sort : List (UInt32 × UInt32) → List (UInt32 × UInt32)) :
    closeDPDGroup sort ⟨[1], [4294967296]⟩ ⟨[1], [0]⟩ = .ok true := by
  unfold closeDPDGroup
  have : ([4294967296] : List UInt64).map UInt64.toUInt32 = ([0] : List UInt64).map
    UInt64.toUInt32 := by decide
  rw [this]
  simp [zipField]

end Dist
