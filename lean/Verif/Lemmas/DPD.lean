import Verif.Base.XR
import Verif.Model.DPD
import Verif.Lemmas.Sparse
import Verif.Lemmas.Features
import Verif.Lemmas.PYScores

/-! # Lemmas about Dirichlet-Process-Discrete groups -/

namespace Dist

open Spec FloatOps FloatNotation

namespace SparseCounter

variable {K : Type} [DecidableEq K]

/-- A counter is determined by the signed multiset it represents. -/
theorem Rep.unique {c d : SparseCounter K} {s : SignedMultiset K} (h : c.Rep s) (h' : d.Rep s) :
    c = d := by
  obtain ⟨m, t⟩ := c
  obtain ⟨m', t'⟩ := d
  have e : m = m' := by ext k : 1; exact (h.count k).trans (h'.count k).symm
  have e' : t = t' := h.total.trans h'.total.symm
  rw [e, e']

theorem Rep.congr {c : SparseCounter K} {s t : SignedMultiset K} (h : c.Rep s)
    (hc : ∀ k, s.count k = t.count k) (ht : s.total = t.total) : c.Rep t :=
  ⟨fun k => by rw [h.count, hc], by rw [h.total, ht]⟩

/-- The counter holds exactly the multiset `M`. -/
def Holds (c : SparseCounter K) (M : Multiset K) : Prop :=
  c.Rep ⟨fun v => (M.count v : Int), (M.card : Int)⟩

theorem Holds.getCount {c : SparseCounter K} {M : Multiset K} (h : c.Holds M) (k : K) :
    c.getCount k = M.count k := Rep.getCount h k

theorem Holds.getTotal {c : SparseCounter K} {M : Multiset K} (h : c.Holds M) :
    c.getTotal = .ok (M.card : Int) := by
  simp [SparseCounter.getTotal, Rep.total h]

theorem Holds.mem_keys {c : SparseCounter K} {M : Multiset K} (h : c.Holds M) (k : K) :
    k ∈ c.map.keys ↔ k ∈ M := by
  rw [Rep.mem_keys h]; simp

theorem Holds.lookup {c : SparseCounter K} {M : Multiset K} (h : c.Holds M) (k : K) :
    c.map.lookup k = if k ∈ M then some (M.count k : Int) else none := by
  rw [Rep.count h]
  by_cases hk : k ∈ M
  · have : M.count k ≠ 0 := (Multiset.count_pos.mpr hk).ne'
    simp [hk]
  · simp [hk]

theorem holds_clear (c : SparseCounter K) : c.clear.Holds (0 : Multiset K) :=
  (rep_clear c).congr (by simp [SignedMultiset.empty]) (by simp [SignedMultiset.empty])

theorem Holds.add {c : SparseCounter K} {M : Multiset K} (h : c.Holds M) (k : K)
    (hM : M.card < 2147483647) :
    ∃ c', c.add k 1 = .ok ((M.count k : Int) + 1, c') ∧ c'.Holds (k ::ₘ M) := by
  have hc := Multiset.count_le_card k M
  obtain ⟨c', e, h'⟩ := Rep.add h (k := k) (v := 1)
    (by unfold InInt32 int32Min int32Max; dsimp only; omega)
    (by unfold InInt32 int32Min int32Max; dsimp only; omega)
  refine ⟨c', e, h'.congr ?_ ?_⟩
  · intro x
    simp only [SignedMultiset.add, Multiset.count_cons]
    by_cases hx : x = k <;> simp [hx]
  · simp [SignedMultiset.add]

theorem Holds.remove {c : SparseCounter K} {M : Multiset K} (h : c.Holds M) (k : K) (hk : k ∈ M)
    (hM : M.card ≤ 2147483647) :
    ∃ c', c.remove k = .ok ((M.count k : Int) - 1, c') ∧ c'.Holds (M.erase k) := by
  have hc := Multiset.count_le_card k M
  have hp : 0 < M.count k := Multiset.count_pos.mpr hk
  obtain ⟨c', e, h'⟩ := Rep.add h (k := k) (v := -1)
    (by unfold InInt32 int32Min int32Max; dsimp only; omega)
    (by unfold InInt32 int32Min int32Max; dsimp only; omega)
  refine ⟨c', e, h'.congr ?_ ?_⟩
  · intro x
    simp only [SignedMultiset.add]
    by_cases hx : x = k
    · subst hx; rw [if_pos rfl, Multiset.count_erase_self]; omega
    · rw [if_neg hx, Multiset.count_erase_of_ne hx]
  · simp only [SignedMultiset.add]
    rw [Multiset.card_erase_of_mem hk, Nat.pred_eq_sub_one]; omega

end SparseCounter

namespace DPD

variable {F : Type} [FloatOps F]

/-- The values a group may hold: those the shared state knows. -/
abbrev Known (sh : Shared F) := { v : UInt32 // v ≠ other ∧ sh.betas.contains v = true }

/-- The group operations restricted to known values. -/
def opsKnown (lvl : Nat) (sh : Shared F) : GroupOps Group (Known sh) :=
  ⟨SparseCounter.raw.clear, fun g v => Group.addValue lvl sh g v,
    fun g v => Group.removeValue lvl sh g v⟩

theorem add_known (lvl : Nat) (sh : Shared F) (g : Group) (v : Known sh) (n : Int) :
    Group.addRepeatedValue lvl sh g v n = (do
      let (_, c) ← SparseCounter.add g v n
      return c) := by
  rw [Group.addRepeatedValue, distAssert_of v.2.1, Res.ok_bind, distAssert_of v.2.2, Res.ok_bind]

theorem addValue_eq (lvl : Nat) (sh : Shared F) (g : Group) (v : UInt32) :
    Group.addValue lvl sh g v = Group.addRepeatedValue lvl sh g v 1 := rfl

theorem removeValue_eq (lvl : Nat) (sh : Shared F) (g : Group) (v : UInt32) :
    Group.removeValue lvl sh g v = Group.addRepeatedValue lvl sh g v (-1) := rfl

theorem addRepeated_rep (lvl : Nat) (sh : Shared F) {g : Group} {s : SignedMultiset UInt32}
    (h : SparseCounter.Rep g s) (v : Known sh) (n : Int) (h1 : InInt32 (s.count v + n))
    (h2 : InInt32 (s.total + n)) :
    ∃ g' : Group, Group.addRepeatedValue lvl sh g v n = .ok g' ∧
      SparseCounter.Rep g' (s.add v n) := by
  obtain ⟨c, e, h'⟩ := h.add h1 h2
  exact ⟨c, by rw [add_known, e]; rfl, h'⟩

theorem add_holds (lvl : Nat) (sh : Shared F) {g : Group} {M : Multiset UInt32}
    (h : SparseCounter.Holds g M) (v : Known sh) (hM : M.card < 2147483647) :
    ∃ g' : Group, Group.addValue lvl sh g v = .ok g' ∧ SparseCounter.Holds g' ((v : UInt32) ::ₘ M) := by
  obtain ⟨c, e, h'⟩ := h.add (v : UInt32) hM
  exact ⟨c, by rw [addValue_eq, add_known, e]; rfl, h'⟩

theorem remove_holds (lvl : Nat) (sh : Shared F) {g : Group} {M : Multiset UInt32}
    (h : SparseCounter.Holds g M) (v : Known sh) (hv : (v : UInt32) ∈ M)
    (hM : M.card ≤ 2147483647) :
    ∃ g' : Group, Group.removeValue lvl sh g v = .ok g' ∧
      SparseCounter.Holds g' (M.erase (v : UInt32)) := by
  obtain ⟨c, e, h'⟩ := h.remove (v : UInt32) hv hM
  rw [SparseCounter.remove] at e
  exact ⟨c, by rw [removeValue_eq, add_known, e]; rfl, h'⟩

/-- A group summarises the multiset of its values. -/
theorem summarises (lvl : Nat) (sh : Shared F) : Summarises (opsKnown lvl sh)
    (fun g M => SparseCounter.Holds g (M.map Subtype.val) ∧ M.card ≤ 2147483647) := by
  refine ⟨⟨SparseCounter.holds_clear SparseCounter.raw, by simp⟩, ?_, ?_⟩
  · rintro g M v ⟨h, hM⟩ hlt
    obtain ⟨g', e, h'⟩ := add_holds lvl sh h v (by simpa using hlt)
    exact ⟨g', e, by simpa using h', by simp; omega⟩
  · rintro g M v ⟨h, hM⟩ hv
    obtain ⟨g', e, h'⟩ := remove_holds lvl sh h v (Multiset.mem_map_of_mem _ hv) (by simpa using hM)
    refine ⟨g', e, ?_, by have := Multiset.card_erase_le (a := v) (s := M); omega⟩
    rw [Multiset.map_erase _ Subtype.val_injective]
    exact h'

/-! ## Scores in exact arithmetic -/

/-- Hyperparameters as exact numbers. -/
noncomputable def real (gamma alpha beta0 : ℝ) (betas : FMap UInt32 ℝ)
    (counts : SparseCounter UInt32) : Shared XR :=
  ⟨.fin gamma, .fin alpha, .fin beta0, betas.mapValues fun _ b => .fin b, counts⟩

/-- The weight of a value: its beta, or 0 if unknown. -/
def weight (betas : FMap UInt32 ℝ) (v : UInt32) : ℝ := (betas.lookup v).getD 0

theorem get_of {V : Type} (lvl : Nat) {m : FMap UInt32 V} {v : UInt32} {b : V}
    (h : m.lookup v = some b) : Sparse.get lvl m v = .ok b := by
  have : m.contains v = true := by simp [FMap.contains, h]
  rw [Sparse.get, distAssert_of this]
  simp [h]

theorem lookup_weight {betas : FMap UInt32 ℝ} {v : UInt32} (h : v ∈ betas.keys) :
    betas.lookup v = some (weight betas v) := by
  obtain ⟨b, hb⟩ := (betas.mem_keys_iff v).mp h
  simp [weight, hb]

theorem get_real (lvl : Nat) {betas : FMap UInt32 ℝ} {v : UInt32} (h : v ∈ betas.keys) :
    Sparse.get lvl (betas.mapValues fun _ b => XR.fin b) v = .ok (.fin (weight betas v)) :=
  get_of lvl (by simp [lookup_weight h])

variable {gamma alpha beta0 : ℝ} {betas : FMap UInt32 ℝ} {counts : SparseCounter UInt32}

/-- The score of a known value. -/
theorem scoreValue_known (lvl : Nat) {g : Group} {n t : Int} {v : UInt32} (hv : v ∈ betas.keys)
    (hne : v ≠ other) (hn : SparseCounter.getCount g v = n) (ht : SparseCounter.getTotal g = .ok t)
    (h1 : 0 < alpha * weight betas v + n) (h2 : 0 < alpha + t) :
    Group.scoreValue lvl (real gamma alpha beta0 betas counts) g v =
      .ok (.fin (Real.log ((alpha * weight betas v + n) / (alpha + t)))) := by
  simp only [Group.scoreValue, real, hne, if_false, get_real lvl hv, Res.ok_bind, hn, ht,
    Res.pure_eq, XR.fin_mul, XR.ofInt_eq, XR.fin_add]
  rw [XR.fin_div _ _ h2.ne', XR.log_fin (div_pos h1 h2)]

/-- The score of OTHER. -/
theorem scoreValue_other (lvl : Nat) {g : Group} {t : Int}
    (ht : SparseCounter.getTotal g = .ok t) (h1 : 0 < alpha * beta0) (h2 : 0 < alpha + t) :
    Group.scoreValue lvl (real gamma alpha beta0 betas counts) g other =
      .ok (.fin (Real.log (alpha * beta0 / (alpha + t)))) := by
  simp only [Group.scoreValue, real, if_true, Res.ok_bind, ht,
    Res.pure_eq, XR.fin_mul, XR.ofInt_eq, XR.fin_add]
  rw [XR.fin_div _ _ h2.ne', XR.log_fin (div_pos h1 h2)]

/-- The term of one value in the data score. -/
noncomputable def term (alpha : ℝ) (betas : FMap UInt32 ℝ) (v : UInt32) (n : Int) : ℝ :=
  Real.log (Real.Gamma (alpha * weight betas v + n)) -
    Real.log (Real.Gamma (alpha * weight betas v))

theorem entries_known {V : Type} {m : FMap UInt32 V} (d : V) {ks : List UInt32}
    (h : ∀ k ∈ ks, k ∈ m.keys) :
    m.entries ks = ks.map fun k => (k, (m.lookup k).getD d) := by
  induction ks with
  | nil => rfl
  | cons k ks ih =>
    obtain ⟨b, hb⟩ := (m.mem_keys_iff k).mp (h k (by simp))
    have ih' := ih fun x hx => h x (List.mem_cons_of_mem _ hx)
    unfold FMap.entries at ih' ⊢
    simp only [List.filterMap_cons, hb, Option.map_some, ih', List.map_cons, Option.getD_some]

theorem scoreLoop_eq (lvl : Nat) (hα : 0 < alpha) (es : List (UInt32 × Int))
    (hk : ∀ e ∈ es, e.1 ∈ betas.keys) (hpos : ∀ e ∈ es, 0 < weight betas e.1)
    (hn : ∀ e ∈ es, 0 < alpha * weight betas e.1 + e.2) (s : ℝ) :
    Group.scoreLoop lvl (real gamma alpha beta0 betas counts) es (.fin s) =
      .ok (.fin (s + (es.map fun e => term alpha betas e.1 e.2).sum)) := by
  induction es generalizing s with
  | nil => simp [Group.scoreLoop]
  | cons e es ih =>
    obtain ⟨v, n⟩ := e
    have h1 := hn (v, n) (by simp)
    have h2 : 0 < alpha * weight betas v := mul_pos hα (hpos (v, n) (by simp))
    dsimp only at h1
    unfold Group.scoreLoop
    rw [show (real gamma alpha beta0 betas counts).betas = betas.mapValues fun _ b => XR.fin b
      from rfl, get_real lvl (hk (v, n) (by simp))]
    simp only [Res.ok_bind, show (real gamma alpha beta0 betas counts).alpha = .fin alpha from rfl,
      XR.fin_mul, XR.ofInt_eq, XR.fin_add, XR.lgamma_fin h1, XR.lgamma_fin h2, XR.fin_sub]
    rw [ih (fun e he => hk e (by simp [he])) (fun e he => hpos e (by simp [he]))
      (fun e he => hn e (by simp [he]))]
    simp only [List.map_cons, List.sum_cons, term, add_assoc]

theorem toSize_of {t : Int} (h0 : 0 ≤ t) (h : t ≤ 2147483647) : Group.toSize t = t := by
  unfold Group.toSize; omega

/-- The data score of the group of a multiset of known values. -/
theorem scoreData_eq (lvl : Nat) (hα : 0 < alpha) (hpos : ∀ v ∈ betas.keys, 0 < weight betas v)
    {g : Group} {M : Multiset UInt32} (h : SparseCounter.Holds g M) (hM : M.card ≤ 2147483647)
    (hk : ∀ v ∈ M, v ∈ betas.keys) {ks : List UInt32} (hks : g.map.Enum ks) :
    Group.scoreData lvl (real gamma alpha beta0 betas counts) g ks =
      .ok (.fin (∑ v ∈ betas.keys, term alpha betas v (M.count v) +
        (Real.log (Real.Gamma alpha) - Real.log (Real.Gamma (alpha + M.card))))) := by
  have hmem : ∀ k, k ∈ ks ↔ k ∈ M := fun k => (hks.mem k).trans (h.mem_keys k)
  have he : g.map.entries ks = ks.map fun k => (k, (M.count k : Int)) := by
    rw [entries_known 0 (fun k hk => (hks.mem k).mp hk)]
    apply List.map_congr_left
    intro k hk
    rw [h.lookup, if_pos ((hmem k).mp hk)]; rfl
  have hnn : ∀ v ∈ betas.keys, 0 < alpha * weight betas v := fun v hv => mul_pos hα (hpos v hv)
  have hsum : ((ks.map fun k => (k, (M.count k : Int))).map fun e => term alpha betas e.1 e.2).sum =
      ∑ v ∈ betas.keys, term alpha betas v (M.count v) := by
    rw [List.map_map]
    show (ks.map fun k => term alpha betas k (M.count k)).sum = _
    rw [← List.sum_toFinset _ hks.nodup]
    apply Finset.sum_subset
    · intro v hv
      exact hk v ((hmem v).mp (by simpa using hv))
    · intro v _ hv
      have : v ∉ M := fun hm => hv (by simpa using (hmem v).mpr hm)
      simp [term, Multiset.count_eq_zero.mpr this]
  have hc : (0 : ℝ) ≤ M.card := by positivity
  simp only [Group.scoreData, h.getTotal, Res.ok_bind, toSize_of (Int.natCast_nonneg _)
    (by exact_mod_cast hM : ((M.card : Nat) : Int) ≤ 2147483647), he, XR.ofInt_eq, Int.cast_zero]
  rw [scoreLoop_eq lvl hα]
  · simp only [Res.ok_bind, hsum, zero_add, Res.pure_eq,
      show (real gamma alpha beta0 betas counts).alpha = .fin alpha from rfl, XR.fin_add,
      Int.cast_natCast]
    rw [XR.lgamma_fin hα, XR.lgamma_fin (by linarith), XR.fin_sub, XR.fin_add]
  · intro e he
    simp only [List.mem_map] at he
    obtain ⟨k, hk', rfl⟩ := he
    exact hk k ((hmem k).mp hk')
  · intro e he
    simp only [List.mem_map] at he
    obtain ⟨k, hk', rfl⟩ := he
    exact hpos k (hk k ((hmem k).mp hk'))
  · intro e he
    simp only [List.mem_map] at he
    obtain ⟨k, hk', rfl⟩ := he
    have := hnn k (hk k ((hmem k).mp hk'))
    push_cast; positivity

end DPD

end Dist
