import Verif.Spec.DbgDPD
import Mathlib.Tactic.Linarith
import Mathlib.Tactic.Ring
import Mathlib.Algebra.BigOperators.Group.Finset.Basic

/-! # Lemmas about the reference Dirichlet-process parameters -/

namespace Dist.DbgDPD

open FloatOps FloatNotation Dist.Spec Dist.Spec.DbgDPD

variable {σ : Type} {gamma alpha beta0 : ℝ} {betas : FMap Int ℝ} {counts : FMap Int Int}
  {B : Multiset Int}

theorem mapFin_set (betas : FMap Int ℝ) (v : Int) (b : ℝ) :
    (betas.mapValues fun _ b => XR.fin b).set v (.fin b) =
      (betas.set v b).mapValues fun _ b => XR.fin b := by
  ext k : 1
  simp only [FMap.lookup_set, FMap.lookup_mapValues]
  split_ifs <;> simp

theorem mapFin_erase (betas : FMap Int ℝ) (v : Int) :
    (betas.mapValues fun _ b => XR.fin b).erase v =
      (betas.erase v).mapValues fun _ b => XR.fin b := by
  ext k : 1
  simp only [FMap.lookup_erase, FMap.lookup_mapValues]
  split_ifs <;> simp

theorem pyMax_fin (a b : ℝ) : pyMax (XR.fin a) (.fin b) = .fin (max a b) := by
  unfold pyMax
  by_cases h : a < b
  · rw [if_pos ((XR.lt_fin a b).mpr h), max_eq_right h.le]
  · rw [if_neg (by simpa using h), max_eq_left (not_lt.mp h)]

theorem mass_set {v : Int} (hv : v ∉ betas.keys) (b b0 : ℝ) :
    mass (betas.set v b) b0 = mass betas b0 + b := by
  unfold mass
  rw [FMap.keys_set, Finset.sum_insert hv]
  have : ∑ w ∈ betas.keys, ((betas.set v b).lookup w).getD 0 =
      ∑ w ∈ betas.keys, (betas.lookup w).getD 0 := by
    refine Finset.sum_congr rfl fun w hw => ?_
    have : w ≠ v := by rintro rfl; exact hv hw
    simp [this]
  rw [this]; simp; ring

theorem mass_erase {v : Int} (hv : v ∈ betas.keys) (b0 : ℝ) :
    mass (betas.erase v) b0 = mass betas b0 - (betas.lookup v).getD 0 := by
  unfold mass
  rw [FMap.keys_erase, ← Finset.add_sum_erase betas.keys _ hv]
  have : ∑ w ∈ betas.keys.erase v, ((betas.erase v).lookup w).getD 0 =
      ∑ w ∈ betas.keys.erase v, (betas.lookup w).getD 0 := by
    refine Finset.sum_congr rfl fun w hw => ?_
    simp [Finset.ne_of_mem_erase hw]
  rw [this]; ring

theorem mass_shift (b b0 : ℝ) : mass betas b = mass betas b0 + (b - b0) := by
  unfold mass; ring

theorem _root_.Dist.Spec.DbgDPD.Nonneg.set (h : Nonneg betas) {v : Int} {b : ℝ} (hb : 0 ≤ b) : Nonneg (betas.set v b) := by
  intro w x hx
  rw [FMap.lookup_set] at hx
  split_ifs at hx
  · cases hx; exact hb
  · exact h w x hx

theorem _root_.Dist.Spec.DbgDPD.Nonneg.erase (h : Nonneg betas) {v : Int} : Nonneg (betas.erase v) := by
  intro w x hx
  rw [FMap.lookup_erase] at hx
  split_ifs at hx
  exact h w x hx

/-- Counting a value once more. -/
theorem _root_.Dist.Spec.DbgDPD.Held.countsAdd {W : Type} {bs : FMap Int W} (h : Held bs counts B) (v w : Int) :
    (counts.set v ((B.count v : Int) + 1)).lookup w =
      if w ∈ v ::ₘ B then some ((v ::ₘ B).count w : Int) else none := by
  rw [FMap.lookup_set]
  by_cases hw : w = v
  · subst hw; simp
  · rw [if_neg hw, h.counts w]
    simp [hw, Multiset.count_cons_of_ne hw]

theorem _root_.Dist.Spec.DbgDPD.Held.addOld {W : Type} {bs : FMap Int W} (h : Held bs counts B) {v : Int} (hv : v ∈ B) :
    Held bs (counts.set v ((B.count v : Int) + 1)) (v ::ₘ B) := by
  refine ⟨h.countsAdd v, fun w => ?_⟩
  rw [h.keys, Multiset.mem_cons]
  exact ⟨.inr, fun hw => hw.elim (fun e => e ▸ hv) id⟩

theorem _root_.Dist.Spec.DbgDPD.Held.addNew {W : Type} {bs : FMap Int W} (h : Held bs counts B) {v : Int} (hv : v ∉ B)
    (b : W) : Held (bs.set v b) (counts.set v 1) (v ::ₘ B) := by
  refine ⟨fun w => ?_, fun w => ?_⟩
  · have := h.countsAdd v w
    rwa [Multiset.count_eq_zero_of_notMem hv, Nat.cast_zero, zero_add] at this
  · rw [FMap.keys_set, Finset.mem_insert, h.keys, Multiset.mem_cons]

theorem addValue_old {F : Type} [FloatOps F] (np : Dbg.Numpy F σ) {s : Shared F}
    (h : Held s.betas s.counts B) {v : Int} (hv : v ∈ B) (ho : v ≠ 4294967295) (g : σ) :
    addValue np v (s, g) = .ok ({ s with counts := s.counts.set v ((B.count v : Int) + 1) }, g) () := by
  have hpos := Multiset.count_pos.mpr hv
  have hl : s.counts.lookup v = some (B.count v : Int) := by rw [h.counts, if_pos hv]
  unfold addValue
  simp only [other, hl, Option.getD_some]
  rw [if_neg ho, if_neg (by omega)]

theorem addValue_new {np : Dbg.Numpy XR σ} (hnp : UnitBeta np)
    (h : Held betas counts B) {v : Int} (hv : v ∉ B) (ho : v ≠ 4294967295) (h0 : 0 ≤ beta0) (g : σ) :
    ∃ b g', 0 ≤ b ∧ b ≤ beta0 ∧ addValue np v (real gamma alpha beta0 betas counts, g) =
      .ok (real gamma alpha (beta0 - b) (betas.set v b) (counts.set v 1), g') () := by
  obtain ⟨p, hp0, hp1, hp⟩ := hnp g (lit 1 1) (.fin gamma)
  have hl : counts.lookup v = none := by rw [h.counts, if_neg hv]
  refine ⟨beta0 * p, (np.beta g (lit 1 1) (.fin gamma)).2, mul_nonneg h0 hp0,
    mul_le_of_le_one_right h0 hp1, ?_⟩
  have hmax : max (0 : ℝ) (beta0 - beta0 * p) = beta0 - beta0 * p :=
    max_eq_right (by linarith [mul_le_of_le_one_right h0 hp1])
  have hz : (lit 0 1 : XR) = .fin 0 := by simp
  unfold addValue
  simp only [other, real, hl, Option.getD_none, zero_add, if_neg ho, if_true, hp]
  rw [XR.fin_mul, XR.fin_sub, hz, pyMax_fin, hmax, mapFin_set]

theorem _root_.Dist.Spec.DbgDPD.Held.removeSome {W : Type} {bs : FMap Int W} (h : Held bs counts B) {v : Int}
    (hv : 1 < B.count v) : Held bs (counts.set v ((B.count v : Int) - 1)) (B.erase v) := by
  have hmem : v ∈ B.erase v := by
    rw [← Multiset.count_pos, Multiset.count_erase_self]; omega
  refine ⟨fun w => ?_, fun w => ?_⟩
  · rw [FMap.lookup_set]
    by_cases hw : w = v
    · subst hw
      rw [if_pos rfl, if_pos hmem, Multiset.count_erase_self, Nat.cast_sub (by omega)]; rfl
    · rw [if_neg hw, h.counts w, Multiset.count_erase_of_ne hw]
      exact if_congr (Multiset.mem_erase_of_ne hw).symm rfl rfl
  · rw [h.keys]
    by_cases hw : w = v
    · subst hw; exact ⟨fun _ => hmem, fun h => Multiset.mem_of_mem_erase h⟩
    · rw [Multiset.mem_erase_of_ne hw]

theorem _root_.Dist.Spec.DbgDPD.Held.removeLast {W : Type} {bs : FMap Int W} (h : Held bs counts B) {v : Int}
    (hv : B.count v = 1) : Held (bs.erase v) (counts.erase v) (B.erase v) := by
  have hmem : v ∉ B.erase v := by
    rw [← Multiset.count_eq_zero, Multiset.count_erase_self, hv]
  refine ⟨fun w => ?_, fun w => ?_⟩
  · rw [FMap.lookup_erase]
    by_cases hw : w = v
    · subst hw; rw [if_pos rfl, if_neg hmem]
    · rw [if_neg hw, h.counts w, Multiset.count_erase_of_ne hw]
      exact if_congr (Multiset.mem_erase_of_ne hw).symm rfl rfl
  · rw [FMap.keys_erase, Finset.mem_erase, h.keys]
    by_cases hw : w = v
    · subst hw; simp [hmem]
    · rw [Multiset.mem_erase_of_ne hw]; simp [hw]

theorem removeValue_some {F : Type} [FloatOps F] {s : Shared F}
    (h : Held s.betas s.counts B) {v : Int} (hv : 1 < B.count v) (ho : v ≠ 4294967295) (g : σ) :
    removeValue v (s, g) = .ok ({ s with counts := s.counts.set v ((B.count v : Int) - 1) }, g) () := by
  have hl : s.counts.lookup v = some (B.count v : Int) := by
    rw [h.counts, if_pos (Multiset.count_pos.mp (by omega))]
  unfold removeValue
  simp only [other, hl]
  rw [if_neg ho, if_pos (by omega)]

theorem removeValue_last (h : Held betas counts B) {v : Int} (hv : B.count v = 1)
    (ho : v ≠ 4294967295) (g : σ) :
    ∃ b, betas.lookup v = some b ∧ removeValue v (real gamma alpha beta0 betas counts, g) =
      .ok (real gamma alpha (beta0 + b) (betas.erase v) (counts.erase v), g) () := by
  have hm : v ∈ B := Multiset.count_pos.mp (by omega)
  have hl : counts.lookup v = some 1 := by rw [h.counts, if_pos hm, hv]; rfl
  obtain ⟨b, hb⟩ := (FMap.mem_keys_iff _ _).mp ((h.keys v).mpr hm)
  refine ⟨b, hb, ?_⟩
  unfold removeValue
  simp only [other, real, hl, FMap.lookup_mapValues, hb, Option.map_some]
  rw [if_neg ho, if_neg (by simp), XR.fin_add, mapFin_erase]

theorem fresh_zero (n : Int) : fresh n 0 = 0 := rfl

theorem fresh_succ (n : Int) (k : Nat) : fresh n (k + 1) = n ::ₘ fresh (n + 1) k := by
  unfold fresh
  rw [Multiset.range, Multiset.range, Multiset.map_coe, Multiset.map_coe, List.range_succ_eq_map]
  simp only [List.map_cons, List.map_map, Nat.cast_zero, add_zero, Multiset.cons_coe]
  congr 2
  refine List.map_congr_left fun i _ => ?_
  simp only [Function.comp, Nat.succ_eq_add_one, Nat.cast_add, Nat.cast_one]; ring

theorem mem_fresh {n v : Int} {k : Nat} : v ∈ fresh n k ↔ n ≤ v ∧ v < n + k := by
  unfold fresh
  rw [Multiset.mem_map]
  constructor
  · rintro ⟨i, hi, rfl⟩
    rw [Multiset.mem_range] at hi
    omega
  · rintro ⟨h1, h2⟩
    exact ⟨(v - n).toNat, by rw [Multiset.mem_range]; omega, by omega⟩

theorem realizeLoop_exact {np : Dbg.Numpy XR σ} (hnp : UnitBeta np) (fuel : Nat) :
    ∀ (beta0 : ℝ) (betas : FMap Int ℝ) (counts : FMap Int Int) (B : Multiset Int) (n : Int) (g : σ),
    Held betas counts B → (∀ v ∈ B, v < n) → n + fuel ≤ 4294967295 → 9999 ≤ betas.size + fuel →
    0 ≤ beta0 → Nonneg betas →
    ∃ k beta0' betas' counts' g',
      realizeLoop np fuel n (real gamma alpha beta0 betas counts, g) =
        some (.ok (real gamma alpha beta0' betas' counts', g') (n + (k : Nat))) ∧
      Held betas' counts' (B + fresh n k) ∧ 0 ≤ beta0' ∧ Nonneg betas' ∧
      mass betas' beta0' = mass betas beta0 ∧ betas'.size = betas.size + k ∧
      (k = 0 ∨ betas'.size ≤ 9999) ∧
      (betas'.size < 9999 → beta0' ≤ 1 / 10000) ∧
      (∀ v ∈ B, betas'.lookup v = betas.lookup v) ∧ (beta0 ≤ 1 / 10000 → k = 0) := by
  induction fuel with
  | zero =>
    intro beta0 betas counts B n g h hn hno hsz h0 hw
    refine ⟨0, beta0, betas, counts, g, ?_, by simpa [fresh_zero] using h, h0, hw, rfl, rfl,
      .inl rfl, fun hlt => by omega, fun _ _ => rfl, fun _ => rfl⟩
    have hs : (real gamma alpha beta0 betas counts).betas.size = betas.size := rfl
    rw [realizeLoop, if_neg (by rintro ⟨h1, -⟩; simp only [hs] at h1; omega)]
    simp
  | succ fuel ih =>
    intro beta0 betas counts B n g h hn hno hsz h0 hw
    have hs : (real gamma alpha beta0 betas counts).betas.size = betas.size := rfl
    have hb : (real gamma alpha beta0 betas counts).beta0 = .fin beta0 := rfl
    by_cases hc : betas.size < 10000 - 1 ∧ lt (lit 1 10000) (XR.fin beta0) = true
    · have hnB : n ∉ B := fun hm => absurd (hn n hm) (lt_irrefl _)
      obtain ⟨b, g₁, hb0, hb1, e⟩ := addValue_new (gamma := gamma) (alpha := alpha) hnp h hnB
        (by push_cast at hno; omega) h0 g
      have hnk : n ∉ betas.keys := fun hk => hnB ((h.keys n).mp hk)
      have hsize : (betas.set n b).size = betas.size + 1 := by
        unfold FMap.size
        rw [FMap.keys_set, Finset.card_insert_of_notMem hnk]
      obtain ⟨k, b0', bs', cs', g', r1, r2, r3, r4, r5, r6, r7, r8, r9, -⟩ := ih (beta0 - b)
        (betas.set n b) (counts.set n 1) (n ::ₘ B) (n + 1) g₁ (h.addNew hnB b)
        (by
          intro v hv
          rcases Multiset.mem_cons.mp hv with rfl | hv
          · omega
          · have := hn v hv; omega)
        (by push_cast at hno; omega) (by omega) (by linarith) (hw.set hb0)
      refine ⟨k + 1, b0', bs', cs', g', ?_, ?_, r3, r4, ?_, by omega, .inr ?_, r8, ?_, fun hle => ?_⟩
      · rw [realizeLoop, if_pos (by simpa only [hs, hb] using hc)]
        simp only [e, r1]
        push_cast
        rw [show n + 1 + (k : Int) = n + ((k : Int) + 1) by ring]
      · rw [fresh_succ, Multiset.add_cons]
        simpa only [Multiset.cons_add] using r2
      · rw [r5, mass_set hnk, mass_shift (betas := betas) (beta0 - b) beta0]; ring
      · rcases r7 with rfl | r7
        · omega
        · exact r7
      · intro v hv
        rw [r9 v (Multiset.mem_cons_of_mem hv), FMap.lookup_set, if_neg]
        rintro rfl; exact hnB hv
      · have := hc.2
        rw [XR.lit_eq, XR.lt_fin] at this
        push_cast at this
        linarith
    · refine ⟨0, beta0, betas, counts, g, ?_, by simpa [fresh_zero] using h, h0, hw, rfl, rfl,
        .inl rfl, fun hlt => ?_, fun _ _ => rfl, fun _ => rfl⟩
      · rw [realizeLoop, if_neg (by simpa only [hs, hb] using hc)]
        simp
      · by_contra hgt
        refine hc ⟨hlt, ?_⟩
        rw [XR.lit_eq, XR.lt_fin]
        push_cast
        exact not_le.mp hgt

theorem foldl_max_spec (ks : List Int) (k : Int) :
    (∀ v ∈ k :: ks, v ≤ ks.foldl max k) ∧ ks.foldl max k ∈ k :: ks := by
  induction ks generalizing k with
  | nil => simp
  | cons a ks ih =>
    obtain ⟨h1, h2⟩ := ih (max k a)
    rw [List.foldl_cons]
    refine ⟨fun v hv => ?_, ?_⟩
    · have hm := h1 (max k a) (by simp)
      rcases List.mem_cons.mp hv with rfl | hv
      · exact le_trans (le_max_left _ _) hm
      rcases List.mem_cons.mp hv with rfl | hv
      · exact le_trans (le_max_right _ _) hm
      · exact h1 v (List.mem_cons_of_mem _ hv)
    · rcases List.mem_cons.mp h2 with h | h
      · rw [h]
        rcases max_choice k a with e | e <;> rw [e] <;> simp
      · exact List.mem_cons_of_mem _ (List.mem_cons_of_mem _ h)

theorem firstNew_spec (ks : List Int) :
    (∀ v ∈ ks, v < firstNew ks) ∧ (ks = [] ∧ firstNew ks = 0 ∨ firstNew ks - 1 ∈ ks) := by
  cases ks with
  | nil => simp [firstNew]
  | cons k ks =>
    obtain ⟨h1, h2⟩ := foldl_max_spec ks k
    have e : firstNew (k :: ks) = 1 + ks.foldl max k := rfl
    rw [e]
    refine ⟨fun v hv => ?_, .inr ?_⟩
    · have := h1 v hv; omega
    · simpa using h2

/-! ## Reading and writing -/

theorem dict_append {V : Type} (l₁ l₂ : List (Int × V)) :
    dict (l₁ ++ l₂) = l₂.foldl (fun m e => m.set e.1 e.2) (dict l₁) := by
  simp [dict, List.foldl_append]

theorem dict_lookup {V : Type} (es : List (Int × V)) (h : (es.map (·.1)).Nodup) (k : Int) (v : V) :
    (dict es).lookup k = some v ↔ (k, v) ∈ es := by
  induction es using List.reverseRecOn with
  | nil => simp [dict]
  | append_singleton es e ih =>
    rw [List.map_append, List.nodup_append] at h
    obtain ⟨h1, -, h3⟩ := h
    rw [dict_append]
    simp only [List.foldl_cons, List.foldl_nil, FMap.lookup_set, List.mem_append, List.mem_singleton]
    by_cases hk : k = e.1
    · subst hk
      rw [if_pos rfl]
      constructor
      · rintro ⟨rfl⟩; exact .inr rfl
      · rintro (hm | hm)
        · exact absurd rfl (h3 e.1 (List.mem_map.mpr ⟨_, hm, rfl⟩) e.1 (by simp))
        · rw [← hm]
    · rw [if_neg hk, ih h1]
      constructor
      · exact .inl
      · rintro (hm | hm)
        · exact hm
        · exact absurd (congrArg Prod.fst hm) hk

theorem entries_eq {V : Type} {m : FMap Int V} {ks : List Int} (h : ∀ k ∈ ks, k ∈ m.keys) :
    (m.entries ks).map (·.1) = ks := by
  induction ks with
  | nil => rfl
  | cons k ks ih =>
    obtain ⟨v, hv⟩ := (FMap.mem_keys_iff m k).mp (h k (by simp))
    have := ih fun k hk => h k (List.mem_cons_of_mem _ hk)
    simp only [FMap.entries, List.filterMap_cons, hv, Option.map_some, List.map_cons] at this ⊢
    rw [this]

theorem mem_entries {V : Type} {m : FMap Int V} {ks : List Int} (h : m.Enum ks) (k : Int) (v : V) :
    (k, v) ∈ m.entries ks ↔ m.lookup k = some v := by
  unfold FMap.entries
  rw [List.mem_filterMap]
  constructor
  · rintro ⟨k', -, hk'⟩
    rw [Option.map_eq_some_iff] at hk'
    obtain ⟨v', hv, e⟩ := hk'
    cases e; exact hv
  · intro hv
    exact ⟨k, (h.mem k).mpr ((FMap.mem_keys_iff _ _).mpr ⟨v, hv⟩), by simp [hv]⟩

theorem dict_entries {V : Type} {m : FMap Int V} {ks : List Int} (h : m.Enum ks) :
    dict (m.entries ks) = m := by
  ext k v
  rw [dict_lookup _ (by rw [entries_eq fun k hk => (h.mem k).mp hk]; exact h.nodup),
    mem_entries h]

theorem minOf_fin (l : List ℝ) (m : ℝ) :
    ∃ x, minOf (XR.fin m) (l.map .fin) = .fin x ∧ ∀ a, a ≤ x ↔ a ≤ m ∧ ∀ y ∈ l, a ≤ y := by
  induction l generalizing m with
  | nil => exact ⟨m, rfl, by simp⟩
  | cons b l ih =>
    rw [List.map_cons, minOf]
    by_cases h : b < m
    · rw [if_pos ((XR.lt_fin _ _).mpr h)]
      obtain ⟨x, e, hx⟩ := ih b
      refine ⟨x, e, fun a => ?_⟩
      rw [hx, List.forall_mem_cons]
      exact ⟨fun ⟨h1, h2⟩ => ⟨h1.trans h.le, h1, h2⟩, fun ⟨_, h1, h2⟩ => ⟨h1, h2⟩⟩
    · rw [if_neg (by simpa using h)]
      obtain ⟨x, e, hx⟩ := ih m
      refine ⟨x, e, fun a => ?_⟩
      rw [hx, List.forall_mem_cons]
      exact ⟨fun ⟨h1, h2⟩ => ⟨h1, h1.trans (not_lt.mp h), h2⟩, fun ⟨h1, _, h2⟩ => ⟨h1, h2⟩⟩

theorem maxOf_fin (l : List ℝ) (m : ℝ) :
    ∃ x, maxOf (XR.fin m) (l.map .fin) = .fin x ∧ ∀ a, x ≤ a ↔ m ≤ a ∧ ∀ y ∈ l, y ≤ a := by
  induction l generalizing m with
  | nil => exact ⟨m, rfl, by simp⟩
  | cons b l ih =>
    rw [List.map_cons, maxOf]
    by_cases h : m < b
    · rw [if_pos ((XR.lt_fin _ _).mpr h)]
      obtain ⟨x, e, hx⟩ := ih b
      refine ⟨x, e, fun a => ?_⟩
      rw [hx, List.forall_mem_cons]
      exact ⟨fun ⟨h1, h2⟩ => ⟨h.le.trans h1, h1, h2⟩, fun ⟨_, h1, h2⟩ => ⟨h1, h2⟩⟩
    · rw [if_neg (by simpa using h)]
      obtain ⟨x, e, hx⟩ := ih m
      refine ⟨x, e, fun a => ?_⟩
      rw [hx, List.forall_mem_cons]
      exact ⟨fun ⟨h1, h2⟩ => ⟨h1, (not_lt.mp h).trans h1, h2⟩, fun ⟨h1, _, h2⟩ => ⟨h1, h2⟩⟩

theorem foldl_fin (l : List ℝ) (a : ℝ) :
    (l.map XR.fin).foldl (· + ·) (XR.fin a) = .fin (a + l.sum) := by
  induction l generalizing a with
  | nil => simp
  | cons b l ih => rw [List.map_cons, List.foldl_cons, XR.fin_add, ih, List.sum_cons, add_assoc]

theorem betasOk_fin (l : List ℝ) (b0 : ℝ) (hb : b0 = max 0 (1 - l.sum)) :
    betasOk (XR.fin b0) (l.map .fin) = true ↔ ∀ b ∈ l, 0 ≤ b ∧ b ≤ 1 := by
  have key : (∀ b ∈ l, 0 ≤ b ∧ b ≤ 1) → b0 ≤ 1 := by
    intro h
    have := List.sum_nonneg fun b hb => (h b hb).1
    rw [hb]; exact max_le zero_le_one (by linarith)
  cases l with
  | nil =>
    simp only [List.map_nil, betasOk, XR.ofInt_eq, XR.le_fin]
    constructor
    · intro _; simp
    · intro h; simpa using key h
  | cons a l =>
    obtain ⟨x, ex, hx⟩ := minOf_fin l a
    obtain ⟨y, ey, hy⟩ := maxOf_fin l a
    rw [List.map_cons, betasOk, ex, ey, Bool.and_eq_true, Bool.and_eq_true]
    simp only [XR.ofInt_eq, XR.le_fin, Int.cast_one, Int.cast_zero, hx, hy]
    rw [List.forall_mem_cons]
    constructor
    · rintro ⟨-, ⟨h1, h2⟩, h3, h4⟩
      exact ⟨⟨h1, h3⟩, fun b hb => ⟨h2 b hb, h4 b hb⟩⟩
    · rintro ⟨⟨h1, h3⟩, h⟩
      exact ⟨key (by rw [List.forall_mem_cons]; exact ⟨⟨h1, h3⟩, h⟩),
        ⟨h1, fun b hb => (h b hb).1⟩, h3, fun b hb => (h b hb).2⟩

theorem entries_mapFin (betas : FMap Int ℝ) (ks : List Int) :
    ((betas.mapValues fun _ b => XR.fin b).entries ks).map (·.2) =
      ((betas.entries ks).map (·.2)).map .fin := by
  induction ks with
  | nil => rfl
  | cons k ks ih =>
    unfold FMap.entries at ih ⊢
    simp only [List.filterMap_cons, FMap.lookup_mapValues]
    cases h : betas.lookup k with
    | none => simpa [h] using ih
    | some b => simpa [h] using ih

theorem sum_entries {betas : FMap Int ℝ} {ks : List Int} (h : betas.Enum ks) :
    ((betas.entries ks).map (·.2)).sum = ∑ v ∈ betas.keys, (betas.lookup v).getD 0 := by
  have hsub : ∀ ks : List Int, (∀ k ∈ ks, k ∈ betas.keys) →
      (betas.entries ks).map (·.2) = ks.map fun v => (betas.lookup v).getD 0 := by
    intro ks
    induction ks with
    | nil => intro _; rfl
    | cons k ks ih =>
      intro hk
      obtain ⟨b, hb⟩ := (FMap.mem_keys_iff betas k).mp (hk k (by simp))
      have := ih fun k h => hk k (List.mem_cons_of_mem _ h)
      simp only [FMap.entries, List.filterMap_cons, hb, Option.map_some, List.map_cons,
        Option.getD_some] at this ⊢
      rw [this]
  rw [hsub ks fun k hk => (h.mem k).mp hk, ← h.toFinset, List.sum_toFinset _ h.nodup]

open scoped Classical in
theorem loadBeta0_exact {ks : List Int} (hks : betas.Enum ks) (b0 : XR) :
    loadBeta0 ks ⟨.fin gamma, .fin alpha, b0, betas.mapValues fun _ b => .fin b, counts⟩ =
      (if ∀ v b, betas.lookup v = some b → 0 ≤ b ∧ b ≤ 1 then
        Out.ok (real gamma alpha (max 0 (1 - mass betas 0)) betas counts) ()
      else .fail (real gamma alpha (max 0 (1 - mass betas 0)) betas counts)) := by
  have hz : (lit 0 1 : XR) = .fin 0 := by simp
  have h1 : (lit 1 1 : XR) = .fin 1 := by simp
  have hi : (ofInt 0 : XR) = .fin 0 := by simp
  have hm : mass betas 0 = ((betas.entries ks).map (·.2)).sum := by
    unfold mass; rw [sum_entries hks, add_zero]
  have hall : (∀ v b, betas.lookup v = some b → 0 ≤ b ∧ b ≤ 1) ↔
      ∀ b ∈ (betas.entries ks).map (·.2), 0 ≤ b ∧ b ≤ 1 := by
    constructor
    · intro h b hb
      obtain ⟨⟨k, b'⟩, he, rfl⟩ := List.mem_map.mp hb
      exact h k b' ((mem_entries hks k b').mp he)
    · intro h v b hb
      exact h b (List.mem_map.mpr ⟨(v, b), (mem_entries hks v b).mpr hb, rfl⟩)
  have hok := betasOk_fin ((betas.entries ks).map (·.2)) _ rfl
  rw [hm]
  unfold loadBeta0
  simp only [bind, Act.get, Act.modify, Act.lift, entries_mapFin, hi, foldl_fin, hz, h1,
    XR.fin_sub, pyMax_fin, zero_add, real]
  by_cases hc : ∀ v b, betas.lookup v = some b → 0 ≤ b ∧ b ≤ 1
  · rw [if_pos hc, if_pos (hok.mpr (hall.mp hc))]
  · rw [if_neg hc, if_neg fun h => hc (hall.mpr (hok.mp h))]

end Dist.DbgDPD

namespace Dist.DbgDPD

open FloatOps FloatNotation Dist.Spec Dist.Spec.DbgDPD
open Dist.Py (Conv asField)

theorem toNat_u32 {z : Int} (h0 : 0 ≤ z) (h : z < 2 ^ 32) :
    ((UInt32.ofNat z.toNat).toNat : Int) = z := by
  rw [UInt32.toNat_ofNat_of_lt' (by simp only [UInt32.size]; omega)]
  omega

theorem toNat_u64 {z : Int} (h0 : 0 ≤ z) (h : z < 2 ^ 64) :
    ((UInt64.ofNat z.toNat).toNat : Int) = z := by
  rw [UInt64.toNat_ofNat_of_lt' (by simp only [UInt64.size]; omega)]
  omega

theorem asField_of {bits : Nat} {z : Int} (h0 : 0 ≤ z) (h : z < 2 ^ bits) :
    asField bits z = .ok z.toNat := by
  rw [asField, if_pos ⟨h0, h⟩]

/-- What `protobuf_dump` writes when every value has a count and the numbers fit. -/
theorem pbDumpLoop_ok {F G : Type} (c : Conv F G) (counts : FMap Int Int) (n : Int → Int)
    (es : List (Int × F)) (hk : ∀ e ∈ es, 0 ≤ e.1 ∧ e.1 < 2 ^ 32)
    (hn : ∀ e ∈ es, counts.lookup e.1 = some (n e.1) ∧ 0 ≤ n e.1 ∧ n e.1 < 2 ^ 64)
    (msg : Proto.DPDSharedMsg G) :
    pbDumpLoop c counts es msg = .ok ⟨msg.gamma, msg.alpha,
      msg.values ++ es.map fun e => UInt32.ofNat e.1.toNat,
      msg.betas ++ es.map fun e => c.narrow e.2,
      msg.counts ++ es.map fun e => UInt64.ofNat (n e.1).toNat⟩ := by
  induction es generalizing msg with
  | nil => simp [pbDumpLoop]
  | cons e es ih =>
    obtain ⟨hk1, hk'⟩ := List.forall_mem_cons.mp hk
    obtain ⟨⟨hl, hn0, hn1⟩, hn'⟩ := List.forall_mem_cons.mp hn
    obtain ⟨k, b⟩ := e
    simp only at hk1 hl hn0 hn1
    rw [pbDumpLoop, asField_of hk1.1 hk1.2, Res.ok_bind, hl]
    dsimp only
    rw [asField_of hn0 hn1, Res.ok_bind, ih hk' hn']
    simp

theorem pbDumpLoop_missing {F G : Type} (c : Conv F G) (counts : FMap Int Int)
    (es : List (Int × F)) (msg : Proto.DPDSharedMsg G) {v : Int} {b : F} (hv : (v, b) ∈ es)
    (hl : counts.lookup v = none) : pbDumpLoop c counts es msg = .fail := by
  induction es generalizing msg with
  | nil => simp at hv
  | cons e es ih =>
    obtain ⟨k, b'⟩ := e
    rw [pbDumpLoop, asField]
    split_ifs
    · rw [Res.ok_bind]
      rcases List.mem_cons.mp hv with e | hv
      · cases e; rw [hl]
      · cases counts.lookup k with
        | none => rfl
        | some n =>
          dsimp only
          rw [asField]
          split_ifs
          · rw [Res.ok_bind]; exact ih _ hv
          · rfl
    · rfl

theorem zip_map_map {α β γ : Type} (f : α → β) (g : α → γ) (l : List α) :
    (l.map f).zip (l.map g) = l.map fun a => (f a, g a) := by
  induction l with
  | nil => rfl
  | cons a l ih => simp [ih]

theorem loadGroupLoop_spec (es : List (Int × Int)) (m : FMap Int Int) (t : Int) :
    loadGroupLoop es ⟨m, t⟩ =
      ⟨(es.filter fun e => e.2 ≠ 0).foldl (fun m e => m.set e.1 e.2) m, t + (es.map (·.2)).sum⟩ := by
  induction es generalizing m t with
  | nil => simp [loadGroupLoop]
  | cons e es ih =>
    obtain ⟨i, n⟩ := e
    rw [loadGroupLoop]
    by_cases h : n = 0
    · subst h; simp [ih]
    · rw [if_pos h, ih]
      simp [h, add_assoc]

theorem pbDumpGroupLoop_ok (es : List (Int × Int))
    (hk : ∀ e ∈ es, 0 ≤ e.1 ∧ e.1 < 2 ^ 32 ∧ 0 ≤ e.2 ∧ e.2 < 2 ^ 64) (msg : Proto.DPDGroupMsg) :
    pbDumpGroupLoop es msg = .ok ⟨
      msg.keys ++ (es.filter fun e => e.2 ≠ 0).map fun e => UInt32.ofNat e.1.toNat,
      msg.values ++ (es.filter fun e => e.2 ≠ 0).map fun e => UInt64.ofNat e.2.toNat⟩ := by
  induction es generalizing msg with
  | nil => simp [pbDumpGroupLoop]
  | cons e es ih =>
    obtain ⟨⟨h1, h2, h3, h4⟩, hk'⟩ := List.forall_mem_cons.mp hk
    obtain ⟨i, n⟩ := e
    simp only at h1 h2 h3 h4
    rw [pbDumpGroupLoop]
    by_cases h : n = 0
    · subst h; rw [if_neg (by simp), ih hk']; simp
    · rw [if_pos h, asField_of h1 h2, Res.ok_bind, asField_of h3 h4, Res.ok_bind, ih hk']
      simp [h]

theorem pbDumpGroupLoop_negative (es : List (Int × Int)) (msg : Proto.DPDGroupMsg) {v n : Int}
    (hv : (v, n) ∈ es) (hn : n < 0) : pbDumpGroupLoop es msg = .fail := by
  induction es generalizing msg with
  | nil => simp at hv
  | cons e es ih =>
    obtain ⟨i, m⟩ := e
    rw [pbDumpGroupLoop]
    rcases List.mem_cons.mp hv with e | hv
    · cases e
      rw [if_pos (by omega), asField]
      split_ifs
      · rw [Res.ok_bind, asField, if_neg (by omega)]; rfl
      · rfl
    · split_ifs
      · rw [asField]
        split_ifs
        · rw [Res.ok_bind, asField]
          split_ifs
          · rw [Res.ok_bind]; exact ih _ hv
          · rfl
        · rfl
      · exact ih _ hv

/-- Weights that are not negative and leave something of 1 are at most 1. -/
theorem weights_le {betas : FMap Int ℝ} {beta0 : ℝ} (hw : Nonneg betas) (h0 : 0 ≤ beta0)
    (h1 : mass betas beta0 = 1) (v : Int) (b : ℝ) (hb : betas.lookup v = some b) : b ≤ 1 := by
  have hnn : ∀ w ∈ betas.keys, 0 ≤ (betas.lookup w).getD 0 := by
    intro w hw'
    obtain ⟨x, hx⟩ := (FMap.mem_keys_iff _ _).mp hw'
    rw [hx]; exact hw w x hx
  have := Finset.single_le_sum hnn ((FMap.mem_keys_iff _ _).mpr ⟨b, hb⟩)
  rw [hb, Option.getD_some] at this
  unfold mass at h1
  linarith

end Dist.DbgDPD
