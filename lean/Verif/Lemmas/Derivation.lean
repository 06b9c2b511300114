import Verif.Lemmas.GibbsSets
import Verif.Model.Derivation
import Verif.Spec.Derivation

/-! # Counting set partitions by shape -/

namespace Dist

open Spec Finset

/-- A clustering of one more item is a clustering of the others and a place for the item. -/
theorem sum_finpartition_insert {ι M : Type} [DecidableEq ι] [AddCommMonoid M] {i : ι} {A : Finset ι} (hi : i ∉ A)
    (f : Finset (Finset ι) → M) :
    ∑ P : Finpartition (insert i A), f P.parts =
      ∑ Q : Finpartition A, ∑ b ∈ insert ∅ Q.parts, f (put i b Q.parts) := by
  rw [Finset.sum_sigma']
  symm
  refine Finset.sum_bij
    (fun x hx => ((Parts.of_finpartition x.1).put hi (mem_sigma.1 hx).2).toFinpartition)
    (fun _ _ => mem_univ _) ?_ ?_ (fun _ _ => rfl)
  · rintro ⟨Q, b⟩ hx ⟨Q', b'⟩ hx' he
    have hb := (mem_sigma.1 hx).2
    have hb' := (mem_sigma.1 hx').2
    dsimp only at hb hb'
    have he' : put i b Q.parts = put i b' Q'.parts := congrArg Finpartition.parts he
    have hQ : Q = Q' := by
      ext1
      rw [← (Parts.of_finpartition Q).without_put hi hb, he', (Parts.of_finpartition Q').without_put hi hb']
    subst hQ
    have := (Parts.of_finpartition Q).put_inj hi hb hb' he'
    subst this
    rfl
  · intro P _
    have hP := Parts.of_finpartition P
    obtain ⟨b, hb, he⟩ := hP.exists_put (mem_insert_self i A)
    have hw := hP.without i
    rw [erase_insert hi] at hw
    exact ⟨⟨hw.toFinpartition, b⟩, mem_sigma.2 ⟨mem_univ _, hb⟩, by ext1; exact he⟩

theorem sum_finpartition_succ {M : Type} [AddCommMonoid M] (n : ℕ) (f : Finset (Finset ℕ) → M) :
    ∑ P : Finpartition (range (n + 1)), f P.parts =
      ∑ Q : Finpartition (range n), ∑ b ∈ insert ∅ Q.parts, f (put n b Q.parts) := by
  have h := sum_finpartition_insert (i := n) (A := range n) (by simp) f
  rw [← h]
  have e : range (n + 1) = insert n (range n) := range_add_one
  exact e ▸ rfl

namespace Derivation

/-- The multiset of sizes after one of size `x` grew, sorted. -/
def up (m : Multiset ℕ) (x : ℕ) : Shape := ((x + 1) ::ₘ m.erase x).sort (· ≤ ·)

theorem sorted_eq {l : List ℕ} {m : Multiset ℕ} (hs : l.Pairwise (· ≤ ·)) (hm : (l : Multiset ℕ) = m) :
    l = m.sort (· ≤ ·) := by
  have h2 : (m.sort (· ≤ ·)).Pairwise (· ≤ ·) := Multiset.pairwise_sort _ _
  refine List.Perm.eq_of_pairwise (le := (· ≤ ·)) (fun a b _ _ h h' => le_antisymm h h') hs h2 ?_
  rw [← Multiset.coe_eq_coe, hm, Multiset.sort_eq]

theorem modify_perm (s : List ℕ) (i : ℕ) (hi : i < s.length) :
    (s.modify i (· + 1)).Perm ((s[i] + 1) :: s.erase s[i]) := by
  induction s generalizing i with
  | nil => simp at hi
  | cons a s ih =>
    cases i with
    | zero => simp
    | succ i =>
      have hi' : i < s.length := by simpa using hi
      have := (ih i hi').cons a
      simp only [List.modify_succ_cons, List.getElem_cons_succ]
      refine this.trans ((List.Perm.swap _ _ _).trans (List.Perm.cons _ ?_))
      by_cases h : a = s[i]
      · rw [← h, List.erase_cons_head]
        rw [h]
        exact (List.perm_cons_erase (List.getElem_mem hi')).symm
      · rw [List.erase_cons_tail (by simpa using h)]

theorem bump_eq (s : Shape) (i : ℕ) (hi : i < s.length) : bump s i = up s s[i] := by
  refine sorted_eq ?_ ?_
  · have := List.pairwise_mergeSort (le := fun a b : ℕ => decide (a ≤ b))
      (fun a b c h1 h2 => by simp at *; omega) (fun a b => by simp; omega) (s.modify i (· + 1))
    exact this.imp (by simp)
  · rw [Multiset.coe_erase, Multiset.cons_coe, Multiset.coe_eq_coe]
    exact (List.mergeSort_perm _ _).trans (modify_perm s i hi)

variable {A : Finset ℕ} {C : Finset (Finset ℕ)} {i : ℕ}

theorem card_pos (h : Parts A C) {b : Finset ℕ} (hb : b ∈ C) : 0 < b.card := by
  rw [Finset.card_pos, Finset.nonempty_iff_ne_empty]
  rintro rfl
  exact h.empty hb

theorem shape_coe (C : Finset (Finset ℕ)) : (shape C : Multiset ℕ) = C.val.map card := by
  unfold shape; rw [Multiset.sort_eq]

theorem shape_put_empty (h : Parts A C) (hi : i ∉ A) : shape (put i ∅ C) = 1 :: shape C := by
  symm
  refine sorted_eq (m := (put i ∅ C).val.map card) ?_ ?_
  · rw [List.pairwise_cons]
    refine ⟨?_, Multiset.pairwise_sort _ _⟩
    intro x hx
    have hx' : x ∈ (shape C : Multiset ℕ) := hx
    rw [shape_coe, Multiset.mem_map] at hx'
    obtain ⟨b, hb, rfl⟩ := hx'
    exact card_pos h hb
  · rw [← Multiset.cons_coe, shape_coe]
    unfold put
    rw [insert_val_of_notMem (fun h' => h.insert_notMem hi ∅ (mem_of_mem_erase h')),
      erase_eq_of_notMem h.empty]
    simp

theorem shape_put_mem (h : Parts A C) (hi : i ∉ A) {b : Finset ℕ} (hb : b ∈ C) :
    shape (put i b C) = up (shape C : Multiset ℕ) b.card := by
  unfold up
  conv_lhs => unfold shape
  congr 1
  unfold put
  rw [insert_val_of_notMem (fun h' => h.insert_notMem hi b (mem_of_mem_erase h')), Multiset.map_cons,
    card_insert_of_notMem (h.notMem hi (mem_insert_of_mem hb)), shape_coe, erase_val]
  congr 1
  have e : C.val.map card = b.card ::ₘ (C.val.erase b).map card := by
    rw [← Multiset.map_cons, Multiset.cons_erase hb]
  rw [e, Multiset.erase_cons_head]

/-- Adding an item to every place of a clustering is adding one to every place of its shape. -/
theorem sum_places {M : Type} [AddCommMonoid M] (h : Parts A C) (hi : i ∉ A) (g : Shape → M) :
    ∑ b ∈ insert ∅ C, g (shape (put i b C)) =
      g (1 :: shape C) + ((List.range (shape C).length).map fun k => g (bump (shape C) k)).sum := by
  rw [sum_insert h.empty, shape_put_empty h hi]
  congr 1
  have e1 : ((List.range (shape C).length).map fun k => g (bump (shape C) k)) =
      (shape C).map fun x => g (up (shape C : Multiset ℕ) x) := by
    refine List.ext_getElem (by simp) fun k h1 h2 => ?_
    simp only [List.getElem_map, List.getElem_range]
    rw [bump_eq _ _ (by simpa using h1)]
  rw [e1, ← Multiset.sum_coe, ← Multiset.map_coe, shape_coe, Multiset.map_map]
  unfold Finset.sum
  congr 1
  refine Multiset.map_congr rfl fun b hb => ?_
  rw [shape_put_mem h hi hb, shape_coe]
  rfl

/-! ## Dicts -/

/-- The value stored for a key, zero if there is none. -/
def val (d : Dict ℕ) (s : Shape) : ℕ := (d.lookup s).getD 0

/-- A dict holds every key once, and positive counts. -/
def Good (d : Dict ℕ) : Prop := (d.map Prod.fst).Nodup ∧ ∀ p ∈ d, 0 < p.2

theorem lookup_self {α : Type} (k : Shape) (v : α) (d : Dict α) : List.lookup k ((k, v) :: d) = some v := by
  simp [List.lookup]

theorem lookup_ne {α : Type} {s k : Shape} (h : s ≠ k) (v : α) (d : Dict α) :
    List.lookup s ((k, v) :: d) = List.lookup s d := by
  have : (s == k) = false := by simpa using h
  simp [List.lookup, this]

theorem lookup_incr (d : Dict ℕ) (k s : Shape) (c : ℕ) :
    (incr d k c).lookup s = if s = k then some (val d k + c) else d.lookup s := by
  induction d with
  | nil =>
    by_cases h : s = k
    · subst h; simp [incr, val, List.lookup]
    · rw [incr, lookup_ne h, if_neg h]
  | cons p d ih =>
    obtain ⟨k', v⟩ := p
    unfold incr
    by_cases hk : k' = k
    · subst hk
      rw [if_pos rfl]
      by_cases h : s = k'
      · subst h; rw [lookup_self, if_pos rfl, val, lookup_self]; rfl
      · rw [lookup_ne h, lookup_ne h, if_neg h]
    · rw [if_neg hk]
      by_cases h : s = k'
      · subst h
        rw [lookup_self, lookup_self, if_neg hk]
      · rw [lookup_ne h, lookup_ne h, ih]
        have h'' : k ≠ k' := fun e => hk e.symm
        unfold val
        rw [lookup_ne h'']

theorem val_incr (d : Dict ℕ) (k s : Shape) (c : ℕ) :
    val (incr d k c) s = val d s + if k = s then c else 0 := by
  unfold val
  rw [lookup_incr]
  by_cases h : s = k
  · subst h; simp [val]
  · rw [if_neg h, if_neg fun e : k = s => h e.symm, add_zero]

theorem keys_incr (d : Dict ℕ) (k : Shape) (c : ℕ) :
    (incr d k c).map Prod.fst = if k ∈ d.map Prod.fst then d.map Prod.fst else d.map Prod.fst ++ [k] := by
  induction d with
  | nil => simp [incr]
  | cons p d ih =>
    obtain ⟨k', v⟩ := p
    unfold incr
    by_cases hk : k' = k
    · simp [hk]
    · rw [if_neg hk, List.map_cons, ih]
      have : k ≠ k' := fun e => hk e.symm
      by_cases h : k ∈ d.map Prod.fst
      · simp [h]
      · rw [if_neg h, if_neg (by simpa [this] using h)]
        rfl

theorem Good.incr {d : Dict ℕ} (h : Good d) (k : Shape) {c : ℕ} (hc : 0 < c) : Good (incr d k c) := by
  refine ⟨?_, ?_⟩
  · rw [keys_incr]
    split_ifs with hk
    · exact h.1
    · refine List.Nodup.append h.1 (by simp) ?_
      simpa [List.disjoint_singleton] using hk
  · obtain ⟨-, h⟩ := h
    induction d with
    | nil => intro p hp; simp [Derivation.incr] at hp; subst hp; simpa using hc
    | cons q d ih =>
      obtain ⟨k', v⟩ := q
      intro p hp
      unfold Derivation.incr at hp
      split_ifs at hp with hk
      · rcases List.mem_cons.1 hp with rfl | hp
        · simp; omega
        · exact h p (List.mem_cons_of_mem _ hp)
      · rcases List.mem_cons.1 hp with rfl | hp
        · exact h _ List.mem_cons_self
        · exact ih (fun p hp => h p (List.mem_cons_of_mem _ hp)) p hp

theorem foldl_incr (l : List Shape) (c : ℕ) (hc : 0 < c) (d : Dict ℕ) (hd : Good d) :
    Good (l.foldl (fun a k => incr a k c) d) ∧
      ∀ s, val (l.foldl (fun a k => incr a k c) d) s =
        val d s + (l.map fun k => if k = s then c else 0).sum := by
  induction l generalizing d with
  | nil => simp [hd]
  | cons k l ih =>
    obtain ⟨h1, h2⟩ := ih (incr d k c) (hd.incr k hc)
    refine ⟨h1, fun s => ?_⟩
    rw [List.foldl_cons, h2, val_incr, List.map_cons, List.sum_cons, add_assoc]

theorem larger_spec (d : Dict ℕ) (hd : Good d) (p : Shape × ℕ) (hp : 0 < p.2) :
    Good (larger d p) ∧ ∀ s, val (larger d p) s = val d s + p.2 *
      ((if 1 :: p.1 = s then 1 else 0) +
        ((List.range p.1.length).map fun k => if bump p.1 k = s then 1 else 0).sum) := by
  have e : larger d p = ((1 :: p.1) :: (List.range p.1.length).map (bump p.1)).foldl
      (fun a k => incr a k p.2) d := by
    unfold larger
    rw [List.foldl_cons, List.foldl_map]
  obtain ⟨h1, h2⟩ := foldl_incr _ p.2 hp d hd
  rw [e]
  refine ⟨h1, fun s => ?_⟩
  rw [h2, List.map_cons, List.sum_cons, List.map_map, mul_add]
  have hm : ∀ l : List ℕ, (l.map ((fun k => if k = s then p.2 else 0) ∘ bump p.1)).sum =
      p.2 * (l.map fun k => if bump p.1 k = s then 1 else 0).sum := by
    intro l
    rw [← List.sum_map_mul_left]
    congr 2
    funext k
    simp
  rw [hm]
  simp

theorem foldl_larger (l : Dict ℕ) (hl : ∀ p ∈ l, 0 < p.2) (d : Dict ℕ) (hd : Good d) :
    Good (l.foldl larger d) ∧ ∀ s, val (l.foldl larger d) s = val d s +
      (l.map fun p => p.2 * ((if 1 :: p.1 = s then 1 else 0) +
        ((List.range p.1.length).map fun k => if bump p.1 k = s then 1 else 0).sum)).sum := by
  induction l generalizing d with
  | nil => simp [hd]
  | cons p l ih =>
    obtain ⟨g1, g2⟩ := larger_spec d hd p (hl p List.mem_cons_self)
    obtain ⟨h1, h2⟩ := ih (fun q hq => hl q (List.mem_cons_of_mem _ hq)) _ g1
    refine ⟨h1, fun s => ?_⟩
    rw [List.foldl_cons, h2, g2, List.map_cons, List.sum_cons, add_assoc]

/-- The dict counts the clusterings of `n` items. -/
def Counts (n : ℕ) (d : Dict ℕ) : Prop := Good d ∧ ∀ s, val d s = shapeCount n s

theorem lookup_of_mem {α : Type} {d : Dict α} (h : (d.map Prod.fst).Nodup) {p : Shape × α} (hp : p ∈ d) :
    d.lookup p.1 = some p.2 := by
  induction d with
  | nil => simp at hp
  | cons q d ih =>
    rw [List.map_cons, List.nodup_cons] at h
    rcases List.mem_cons.1 hp with rfl | hp
    · exact lookup_self _ _ _
    · have : p.1 ≠ q.1 := fun e => h.1 (e ▸ List.mem_map_of_mem hp)
      rw [show q = (q.1, q.2) from rfl, lookup_ne this]
      exact ih h.2 hp

theorem mem_of_lookup {α : Type} {d : Dict α} {s : Shape} {x : α} (h : d.lookup s = some x) : (s, x) ∈ d := by
  induction d with
  | nil => simp at h
  | cons q d ih =>
    by_cases e : s = q.1
    · subst e
      have := lookup_self q.1 q.2 d
      rw [show q = (q.1, q.2) from rfl, this, Option.some.injEq] at h
      subst h
      exact List.mem_cons_self
    · rw [show q = (q.1, q.2) from rfl, lookup_ne e] at h
      exact List.mem_cons_of_mem _ (ih h)

theorem Counts.mem {n : ℕ} {d : Dict ℕ} (h : Counts n d) (p : Shape × ℕ) :
    p ∈ d ↔ p.2 = shapeCount n p.1 ∧ 0 < p.2 := by
  constructor
  · intro hp
    have hl := lookup_of_mem h.1.1 hp
    refine ⟨?_, h.1.2 p hp⟩
    rw [← h.2, val, hl]; rfl
  · rintro ⟨h1, h2⟩
    have := h.2 p.1
    unfold val at this
    cases hl : d.lookup p.1 with
    | none => rw [hl] at this; simp at this; omega
    | some x =>
      rw [hl] at this
      have hm := mem_of_lookup hl
      have : x = p.2 := by simpa [h1] using this
      subst this
      exact hm

theorem shapeCount_pos {n : ℕ} {s : Shape} :
    0 < shapeCount n s ↔ ∃ P : Finpartition (range n), shape P.parts = s := by
  unfold shapeCount
  rw [Finset.card_pos]
  constructor
  · rintro ⟨P, hP⟩; exact ⟨P, (mem_filter.1 hP).2⟩
  · rintro ⟨P, hP⟩; exact ⟨P, mem_filter.2 ⟨mem_univ _, hP⟩⟩

theorem Counts.perm {n : ℕ} {d d' : Dict ℕ} (h : Counts n d) (hp : d'.Perm d) : Counts n d' := by
  have hg : Good d' := ⟨((hp.map Prod.fst).nodup_iff).2 h.1.1, fun p hp' => h.1.2 p (hp.subset hp')⟩
  refine ⟨hg, fun s => ?_⟩
  unfold val
  cases hl : d'.lookup s with
  | some x =>
    exact ((h.mem _).1 (hp.subset (mem_of_lookup hl))).1
  | none =>
    by_contra hne
    have hpos : 0 < shapeCount n s := Nat.pos_of_ne_zero fun e => hne (by simp [e])
    have hm : (s, shapeCount n s) ∈ d' := hp.symm.subset ((h.mem (s, shapeCount n s)).2 ⟨rfl, hpos⟩)
    rw [lookup_of_mem hg.1 hm] at hl
    simp at hl

/-- A sum over the dict is a sum over the clusterings. -/
theorem Counts.sum {n : ℕ} {d : Dict ℕ} (h : Counts n d) {M : Type} [AddCommMonoid M] (F : Shape → M) :
    (d.map fun p => p.2 • F p.1).sum = ∑ P : Finpartition (range n), F (shape P.parts) := by
  rw [Finset.sum_comp F (fun P : Finpartition (range n) => shape P.parts)]
  have hk : ((d.map Prod.fst).toFinset : Finset Shape) =
      univ.image (fun P : Finpartition (range n) => shape P.parts) := by
    ext s
    rw [List.mem_toFinset, List.mem_map, mem_image]
    constructor
    · rintro ⟨p, hp, rfl⟩
      obtain ⟨h1, h2⟩ := (h.mem p).1 hp
      obtain ⟨P, hP⟩ := shapeCount_pos.1 (h1 ▸ h2)
      exact ⟨P, mem_univ _, hP⟩
    · rintro ⟨P, -, hP⟩
      exact ⟨(s, shapeCount n s), (h.mem _).2 ⟨rfl, shapeCount_pos.2 ⟨P, hP⟩⟩, rfl⟩
  rw [← hk, List.sum_toFinset _ h.1.1, List.map_map]
  congr 1
  refine List.map_congr_left fun p hp => ?_
  rw [Function.comp, ((h.mem p).1 hp).1]
  rfl

theorem shapeCount_eq (n : ℕ) (s : Shape) :
    shapeCount n s = ∑ P : Finpartition (range n), if shape P.parts = s then 1 else 0 := by
  unfold shapeCount
  rw [Finset.card_filter]

theorem counts_succ {n : ℕ} {d : Dict ℕ} (h : Counts n d) : Counts (n + 1) (getLargerCounts d) := by
  obtain ⟨h1, h2⟩ := foldl_larger d h.1.2 [] ⟨by simp, by simp⟩
  refine ⟨h1, fun s => ?_⟩
  unfold getLargerCounts
  rw [h2, shapeCount_eq, sum_finpartition_succ n fun C => if shape C = s then 1 else 0]
  have e : val [] s = 0 := rfl
  rw [e, zero_add]
  have hs := h.sum fun k : Shape => (if 1 :: k = s then 1 else 0) +
        ((List.range k.length).map fun i => if bump k i = s then 1 else 0).sum
  simp only [smul_eq_mul] at hs
  rw [hs]
  refine Finset.sum_congr rfl fun P _ => ?_
  exact (sum_places (Parts.of_finpartition P) (by simp) fun t => if t = s then 1 else 0).symm

theorem getCounts_counts {n : ℕ} {d : Dict ℕ} (h : GetCounts n d) : Counts n d := by
  induction h with
  | zero =>
    refine ⟨⟨by simp, by simp⟩, fun s => ?_⟩
    have huniq : ∀ P : Finpartition (range 0), P.parts = ∅ := by
      intro P
      rw [Finset.eq_empty_iff_forall_notMem]
      intro b hb
      have h1 : b ⊆ ∅ := P.le hb
      rw [Finset.subset_empty] at h1
      subst h1
      exact P.bot_notMem hb
    have hsh : ∀ P : Finpartition (range 0), shape P.parts = [] := fun P => by
      rw [huniq P]; simp [shape]
    have hc : Fintype.card (Finpartition (range 0)) = 1 :=
      Fintype.card_eq_one_iff.2 ⟨⊥, fun P => by ext1; rw [huniq, huniq]⟩
    rw [shapeCount_eq]
    simp only [hsh]
    by_cases hs : s = []
    · subst hs
      simp only [if_true, sum_const, smul_eq_mul, mul_one, val, lookup_self, Option.getD_some]
      exact hc.symm
    · have h1 : ¬ ([] = s) := fun e => hs e.symm
      rw [val, lookup_ne hs]
      simp [h1]
  | succ _ hp ih => exact counts_succ (ih.perm hp)

theorem exists_getCounts (n : ℕ) : ∃ d, GetCounts n d := by
  induction n with
  | zero => exact ⟨_, .zero⟩
  | succ n ih => obtain ⟨d, h⟩ := ih; exact ⟨_, .succ h (List.Perm.refl d)⟩

end Derivation

end Dist
