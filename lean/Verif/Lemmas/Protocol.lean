import Verif.Lemmas.IdTracker
import Verif.Spec.Protocol

set_option linter.unusedSimpArgs false

namespace Dist

open Spec

/-- Two lists of the same length related position by position. -/
structure PW {α β : Type} (P : α → β → Prop) (as : List α) (bs : List β) : Prop where
  len : as.length = bs.length
  rel : ∀ (p : Nat) a b, as[p]? = some a → bs[p]? = some b → P a b

namespace PW

variable {α β : Type} {P : α → β → Prop} {as : List α} {bs : List β}

theorem set (h : PW P as bs) (p : Nat) {a : α} {b : β} (hab : P a b) :
    PW P (as.set p a) (bs.set p b) := by
  refine ⟨by simp [h.len], ?_⟩
  intro q x y hx hy
  rw [List.getElem?_set] at hx hy
  by_cases hpq : p = q
  · subst hpq
    simp only [if_true] at hx hy
    split_ifs at hx hy
    simp_all
  · simp only [hpq, if_false] at hx hy
    exact h.rel q x y hx hy

theorem append (h : PW P as bs) {a : α} {b : β} (hab : P a b) :
    PW P (as ++ [a]) (bs ++ [b]) := by
  refine ⟨by simp [h.len], ?_⟩
  intro q x y hx hy
  by_cases hq : q < as.length
  · rw [List.getElem?_append_left hq] at hx
    rw [List.getElem?_append_left (by rw [← h.len]; exact hq)] at hy
    exact h.rel q x y hx hy
  · have hq' : q = as.length := by
      have := (List.getElem?_eq_some_iff.mp hx).1
      simp at this; omega
    subst hq'
    simp at hx
    rw [h.len] at hy
    simp at hy
    subst hx; subst hy; exact hab

theorem swapRemove (h : PW P as bs) {p : Nat} (hp : p < as.length) :
    PW P (Spec.swapRemove as p) (Spec.swapRemove bs p) := by
  refine ⟨by simp [Driver.swapRemove_length, h.len], ?_⟩
  intro q x y hx hy
  rw [Driver.swapRemove_getElem? hp] at hx
  rw [Driver.swapRemove_getElem? (by rw [← h.len]; exact hp), ← h.len] at hy
  split_ifs at hx hy
  · exact h.rel _ x y hx hy
  · exact h.rel _ x y hx hy

theorem get (h : PW P as bs) {p : Nat} {b : β} (hb : bs[p]? = some b) :
    ∃ a, as[p]? = some a ∧ P a b := by
  have hl := (List.getElem?_eq_some_iff.mp hb).1
  rw [← h.len] at hl
  exact ⟨as[p], List.getElem?_eq_getElem hl, h.rel p _ _ (List.getElem?_eq_getElem hl) hb⟩

end PW

theorem swapRemove_map {α β : Type} (f : α → β) (l : List α) (p : Nat) :
    (Spec.swapRemove l p).map f = Spec.swapRemove (l.map f) p := by
  unfold Spec.swapRemove
  by_cases h : l = []
  · simp [h]
  · rw [dif_neg h, dif_neg (by simpa using h), List.map_dropLast, List.map_set,
      List.getLast_map]

theorem mapM_ok {α β : Type} {f : α → Res β} {g : α → β} {l : List α}
    (h : ∀ a ∈ l, f a = .ok (g a)) : l.mapM f = .ok (l.map g) := by
  induction l with
  | nil => rfl
  | cons a l ih =>
    rw [List.mapM_cons, h a (by simp), Res.ok_bind, ih fun x hx => h x (List.mem_cons_of_mem _ hx)]
    rfl

/-- If every element succeeds with a result in `Q`, so does the whole loop. -/
theorem mapM_exists {α β : Type} {f : α → Res β} {Q : α → β → Prop} {l : List α}
    (h : ∀ a ∈ l, ∃ b, f a = .ok b ∧ Q a b) :
    ∃ bs, l.mapM f = .ok bs ∧ List.Forall₂ Q l bs := by
  induction l with
  | nil => exact ⟨[], rfl, .nil⟩
  | cons a l ih =>
    obtain ⟨b, hb, hq⟩ := h a (by simp)
    obtain ⟨bs, hbs, hqs⟩ := ih fun x hx => h x (List.mem_cons_of_mem _ hx)
    refine ⟨b :: bs, ?_, .cons hq hqs⟩
    rw [List.mapM_cons, hb, Res.ok_bind, hbs]; rfl

theorem forall2_map_fst {α β γ : Type} {Q : α × β → α × γ → Prop} {l : List (α × β)}
    {l' : List (α × γ)} (h : List.Forall₂ (fun a b => b.1 = a.1 ∧ Q a b) l l') :
    l'.map Prod.fst = l.map Prod.fst := by
  induction h with
  | nil => rfl
  | cons hq _ ih => rw [List.map_cons, List.map_cons, hq.1, ih]

theorem forall2_mem {α β : Type} {Q : α → β → Prop} {l : List α} {l' : List β}
    (h : List.Forall₂ Q l l') {b : β} (hb : b ∈ l') : ∃ a ∈ l, Q a b := by
  induction h with
  | nil => simp at hb
  | cons hq _ ih =>
    rcases List.mem_cons.mp hb with hb | hb
    · subst hb; exact ⟨_, by simp, hq⟩
    · obtain ⟨a, ha, hqa⟩ := ih hb
      exact ⟨a, List.mem_cons_of_mem _ ha, hqa⟩

namespace World

variable {R G V : Type} [DecidableEq R] [DecidableEq V]

/-- `ls` lists the groups in packed order: global id and rows. -/
structure Rep (S : Feature R G V → G → Multiset V → Prop) (fs : List (Feature R G V))
    (w : World R G V) (s : Clusters R) (ls : List (Nat × Multiset R)) : Prop where
  driver : w.driver = .ofSizes (ls.map fun x => x.2.card)
  tracker : w.tracker.Rep ⟨ls.map Prod.fst, s.created⟩
  feats : w.slaves.map Prod.fst = fs
  slaves : ∀ sl ∈ w.slaves, PW (fun g x => S sl.1 g (x.2.map sl.1.col)) sl.2 ls
  members : ∀ gid M, s.members gid = some M ↔ (gid, M) ∈ ls
  rows : s.rows = (ls.map fun x => x.2.card).sum
  rowsLe : s.rows ≤ 2147483647
  empty : 0 ∈ ls.map fun x => x.2.card

omit [DecidableEq R] [DecidableEq V] in
theorem fst_inj {ls : List (Nat × Multiset R)} (h : (ls.map Prod.fst).Nodup) {g : Nat}
    {M M' : Multiset R} (h1 : (g, M) ∈ ls) (h2 : (g, M') ∈ ls) : M = M' := by
  induction ls with
  | nil => simp at h1
  | cons x ls ih =>
    rw [List.map_cons, List.nodup_cons] at h
    rcases List.mem_cons.mp h1 with h1 | h1 <;> rcases List.mem_cons.mp h2 with h2 | h2
    · exact congrArg Prod.snd (h1.trans h2.symm)
    · exact absurd (List.mem_map.mpr ⟨_, h2, by rw [← h1]⟩) h.1
    · exact absurd (List.mem_map.mpr ⟨_, h1, by rw [← h2]⟩) h.1
    · exact ih h.2 h1 h2

omit [DecidableEq R] [DecidableEq V] in
theorem mem_set_iff {ls : List (Nat × Multiset R)} (hnd : (ls.map Prod.fst).Nodup) {p gid : Nat}
    {M : Multiset R} (hp : ls[p]? = some (gid, M)) (N : Multiset R) (x : Nat) (X : Multiset R) :
    (x, X) ∈ ls.set p (gid, N) ↔ if x = gid then X = N else (x, X) ∈ ls := by
  have hpl := (List.getElem?_eq_some_iff.mp hp).1
  constructor
  · intro h
    obtain ⟨q, hq⟩ := List.mem_iff_getElem?.mp h
    rw [List.getElem?_set] at hq
    split_ifs at hq with h1 h2
    · simp only [Option.some.injEq, Prod.mk.injEq] at hq
      simp [hq.1, hq.2.symm]
    · have hne : x ≠ gid := by
        rintro rfl
        apply h1
        have hql := (List.getElem?_eq_some_iff.mp hq).1
        have e1 : (ls.map Prod.fst)[p]? = some x := by simp [hp]
        have e2 : (ls.map Prod.fst)[q]? = some x := by simp [hq]
        have := (List.getElem?_inj (by simpa using hpl) hnd).mp (e1.trans e2.symm)
        exact this
      simp only [hne, if_false]
      exact List.mem_of_getElem? hq
  · intro h
    split_ifs at h with hx
    · subst hx; subst h
      exact List.mem_iff_getElem?.mpr ⟨p, by simp [List.getElem?_set, hpl]⟩
    · obtain ⟨q, hq⟩ := List.mem_iff_getElem?.mp h
      refine List.mem_iff_getElem?.mpr ⟨q, ?_⟩
      rw [List.getElem?_set]
      have hne : p ≠ q := by
        rintro rfl
        rw [hp] at hq
        simp only [Option.some.injEq, Prod.mk.injEq] at hq
        exact hx hq.1.symm
      simp [hne, hq]

omit [DecidableEq R] [DecidableEq V] in
theorem card_le_rows {S : Feature R G V → G → Multiset V → Prop} {fs : List (Feature R G V)}
    {w : World R G V} {s : Clusters R} {ls : List (Nat × Multiset R)} (h : Rep S fs w s ls)
    {p gid : Nat} {M : Multiset R} (hp : ls[p]? = some (gid, M)) : M.card ≤ s.rows := by
  rw [h.rows]
  exact List.le_sum_of_mem (List.mem_map.mpr ⟨_, List.mem_of_getElem? hp, rfl⟩)

theorem Rep.addValue_at {S : Feature R G V → G → Multiset V → Prop} {fs : List (Feature R G V)}
    (hS : ∀ f ∈ fs, Summarises f.ops (S f)) (lvl : Nat)
    {w : World R G V} {s : Clusters R} {ls : List (Nat × Multiset R)} (h : Rep S fs w s ls)
    {p gid : Nat} {M : Multiset R} {r : R} (hp : ls[p]? = some (gid, M))
    (hrows : s.rows + 1 ≤ 2147483647) (hcr : s.created + 1 ≤ 4294967296) :
    ∃ w' ls', w.addValue lvl p r = .ok w' ∧ ls'[p]? = some (gid, r ::ₘ M) ∧
      Rep S fs w' ((RowOp.add gid r).step s) ls' := by
  have hpl := (List.getElem?_eq_some_iff.mp hp).1
  have hM : s.members gid = some M := (h.members gid M).mpr (List.mem_of_getElem? hp)
  have hnd : (ls.map Prod.fst).Nodup := h.tracker.nodup
  have hsz : (ls.map fun x => x.2.card)[p]? = some M.card := by simp [hp]
  have hcard := card_le_rows h hp
  -- driver
  have hd := Driver.addValue_ofSizes lvl (l := ls.map fun x => x.2.card) (g := p) (c := 1)
    ⟨by simpa using hpl, by omega, by rw [← h.rows]; exact hrows⟩
  rw [hsz] at hd
  -- slaves
  have hsl : ∀ sl ∈ w.slaves, ∃ sl',
      (do let gs ← SlaveGroups.addValue lvl sl.1.ops sl.2 p (sl.1.col r)
          return (sl.1, gs) : Res _) = .ok sl' ∧
      (sl'.1 = sl.1 ∧ PW (fun g x => S sl.1 g (x.2.map sl.1.col)) sl'.2
        (ls.set p (gid, r ::ₘ M))) := by
    intro sl hsl
    have hpw := h.slaves sl hsl
    obtain ⟨g, hg, hSg⟩ := hpw.get hp
    have hgl := (List.getElem?_eq_some_iff.mp hg).1
    have hf : sl.1 ∈ fs := by rw [← h.feats]; exact List.mem_map.mpr ⟨sl, hsl, rfl⟩
    obtain ⟨g', hg', hSg'⟩ := (hS _ hf).add g _ (sl.1.col r) hSg (by
      rw [Multiset.card_map]; show M.card < _; omega)
    refine ⟨(sl.1, sl.2.set p g'), ?_, rfl, hpw.set p ?_⟩
    · simp only [SlaveGroups.addValue, SlaveGroups.groupAt]
      rw [distAssert_of hgl, Res.ok_bind, getAt_eq_ok.mpr hg, Res.ok_bind, hg', Res.ok_bind,
        setAt_of hgl]; rfl
    · simpa using hSg'
  obtain ⟨sls, hsls, hall⟩ := mapM_exists hsl
  have hfs : sls.map Prod.fst = fs := by rw [← h.feats]; exact forall2_map_fst hall
  have hmaps : (ls.set p (gid, r ::ₘ M)).map (fun x => x.2.card)
      = (ls.map fun x => x.2.card).set p (M.card + 1) := by
    rw [List.map_set]; simp
  have hmapf : (ls.set p (gid, r ::ₘ M)).map Prod.fst = ls.map Prod.fst := by
    rw [List.map_set]
    apply List.ext_getElem?
    intro q
    rw [List.getElem?_set]
    split_ifs with h1 h2
    · subst h1; simp [hp]
    · subst h1; simp at h2; simp [h2]
    · rfl
  have hsum : ((ls.map fun x => x.2.card).set p (M.card + 1)).sum
      = (ls.map fun x => x.2.card).sum + 1 := by
    have := Driver.sum_set_add (m := M.card + 1) hsz
    omega
  unfold World.addValue
  rw [h.driver, show (1 : Int) = ((1 : Nat) : Int) from rfl, hd, Res.ok_bind]
  simp only [hsls, Res.ok_bind]
  by_cases hM0 : M = 0
  · -- a group is added
    subst hM0
    obtain ⟨t', ht', hrep'⟩ := h.tracker.addGroup (by show s.created < _; omega)
    refine ⟨⟨.ofSizes (addTo (ls.map fun x => x.2.card) p 1),
        sls.map fun s => (s.1, SlaveGroups.addGroup s.1.ops s.2), t'⟩,
      ls.set p (gid, r ::ₘ 0) ++ [(s.created, 0)], ?_,
      by rw [List.getElem?_append_left (by simpa using hpl)]; simp [hpl], ?_⟩
    · simp [ht']
    · refine ⟨?_, ?_, ?_, ?_, ?_, ?_, ?_, ?_⟩
      · simp [addTo, hsz, hmaps, List.map_set]
      · simp only [RowOp.step, hM, if_true, List.map_append, hmapf]
        exact hrep'
      · simp only [List.map_map, Function.comp_def]; exact hfs
      · intro sl hsl'
        simp only [List.mem_map] at hsl'
        obtain ⟨sl0, hsl0, rfl⟩ := hsl'
        obtain ⟨sl1, hsl1, hq, hpw⟩ := forall2_mem hall hsl0
        rw [← hq] at hpw
        have hf : sl0.1 ∈ fs := by rw [← hfs]; exact List.mem_map.mpr ⟨sl0, hsl0, rfl⟩
        exact hpw.append (by simpa using (hS _ hf).init)
      · intro x X
        simp only [RowOp.step, hM, if_true, List.mem_append, List.mem_singleton, Prod.mk.injEq]
        rw [mem_set_iff hnd hp]
        by_cases hx : x = s.created
        · subst hx
          have hne : s.created ≠ gid := by
            have := h.tracker.lt gid (List.mem_map.mpr ⟨_, List.mem_of_getElem? hp, rfl⟩)
            simp only at this; omega
          simp only [if_true, hne, if_false, Option.some.injEq, true_and]
          constructor
          · intro h0; exact .inr h0.symm
          · rintro (h0 | h0)
            · have := h.tracker.lt s.created (List.mem_map.mpr ⟨_, h0, rfl⟩)
              simp at this
            · exact h0.symm
        · simp only [hx, if_false, false_and, or_false]
          by_cases hxg : x = gid
          · simp [hxg, eq_comm]
          · simp [hxg, h.members]
      · simp only [RowOp.step, hM, if_true, List.map_append, hmaps, List.sum_append]
        simp only [Multiset.card_zero] at hsum ⊢
        rw [h.rows, hsum]; simp
      · simp only [RowOp.step, hM, if_true]; exact hrows
      · simp
  · have hc0 : M.card ≠ 0 := by simpa using hM0
    refine ⟨⟨.ofSizes (addTo (ls.map fun x => x.2.card) p 1), sls, w.tracker⟩,
      ls.set p (gid, r ::ₘ M), ?_, by simp [hpl], ?_⟩
    · simp [hc0, hM0]
    · refine ⟨?_, ?_, hfs, ?_, ?_, ?_, ?_, ?_⟩
      · simp [addTo, hsz, hmaps, hc0, hM0, List.map_set, List.getD_eq_getElem?_getD, hp]
      · simp only [RowOp.step, hM, hM0, if_false, hmapf]
        exact h.tracker
      · intro sl hsl'
        obtain ⟨sl1, hsl1, hq, hpw⟩ := forall2_mem hall hsl'
        rw [hq]; exact hpw
      · intro x X
        simp only [RowOp.step, hM, hM0, if_false]
        rw [mem_set_iff hnd hp]
        by_cases hxg : x = gid
        · simp [hxg, eq_comm]
        · simp [hxg, h.members]
      · simp only [RowOp.step, hM, hM0, if_false, hmaps]
        rw [h.rows]; omega
      · simp only [RowOp.step, hM, hM0, if_false]; exact hrows
      · rw [hmaps]
        obtain ⟨q, hq⟩ := List.mem_iff_getElem?.mp h.empty
        refine List.mem_iff_getElem?.mpr ⟨q, ?_⟩
        rw [List.getElem?_set]
        have : p ≠ q := by
          rintro rfl; rw [hsz] at hq; simp only [Option.some.injEq] at hq; exact hc0 hq
        simp only [this, if_false]; exact hq

theorem Rep.addValue {S : Feature R G V → G → Multiset V → Prop} {fs : List (Feature R G V)}
    (hS : ∀ f ∈ fs, Summarises f.ops (S f)) (lvl : Nat)
    {w : World R G V} {s : Clusters R} {ls : List (Nat × Multiset R)} (h : Rep S fs w s ls)
    {p gid : Nat} {M : Multiset R} {r : R} (hp : ls[p]? = some (gid, M))
    (hrows : s.rows + 1 ≤ 2147483647) (hcr : s.created + 1 ≤ 4294967296) :
    ∃ w' ls', w.addValue lvl p r = .ok w' ∧ Rep S fs w' ((RowOp.add gid r).step s) ls' := by
  obtain ⟨w', ls', h1, _, h2⟩ := h.addValue_at hS lvl hp (r := r) hrows hcr
  exact ⟨w', ls', h1, h2⟩

theorem Rep.removeValue {S : Feature R G V → G → Multiset V → Prop} {fs : List (Feature R G V)}
    (hS : ∀ f ∈ fs, Summarises f.ops (S f)) (lvl : Nat)
    {w : World R G V} {s : Clusters R} {ls : List (Nat × Multiset R)} (h : Rep S fs w s ls)
    {p gid : Nat} {M : Multiset R} {r : R} (hp : ls[p]? = some (gid, M)) (hr : r ∈ M) :
    ∃ w' ls', w.removeValue lvl p r = .ok w' ∧ Rep S fs w' ((RowOp.remove gid r).step s) ls' := by
  have hpl := (List.getElem?_eq_some_iff.mp hp).1
  have hM : s.members gid = some M := (h.members gid M).mpr (List.mem_of_getElem? hp)
  have hnd : (ls.map Prod.fst).Nodup := h.tracker.nodup
  have hsz : (ls.map fun x => x.2.card)[p]? = some M.card := by simp [hp]
  have hcard := card_le_rows h hp
  have hpos : 0 < M.card := Multiset.card_pos_iff_exists_mem.mpr ⟨r, hr⟩
  have hcer : (M.erase r).card = M.card - 1 := Multiset.card_erase_of_mem hr
  -- driver
  have hd := Driver.removeValue_ofSizes lvl (l := ls.map fun x => x.2.card) (g := p) (c := 1)
    ⟨by omega, M.card, hsz, by omega⟩ (.inr h.empty) (by rw [← h.rows]; exact h.rowsLe)
  rw [hsz] at hd
  -- slaves
  have hsl : ∀ sl ∈ w.slaves, ∃ sl',
      (do let gs ← SlaveGroups.removeValue lvl sl.1.ops sl.2 p (sl.1.col r)
          return (sl.1, gs) : Res _) = .ok sl' ∧
      (sl'.1 = sl.1 ∧ PW (fun g x => S sl.1 g (x.2.map sl.1.col)) sl'.2
        (ls.set p (gid, M.erase r))) := by
    intro sl hsl
    have hpw := h.slaves sl hsl
    obtain ⟨g, hg, hSg⟩ := hpw.get hp
    have hgl := (List.getElem?_eq_some_iff.mp hg).1
    have hf : sl.1 ∈ fs := by rw [← h.feats]; exact List.mem_map.mpr ⟨sl, hsl, rfl⟩
    obtain ⟨g', hg', hSg'⟩ := (hS _ hf).remove g _ (sl.1.col r) hSg
      (Multiset.mem_map_of_mem _ hr)
    refine ⟨(sl.1, sl.2.set p g'), ?_, rfl, hpw.set p ?_⟩
    · simp only [SlaveGroups.removeValue, SlaveGroups.groupAt]
      rw [distAssert_of hgl, Res.ok_bind, getAt_eq_ok.mpr hg, Res.ok_bind, hg', Res.ok_bind,
        setAt_of hgl]; rfl
    · rw [Multiset.map_erase_of_mem _ _ hr]; exact hSg'
  obtain ⟨sls, hsls, hall⟩ := mapM_exists hsl
  have hfs : sls.map Prod.fst = fs := by rw [← h.feats]; exact forall2_map_fst hall
  have hmaps : (ls.set p (gid, M.erase r)).map (fun x => x.2.card)
      = (ls.map fun x => x.2.card).set p (M.card - 1) := by
    rw [List.map_set]; simp only [hcer]
  have hmapf : (ls.set p (gid, M.erase r)).map Prod.fst = ls.map Prod.fst := by
    rw [List.map_set]
    apply List.ext_getElem?
    intro q
    rw [List.getElem?_set]
    split_ifs with h1 h2
    · subst h1; simp [hp]
    · subst h1; simp at h2; simp [h2]
    · rfl
  have hsum : ((ls.map fun x => x.2.card).set p (M.card - 1)).sum + 1
      = (ls.map fun x => x.2.card).sum := by
    have := Driver.sum_set_add (m := M.card - 1) hsz
    omega
  have hlen : (ls.set p (gid, M.erase r)).length = ls.length := by simp
  have hset : (ls.set p (gid, M.erase r))[p]? = some (gid, M.erase r) := by
    simp [List.getElem?_set, hpl]
  have hnd' : ((ls.set p (gid, M.erase r)).map Prod.fst).Nodup := by rw [hmapf]; exact hnd
  unfold World.removeValue
  rw [h.driver, show (1 : Int) = ((1 : Nat) : Int) from rfl, hd, Res.ok_bind]
  simp only [hsls, Res.ok_bind]
  by_cases hM0 : M.card = 1
  · -- the group disappears
    have he0 : M.erase r = 0 := Multiset.card_eq_zero.mp (by omega)
    obtain ⟨t', ht', hrep'⟩ := h.tracker.removeGroup lvl (p := p) (by simpa using hpl)
    have hrm : sls.mapM (fun s => (do
        let gs ← SlaveGroups.removeGroup lvl s.2 p
        return (s.1, gs) : Res (Feature R G V × List G)))
        = .ok (sls.map fun s => (s.1, swapRemove s.2 p)) := by
      apply mapM_ok
      intro sl hsl'
      obtain ⟨sl1, hsl1, hq, hpw⟩ := forall2_mem hall hsl'
      have : p < sl.2.length := by rw [hpw.len, hlen]; exact hpl
      rw [SlaveGroups.removeGroup, packedRemove_eq lvl this]; rfl
    refine ⟨⟨.ofSizes (removeFrom (ls.map fun x => x.2.card) p 1),
        sls.map fun s => (s.1, swapRemove s.2 p), t'⟩,
      swapRemove (ls.set p (gid, M.erase r)) p, ?_, ?_⟩
    · simp only [hM0, beq_self_eq_true, if_true]
      rw [hrm, Res.ok_bind, ht']; rfl
    · have hperm := Driver.perm_swapRemove hset
      have hmapsum : ((swapRemove (ls.set p (gid, M.erase r)) p).map fun x => x.2.card).sum + 0
          = s.rows - 1 := by
        rw [swapRemove_map, hmaps]
        have := Driver.sum_swapRemove (l := (ls.map fun x => x.2.card).set p (M.card - 1))
          (g := p) (n := 0) (by simp [List.getElem?_set, hpl, hM0])
        rw [h.rows]; omega
      have hsr : swapRemove ((ls.map fun x => x.2.card).set p (M.card - 1)) p
          = swapRemove (ls.map fun x => x.2.card) p := by
        apply List.ext_getElem?
        intro q
        rw [Driver.swapRemove_getElem? (by simpa using hpl),
          Driver.swapRemove_getElem? (by simpa using hpl)]
        simp only [List.length_set]
        split_ifs with h1 h2
        · rw [List.getElem?_set_ne]
          have h3 := h1
          rw [List.length_map] at h3 ⊢
          omega
        · rw [List.getElem?_set_ne (by omega)]
        · rfl
      refine ⟨?_, ?_, ?_, ?_, ?_, ?_, ?_, ?_⟩
      · simp only [swapRemove_map, hmaps, removeFrom, hsz, hM0, if_true]
        rw [hM0] at hsr; rw [hsr]
      · simp only [RowOp.step, hM, he0, if_true, swapRemove_map]
        rw [he0] at hmapf; rw [hmapf]
        exact hrep'
      · simp only [List.map_map, Function.comp_def]; exact hfs
      · intro sl hsl'
        simp only [List.mem_map] at hsl'
        obtain ⟨sl0, hsl0, rfl⟩ := hsl'
        obtain ⟨sl1, hsl1, hq, hpw⟩ := forall2_mem hall hsl0
        rw [← hq] at hpw
        exact hpw.swapRemove (by rw [hpw.len, hlen]; exact hpl)
      · intro x X
        have hpm : (x, X) ∈ ls.set p (gid, M.erase r) ↔
            (x, X) = (gid, M.erase r) ∨ (x, X) ∈ swapRemove (ls.set p (gid, M.erase r)) p := by
          rw [← hperm.mem_iff, List.mem_cons]
        have hnot : ∀ Y, (gid, Y) ∉ swapRemove (ls.set p (gid, M.erase r)) p := by
          intro Y hY
          have h1 := (hperm.map Prod.fst).nodup_iff.mpr hnd'
          rw [List.map_cons, List.nodup_cons] at h1
          exact h1.1 (List.mem_map.mpr ⟨_, hY, rfl⟩)
        simp only [RowOp.step, hM, he0, if_true]
        by_cases hxg : x = gid
        · subst hxg
          simp only [if_true]
          constructor
          · intro h; simp at h
          · intro h; rw [he0] at hnot; exact absurd h (hnot X)
        · simp only [hxg, if_false]
          rw [h.members]
          rw [mem_set_iff hnd hp] at hpm
          simp only [hxg, if_false, Prod.mk.injEq, false_and, false_or] at hpm
          rw [hpm, he0]
      · simp only [RowOp.step, hM, he0, if_true]
        rw [he0] at hmapsum; omega
      · simp only [RowOp.step, hM, he0, if_true]
        have := h.rowsLe; omega
      · rw [swapRemove_map, hmaps, hsr]
        obtain ⟨q, hq⟩ := List.mem_iff_getElem?.mp h.empty
        have hqp : q ≠ p := by
          rintro rfl; rw [hsz] at hq; simp only [Option.some.injEq] at hq; omega
        have hperm2 := Driver.perm_swapRemove hsz
        have : (0 : Nat) ∈ M.card :: swapRemove (ls.map fun x => x.2.card) p :=
          hperm2.mem_iff.mpr h.empty
        rcases List.mem_cons.mp this with h0 | h0
        · omega
        · exact h0
  · have he0 : M.erase r ≠ 0 := by
      intro h0
      have := congrArg Multiset.card h0
      simp only [Multiset.card_zero] at this; omega
    refine ⟨⟨.ofSizes (removeFrom (ls.map fun x => x.2.card) p 1), sls, w.tracker⟩,
      ls.set p (gid, M.erase r), ?_, ?_⟩
    · simp [hM0]
    · refine ⟨?_, ?_, hfs, ?_, ?_, ?_, ?_, ?_⟩
      · simp [removeFrom, hsz, hmaps, hM0, List.getD_eq_getElem?_getD, hp]
      · simp only [RowOp.step, hM, he0, if_false, hmapf]
        exact h.tracker
      · intro sl hsl'
        obtain ⟨sl1, hsl1, hq, hpw⟩ := forall2_mem hall hsl'
        rw [hq]; exact hpw
      · intro x X
        simp only [RowOp.step, hM, he0, if_false]
        rw [mem_set_iff hnd hp]
        by_cases hxg : x = gid
        · simp [hxg, eq_comm]
        · simp [hxg, h.members]
      · simp only [RowOp.step, hM, he0, if_false, hmaps]
        rw [h.rows]; omega
      · simp only [RowOp.step, hM, he0, if_false]; have := h.rowsLe; omega
      · rw [hmaps]
        obtain ⟨q, hq⟩ := List.mem_iff_getElem?.mp h.empty
        refine List.mem_iff_getElem?.mpr ⟨q, ?_⟩
        rw [List.getElem?_set]
        have : p ≠ q := by
          rintro rfl; rw [hsz] at hq; simp only [Option.some.injEq] at hq; omega
        simp only [this, if_false]; exact hq

theorem Rep.step {S : Feature R G V → G → Multiset V → Prop} {fs : List (Feature R G V)}
    (hS : ∀ f ∈ fs, Summarises f.ops (S f)) (lvl : Nat)
    {w : World R G V} {s : Clusters R} {ls : List (Nat × Multiset R)} (h : Rep S fs w s ls)
    {op : RowOp R} (hv : op.Valid s) :
    ∃ w' ls', w.stepOp lvl op = .ok w' ∧ Rep S fs w' (op.step s) ls' := by
  cases op with
  | add gid r =>
    obtain ⟨M, hM⟩ := Option.ne_none_iff_exists'.mp hv.1
    obtain ⟨p, hp⟩ := List.mem_iff_getElem?.mp ((h.members gid M).mp hM)
    obtain ⟨w', ls', h1, h2⟩ := h.addValue hS lvl hp (r := r) hv.2.1 hv.2.2
    refine ⟨w', ls', ?_, h2⟩
    rw [stepOp, h.tracker.globalToPackedId lvl (p := p) (by simp [hp]), Res.ok_bind, h1]
  | remove gid r =>
    obtain ⟨M, hM, hr⟩ := hv
    obtain ⟨p, hp⟩ := List.mem_iff_getElem?.mp ((h.members gid M).mp hM)
    obtain ⟨w', ls', h1, h2⟩ := h.removeValue hS lvl hp hr
    refine ⟨w', ls', ?_, h2⟩
    rw [stepOp, h.tracker.globalToPackedId lvl (p := p) (by simp [hp]), Res.ok_bind, h1]

theorem Rep.run {S : Feature R G V → G → Multiset V → Prop} {fs : List (Feature R G V)}
    (hS : ∀ f ∈ fs, Summarises f.ops (S f)) (lvl : Nat)
    {w : World R G V} {s : Clusters R} {ls : List (Nat × Multiset R)} (h : Rep S fs w s ls)
    {ops : List (RowOp R)} (hv : ValidRowHistory s ops) :
    ∃ w' ls', w.runOps lvl ops = .ok w' ∧ Rep S fs w' (s.run ops) ls' := by
  induction ops generalizing w s ls with
  | nil => exact ⟨w, ls, rfl, h⟩
  | cons op ops ih =>
    obtain ⟨w1, ls1, h1, h2⟩ := h.step hS lvl hv.1
    obtain ⟨w2, ls2, h3, h4⟩ := ih h2 hv.2
    exact ⟨w2, ls2, by rw [runOps, h1]; exact h3, h4⟩

omit [DecidableEq R] [DecidableEq V] in
theorem addGroups_eq (f : Feature R G V) (n : Nat) (gs : List G) :
    addGroups f n gs = gs ++ List.replicate n f.ops.init := by
  induction n generalizing gs with
  | zero => simp [addGroups]
  | succ n ih =>
    rw [addGroups, ih, SlaveGroups.addGroup, packedAdd, List.replicate_succ]; simp

theorem rep_init {S : Feature R G V → G → Multiset V → Prop} {fs : List (Feature R G V)}
    (hS : ∀ f ∈ fs, Summarises f.ops (S f)) (lvl n : Nat) (hn : 0 < n) (hb : n ≤ 4294967296) :
    ∃ w ls, World.init lvl fs n = .ok w ∧ Rep S fs w (Clusters.start R n) ls := by
  have hd := Driver.init_eq lvl (List.replicate n 0) (by simp)
  rw [if_pos (.inr (by simp; omega))] at hd
  obtain ⟨t, ht, hrep⟩ := IdTracker.rep_init IdTracker.raw n hb
  have hm : ((List.range n).map (fun g => (g, (0 : Multiset R)))).map Prod.fst = List.range n := by
    simp [Function.comp_def]
  have hc : ((List.range n).map (fun g => (g, (0 : Multiset R)))).map (fun x => x.2.card)
      = List.replicate n 0 := by
    simp [Function.comp_def]
  refine ⟨⟨.ofSizes (List.replicate n 0), fs.map fun f => (f, addGroups f n []), t⟩,
    (List.range n).map fun g => (g, 0), ?_, ?_⟩
  · rw [World.init]
    have : (List.replicate n (0 : Nat)).map Int.ofNat = List.replicate n (0 : Int) := by simp
    rw [this] at hd
    rw [hd, Res.ok_bind, ht]; rfl
  · refine ⟨?_, ?_, ?_, ?_, ?_, ?_, ?_, ?_⟩
    · rw [hc]
    · rw [hm]; exact hrep
    · simp [Function.comp_def]
    · intro sl hsl
      simp only [List.mem_map] at hsl
      obtain ⟨f, hf, rfl⟩ := hsl
      refine ⟨by simp [addGroups_eq], ?_⟩
      intro p g x hg hx
      have h1 : g = f.ops.init := by
        have := List.mem_of_getElem? hg
        rw [addGroups_eq] at this; simpa using (List.mem_replicate.mp (by simpa using this)).2
      have h2 : x.2 = 0 := by
        have := List.mem_of_getElem? hx
        simp only [List.mem_map] at this
        obtain ⟨_, _, rfl⟩ := this; rfl
      simp only [h1, h2, Multiset.map_zero]
      exact (hS f hf).init
    · intro gid M
      simp only [Clusters.start, List.mem_map, List.mem_range, Prod.mk.injEq]
      constructor
      · intro h
        split_ifs at h with h0
        exact ⟨gid, h0, rfl, by simpa using h⟩
      · rintro ⟨a, ha, rfl, rfl⟩
        simp [ha]
    · rw [hc]; simp [Clusters.start]
    · simp [Clusters.start]
    · rw [hc]; simp; omega

end World

end Dist
