import Verif.Spec.Listings
import Mathlib.Data.List.Infix
import Mathlib.Data.List.Nodup
import Mathlib.Order.Defs.LinearOrder
import Mathlib.Data.String.Basic

/-! # C98: the text of the generated table, and the listings of models -/

namespace Dist

open Listings Spec.Listings

namespace Listings

variable {α : Type}

/-! ## Lists with separators -/

theorem intercalate_cons {β : Type} (s x : List β) {l : List (List β)} (h : l ≠ []) :
    s.intercalate (x :: l) = x ++ (s ++ s.intercalate l) := by
  obtain ⟨y, l, rfl⟩ := List.exists_cons_of_ne_nil h
  simp [List.intercalate]

theorem intercalate_one {β : Type} (s x : List β) : s.intercalate [x] = x := by
  simp [List.intercalate]

theorem intercalate_append {β : Type} (s : List β) (a b : List (List β)) (ha : a ≠ []) (hb : b ≠ []) :
    s.intercalate (a ++ b) = s.intercalate a ++ (s ++ s.intercalate b) := by
  induction a with
  | nil => exact absurd rfl ha
  | cons x a ih =>
    by_cases h : a = []
    · subst h
      rw [List.singleton_append, intercalate_cons s x hb, intercalate_one]
    · rw [List.cons_append, intercalate_cons s x (by simp [h]), ih h, intercalate_cons s x h]
      simp

theorem intercalate_rows {β : Type} (s : List β) (ll : List (List (List β)))
    (h : ∀ l ∈ ll, l ≠ []) : s.intercalate (ll.map s.intercalate) = s.intercalate ll.flatten := by
  induction ll with
  | nil => rfl
  | cons l ll ih =>
    obtain ⟨h1, h2⟩ := List.forall_mem_cons.mp h
    by_cases hl : ll = []
    · subst hl; simp [intercalate_one]
    · rw [List.map_cons, intercalate_cons _ _ (by simp [hl]), ih h2, List.flatten_cons,
        intercalate_append _ _ _ h1]
      obtain ⟨l', ll', rfl⟩ := List.exists_cons_of_ne_nil hl
      have := h2 l' List.mem_cons_self
      simp [this]

theorem filter_intercalate {β : Type} (p : β → Bool) (s : List β) (l : List (List β)) :
    (s.intercalate l).filter p = (s.filter p).intercalate (l.map (List.filter p)) := by
  induction l with
  | nil => rfl
  | cons x l ih =>
    by_cases h : l = []
    · subst h; simp [intercalate_one]
    · rw [intercalate_cons _ _ h, List.map_cons, intercalate_cons _ _ (by simp [h])]
      simp [ih]

theorem intercalate_map {β : Type} (s : List β) (f : α → List β) (x : α) (l : List α) :
    s.intercalate ((x :: l).map f) = f x ++ l.flatMap fun y => s ++ f y := by
  induction l generalizing x with
  | nil => simp [intercalate_one]
  | cons y l ih =>
    rw [List.map_cons, intercalate_cons _ _ (by simp), ih]
    simp

/-! ## Rows -/

theorem rowsOf_nil (w : Nat) : rowsOf w ([] : List α) = [] := by
  rw [rowsOf]; simp

theorem rowsOf_cons {w : Nat} (hw : 0 < w) {l : List α} (h : l ≠ []) :
    rowsOf w l = l.take w :: rowsOf w (l.drop w) := by
  rw [rowsOf, dif_neg (by simp [h]; omega)]

theorem rows_spec {w : Nat} (hw : 0 < w) (l : List α) :
    (rowsOf w l).flatten = l ∧ ∀ r ∈ rowsOf w l, r ≠ [] := by
  induction hn : l.length using Nat.strong_induction_on generalizing l with
  | _ n ih =>
    by_cases h : l = []
    · subst h; simp [rowsOf_nil]
    · have hl := List.length_pos_iff.mpr h
      obtain ⟨h1, h2⟩ := ih (l.drop w).length (by simp; omega) (l.drop w) rfl
      rw [rowsOf_cons hw h]
      refine ⟨by rw [List.flatten_cons, h1, List.take_append_drop], ?_⟩
      refine List.forall_mem_cons.mpr ⟨?_, h2⟩
      intro e
      rcases List.take_eq_nil_iff.mp e with h' | h'
      · omega
      · exact h h'

/-! ## The loop -/

/-- A comma after each line but the last. -/
def commas : List (List Char) → List (List Char)
  | [] => []
  | [r] => [r]
  | r :: s :: t => (r ++ [',']) :: commas (s :: t)

theorem commas_ne {l : List (List Char)} (h : l ≠ []) : commas l ≠ [] := by
  rcases l with _ | ⟨a, _ | ⟨b, l⟩⟩ <;> simp_all [commas]

theorem commas_cons (r : List Char) {l : List (List Char)} (h : l ≠ []) :
    commas (r :: l) = (r ++ [',']) :: commas l := by
  obtain ⟨s, t, rfl⟩ := List.exists_cons_of_ne_nil h
  rfl

theorem join_commas (l : List (List Char)) :
    ['\n'].intercalate (commas l) = [',', '\n'].intercalate l := by
  induction l with
  | nil => rfl
  | cons r l ih =>
    by_cases h : l = []
    · subst h; simp [commas, intercalate_one]
    · rw [commas_cons r h, intercalate_cons _ _ (commas_ne h), ih, intercalate_cons _ _ h]
      simp

theorem loop_row (fmt : α → List Char) (w : Nat) (ys zs : List α) (i r : Nat)
    (lines : List (List Char)) (line : List Char) (hr : i % w = r) (h0 : 0 < r)
    (hl : r + ys.length ≤ w) :
    numberLoop fmt w i (ys ++ zs) lines line =
      numberLoop fmt w (i + ys.length) zs lines (line ++ ys.flatMap fun y => [',', ' '] ++ fmt y) := by
  induction ys generalizing i r line with
  | nil => simp
  | cons y ys ih =>
    simp only [List.length_cons] at hl
    rw [List.cons_append, numberLoop, if_neg (by omega), if_neg (by omega)]
    by_cases hy : ys = []
    · subst hy; simp
    · have hpos := List.length_pos_iff.mpr hy
      have hmod : (i + 1) % w = r + 1 := by
        rw [Nat.add_mod, hr, Nat.mod_eq_of_lt (show 1 < w by omega), Nat.mod_eq_of_lt (by omega)]
      rw [ih (i + 1) (r + 1) _ hmod (by omega) (by omega), List.length_cons]
      rw [show i + 1 + ys.length = i + (ys.length + 1) by omega]
      simp

theorem loop_spec (fmt : α → List Char) (w : Nat) (hw : 0 < w) (xs : List α) (hx : xs ≠ []) (i : Nat)
    (hi : i % w = 0) (lines : List (List Char)) (line : List Char) :
    ∃ l k, numberLoop fmt w i xs lines line = .ok (l, k) ∧ k ≠ [] ∧
      l ++ [k] = (if line ≠ [] then lines ++ [line ++ [',']] else lines) ++
        commas ((rowsOf w xs).map (rowText fmt)) := by
  induction hn : xs.length using Nat.strong_induction_on generalizing xs i lines line with
  | _ n ih =>
    obtain ⟨x, ys, rfl⟩ := List.exists_cons_of_ne_nil hx
    generalize hp : (if line ≠ [] then lines ++ [line ++ [',']] else lines) = pre
    have e1 : numberLoop fmt w i (x :: ys) lines line =
        numberLoop fmt w (i + 1) ys pre ([' ', ' ', ' ', ' '] ++ fmt x) := by
      rw [numberLoop, if_neg (by omega), if_pos hi, hp]
    have e2 : numberLoop fmt w (i + 1) ys pre ([' ', ' ', ' ', ' '] ++ fmt x) =
        numberLoop fmt w (i + 1 + (ys.take (w - 1)).length) (ys.drop (w - 1)) pre
          (rowText fmt ((x :: ys).take w)) := by
      have et : (x :: ys).take w = x :: ys.take (w - 1) := by
        obtain ⟨v, rfl⟩ : ∃ v, w = v + 1 := ⟨w - 1, by omega⟩
        simp
      rw [et, rowText, intercalate_map]
      by_cases h1 : w = 1
      · subst h1; simp
      · have hm : (i + 1) % w = 1 := by
          rw [Nat.add_mod, hi, Nat.mod_eq_of_lt (show 1 < w by omega)]
          simpa using Nat.mod_eq_of_lt (show 1 < w by omega)
        conv_lhs => rw [← List.take_append_drop (w - 1) ys]
        rw [loop_row fmt w _ _ (i + 1) 1 _ _ hm one_pos (by simp; omega)]
        simp
    have ed : (x :: ys).drop w = ys.drop (w - 1) := by
      obtain ⟨v, rfl⟩ : ∃ v, w = v + 1 := ⟨w - 1, by omega⟩
      simp
    have hne : rowText fmt ((x :: ys).take w) ≠ [] := by simp [rowText]
    rw [rowsOf_cons hw hx, ed, e1, e2]
    by_cases hz : ys.drop (w - 1) = []
    · rw [hz, rowsOf_nil]
      exact ⟨pre, _, rfl, hne, rfl⟩
    · have hlen : (ys.take (w - 1)).length = w - 1 := by
        have := List.length_pos_iff.mpr hz
        simp at this ⊢
        omega
      have hpos := List.length_pos_iff.mpr hz
      obtain ⟨l, k, h1, h2, h3⟩ := ih (ys.drop (w - 1)).length
        (by rw [← hn]; simp; omega) (ys.drop (w - 1)) hz (i + 1 + (ys.take (w - 1)).length)
        (by rw [hlen, show i + 1 + (w - 1) = i + w by omega, Nat.add_mod_right, hi]) pre
        (rowText fmt ((x :: ys).take w)) rfl
      refine ⟨l, k, h1, h2, ?_⟩
      have hR : (rowsOf w (ys.drop (w - 1))).map (rowText fmt) ≠ [] := by
        rw [rowsOf_cons hw hz]; simp
      rw [h3, if_pos hne, List.map_cons, commas_cons _ hR]
      simp

end Listings

variable {α : Type}

/-! ## The table -/

/-- **C98, layout.** The generated table is the numbers in order in rows of `width`, the rows separated
by a comma and a line break; it is empty without numbers. -/
theorem C98_layout (fmt : α → List Char) (width : Nat) (hw : 0 < width) (numbers : List α) :
    numberTable fmt numbers width =
      .ok ([',', '\n'].intercalate ((rowsOf width numbers).map (rowText fmt))) := by
  by_cases h : numbers = []
  · subst h
    rw [rowsOf_nil]
    rfl
  · obtain ⟨l, k, h1, h2, h3⟩ := loop_spec fmt width hw numbers h 0 (Nat.zero_mod _) [] []
    rw [numberTable, h1, Res.ok_bind]
    simp only [ne_eq, not_true_eq_false, if_false, List.nil_append] at h3
    simp only [if_pos h2, h3, join_commas]
    rfl

/-- **C98, entries.** To a parser that skips blanks, the table is the numbers separated by single
commas: as many entries as there are numbers, in their order, nothing lost at the ends of lines. -/
theorem C98_entries (fmt : α → List Char) (width : Nat) (hw : 0 < width) (numbers : List α)
    (hf : ∀ x ∈ numbers, ∀ ch ∈ fmt x, blank ch = false) :
    ∃ text, numberTable fmt numbers width = .ok text ∧
      text.filter (fun ch => !blank ch) = [','].intercalate (numbers.map fmt) := by
  refine ⟨_, C98_layout fmt width hw numbers, ?_⟩
  obtain ⟨hflat, hne⟩ := rows_spec hw numbers
  rw [filter_intercalate]
  have e : ((rowsOf width numbers).map (rowText fmt)).map (List.filter fun ch => !blank ch) =
      ((rowsOf width numbers).map (List.map fmt)).map ([','].intercalate) := by
    rw [List.map_map, List.map_map]
    refine List.map_congr_left fun r hr => ?_
    have hfil : ∀ x ∈ r, (fmt x).filter (fun ch => !blank ch) = fmt x := fun x hx =>
      List.filter_eq_self.mpr fun ch hch => by
        rw [hf x (by rw [← hflat]; exact List.mem_flatten.mpr ⟨r, hr, hx⟩) ch hch]; rfl
    simp only [Function.comp, rowText, List.filter_append, filter_intercalate, List.map_map]
    rw [show (List.filter (fun ch => !blank ch) [' ', ' ', ' ', ' ']) = [] by decide,
      show (List.filter (fun ch => !blank ch) [',', ' ']) = [','] by decide, List.nil_append]
    congr 1
    exact List.map_congr_left hfil
  rw [e, show (List.filter (fun ch => !blank ch) [',', '\n']) = [','] by decide, intercalate_rows]
  · rw [← List.map_flatten, hflat]
  · intro l hl
    obtain ⟨r, hr, rfl⟩ := List.mem_map.mp hl
    simpa using hne r hr

theorem count_comma (a : List Char) (l : List (List Char)) (h : ∀ t ∈ a :: l, ',' ∉ t) :
    ([','].intercalate (a :: l)).count ',' = l.length := by
  induction l generalizing a with
  | nil => simpa [List.intercalate, List.count_eq_zero] using h
  | cons b l ih =>
    have := ih b fun t ht => h t (List.mem_cons_of_mem _ ht)
    simp only [List.intercalate] at this ⊢
    rw [List.intersperse_cons_cons, List.flatten_cons, List.flatten_cons, List.count_append,
      List.count_append, this, List.count_eq_zero.mpr (h a (by simp))]
    simp; omega

/-- **C98, number of entries.** Where numbers are written without blanks and commas, the text has one
comma less than there are numbers. -/
theorem C98_count (fmt : α → List Char) (width : Nat) (hw : 0 < width) (numbers : List α)
    (hn : numbers ≠ []) (hf : ∀ x ∈ numbers, ∀ ch ∈ fmt x, blank ch = false ∧ ch ≠ ',') :
    ∃ text, numberTable fmt numbers width = .ok text ∧ text.count ',' + 1 = numbers.length := by
  obtain ⟨text, ht, he⟩ := C98_entries fmt width hw numbers fun x hx ch hc => (hf x hx ch hc).1
  refine ⟨text, ht, ?_⟩
  rw [← List.count_filter (p := fun ch => !blank ch) (l := text) (a := ',') (by decide), he]
  cases numbers with
  | nil => exact absurd rfl hn
  | cons a l =>
    rw [List.map_cons, count_comma, List.length_map, List.length_cons]
    intro t ht hc
    rw [← List.map_cons] at ht
    obtain ⟨x, hx, rfl⟩ := List.mem_map.mp ht
    exact (hf x hx ',' hc).2 rfl

/-- **C98, no width.** A width of zero raises, unless there are no numbers. -/
theorem C98_no_width (fmt : α → List Char) (numbers : List α) :
    numberTable fmt numbers 0 = if numbers = [] then .ok [] else .fail := by
  cases numbers <;> rfl

/-- Seven numbers in rows of three. -/
example : numberTable (fun n : Nat => (toString n).toList) [1, 2, 3, 4, 5, 6, 7] 3 =
    .ok "    1, 2, 3,\n    4, 5, 6,\n    7".toList := by decide +kernel

/-! ## The listings -/

namespace Listings

theorem lookup_push (t : List (String × List String)) (k v k' : String) :
    lookup (push t k v) k' = if k = k' then lookup t k' ++ [v] else lookup t k' := by
  induction t with
  | nil => by_cases h : k = k' <;> simp [push, lookup, h]
  | cons p t ih =>
    obtain ⟨a, vs⟩ := p
    by_cases h : a = k
    · subst h
      by_cases h' : a = k' <;> simp [push, lookup, h']
    · by_cases h' : a = k'
      · subst h'
        simp [push, lookup, h, Ne.symm h]
      · simp [push, lookup, h, h', ih]

theorem keys_push (t : List (String × List String)) (k v : String) :
    (push t k v).map (·.1) =
      if k ∈ t.map (·.1) then t.map (·.1) else t.map (·.1) ++ [k] := by
  induction t with
  | nil => simp [push]
  | cons p t ih =>
    obtain ⟨a, vs⟩ := p
    by_cases h : a = k
    · subst h; simp [push]
    · simp only [push, if_neg h, List.map_cons, ih, List.mem_cons, Ne.symm h, false_or]
      split_ifs <;> simp

theorem fold_spec (key val : Entry → String) (models : List Entry) (t : List (String × List String))
    (ht : (t.map (·.1)).Nodup) :
    ((models.foldl (fun t e => push t (key e) (val e)) t).map (·.1)).Nodup ∧
    (∀ k, k ∈ (models.foldl (fun t e => push t (key e) (val e)) t).map (·.1) ↔
      k ∈ t.map (·.1) ∨ ∃ e ∈ models, key e = k) ∧
    ∀ k, lookup (models.foldl (fun t e => push t (key e) (val e)) t) k =
      lookup t k ++ (models.filter fun e => key e = k).map val := by
  induction models generalizing t with
  | nil => simpa using ht
  | cons e models ih =>
    have hn : ((push t (key e) (val e)).map (·.1)).Nodup := by
      rw [keys_push]
      split_ifs with h
      · exact ht
      · exact List.nodup_append.mpr ⟨ht, by simp, by
          intro a ha b hb hab
          rw [List.mem_singleton] at hb
          exact h (hb ▸ hab ▸ ha)⟩
    obtain ⟨h1, h2, h3⟩ := ih (push t (key e) (val e)) hn
    rw [List.foldl_cons]
    refine ⟨h1, fun k => ?_, fun k => ?_⟩
    · rw [h2 k, keys_push]
      by_cases hk : key e ∈ t.map (·.1)
      · rw [if_pos hk]
        constructor
        · rintro (h | ⟨e', he', rfl⟩)
          · exact .inl h
          · exact .inr ⟨e', List.mem_cons_of_mem _ he', rfl⟩
        · rintro (h | ⟨e', he', rfl⟩)
          · exact .inl h
          · rcases List.mem_cons.mp he' with rfl | he'
            · exact .inl hk
            · exact .inr ⟨e', he', rfl⟩
      · rw [if_neg hk, List.mem_append, List.mem_singleton]
        constructor
        · rintro ((h | rfl) | ⟨e', he', rfl⟩)
          · exact .inl h
          · exact .inr ⟨e, List.mem_cons_self, rfl⟩
          · exact .inr ⟨e', List.mem_cons_of_mem _ he', rfl⟩
        · rintro (h | ⟨e', he', rfl⟩)
          · exact .inl (.inl h)
          · rcases List.mem_cons.mp he' with rfl | he'
            · exact .inl (.inr rfl)
            · exact .inr ⟨e', he', rfl⟩
    · rw [h3 k, lookup_push]
      by_cases hk : key e = k
      · simp [hk]
      · simp [hk]

theorem sort_perm (l : List String) : (sort l).Perm l := List.mergeSort_perm l _

theorem sort_sorted (l : List String) : (sort l).Pairwise (· ≤ ·) := by
  have := List.pairwise_mergeSort (le := fun a b : String => decide (a ≤ b))
    (fun a b c h1 h2 => by
      simp only [decide_eq_true_eq] at *; exact le_trans h1 h2)
    (fun a b => by simp only [Bool.or_eq_true, decide_eq_true_eq]; exact le_total a b) l
  simpa [sort] using this

/-- What the listings have in common. -/
theorem rows_fold (key val : Entry → String) (models : List Entry) :
    let out := rows (models.foldl (fun t e => push t (key e) (val e)) [])
    (out.map (·.1)).Pairwise (· < ·) ∧
    (∀ k, k ∈ out.map (·.1) ↔ ∃ e ∈ models, key e = k) ∧
    ∀ r ∈ out, r.2.Pairwise (· ≤ ·) ∧ r.2.Perm ((models.filter fun e => key e = r.1).map val) := by
  obtain ⟨h1, h2, h3⟩ := fold_spec key val models [] (by simp)
  intro out
  have hk : out.map (·.1) = sort ((models.foldl (fun t e => push t (key e) (val e)) []).map (·.1)) := by
    simp [out, rows, Function.comp_def]
  refine ⟨?_, fun k => ?_, fun r hr => ?_⟩
  · rw [hk]
    have hs := sort_sorted ((models.foldl (fun t e => push t (key e) (val e)) []).map (·.1))
    have hn := (sort_perm ((models.foldl (fun t e => push t (key e) (val e)) []).map (·.1))).nodup_iff.mpr h1
    exact List.Pairwise.imp₂ (fun a b hab hne => lt_of_le_of_ne hab hne) hs hn
  · rw [hk, (sort_perm _).mem_iff, h2 k]
    simp
  · obtain ⟨k, -, rfl⟩ := List.mem_map.mp hr
    refine ⟨sort_sorted _, (sort_perm _).trans ?_⟩
    rw [h3 k]
    simp [lookup]

end Listings

/-- **C98, listings.** The listing of flavors by model names every model once, in order, each with
exactly its flavors, in order; the other listing likewise. -/
theorem C98_listings (models : List Entry) :
    (((flavorsByModel models).map (·.1)).Pairwise (· < ·) ∧
      (∀ k, k ∈ (flavorsByModel models).map (·.1) ↔ ∃ e ∈ models, e.name = k) ∧
      ∀ r ∈ flavorsByModel models, r.2.Pairwise (· ≤ ·) ∧
        r.2.Perm ((models.filter fun e => e.name = r.1).map (·.flavor))) ∧
    (((modelsByFlavor models).map (·.1)).Pairwise (· < ·) ∧
      (∀ k, k ∈ (modelsByFlavor models).map (·.1) ↔ ∃ e ∈ models, e.flavor = k) ∧
      ∀ r ∈ modelsByFlavor models, r.2.Pairwise (· ≤ ·) ∧
        r.2.Perm ((models.filter fun e => e.flavor = r.1).map (·.name))) :=
  ⟨rows_fold (·.name) (·.flavor) models, rows_fold (·.flavor) (·.name) models⟩

/-- **C98, agreement.** The two listings name the same pairs: those of the models there are. -/
theorem C98_listings_agree (models : List Entry) (f m : String) :
    ((∃ r ∈ flavorsByModel models, r.1 = m ∧ f ∈ r.2) ↔ ⟨f, m⟩ ∈ models) ∧
    ((∃ r ∈ modelsByFlavor models, r.1 = f ∧ m ∈ r.2) ↔ ⟨f, m⟩ ∈ models) := by
  obtain ⟨⟨-, a2, a3⟩, -, b2, b3⟩ := C98_listings models
  constructor
  · constructor
    · rintro ⟨r, hr, rfl, hf⟩
      have := (a3 r hr).2.mem_iff.mp hf
      simp only [List.mem_map, List.mem_filter, decide_eq_true_eq] at this
      obtain ⟨⟨f', m'⟩, ⟨he, rfl⟩, rfl⟩ := this
      exact he
    · intro he
      obtain ⟨r, hr, hm⟩ := List.mem_map.mp ((a2 m).mpr ⟨_, he, rfl⟩)
      refine ⟨r, hr, hm, (a3 r hr).2.mem_iff.mpr ?_⟩
      simp only [List.mem_map, List.mem_filter, decide_eq_true_eq]
      exact ⟨_, ⟨he, hm.symm⟩, rfl⟩
  · constructor
    · rintro ⟨r, hr, rfl, hf⟩
      have := (b3 r hr).2.mem_iff.mp hf
      simp only [List.mem_map, List.mem_filter, decide_eq_true_eq] at this
      obtain ⟨⟨f', m'⟩, ⟨he, rfl⟩, rfl⟩ := this
      exact he
    · intro he
      obtain ⟨r, hr, hm⟩ := List.mem_map.mp ((b2 f).mpr ⟨_, he, rfl⟩)
      refine ⟨r, hr, hm, (b3 r hr).2.mem_iff.mpr ?_⟩
      simp only [List.mem_map, List.mem_filter, decide_eq_true_eq]
      exact ⟨_, ⟨he, hm.symm⟩, rfl⟩

/-- Two flavors of one model, one of another. -/
example : ⟨"lp", "dd"⟩ ∈ ([⟨"dbg", "bb"⟩, ⟨"dbg", "dd"⟩, ⟨"lp", "dd"⟩] : List Entry) := by decide

end Dist
