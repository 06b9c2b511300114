import Verif.Model.Repeated
import Verif.Spec.Repeated
import Verif.Props.Wire

/-! # C99: printing and comparing repeated fields -/

namespace Dist

open Spec

namespace Repeated

variable {α : Type}

theorem printLoop_eq (item : α → List Char) (l : List α) (n i : Nat) (h : n + i = l.length)
    (os : List Char) :
    printLoop item l n i os = .ok (os ++ (l.drop i).flatMap fun x => ',' :: item x) := by
  induction n generalizing i os with
  | zero =>
    have : l.drop i = [] := List.drop_eq_nil_of_le (by omega)
    simp [printLoop, this]
  | succ n ih =>
    have hi : i < l.length := by omega
    rw [printLoop, getAt_of hi, Res.ok_bind, ih (i + 1) (by omega), List.drop_eq_getElem_cons hi,
      List.flatMap_cons]
    simp only [List.append_assoc, List.cons_append, List.nil_append]

theorem intercalate_cons (a : List Char) (l : List (List Char)) :
    [','].intercalate (a :: l) = a ++ l.flatMap fun x => ',' :: x := by
  induction l generalizing a with
  | nil => simp [List.intercalate]
  | cons b l ih =>
    have := ih b
    simp only [List.intercalate, List.flatMap_cons] at this ⊢
    rw [List.intersperse_cons_cons, List.flatten_cons, List.flatten_cons, this]
    simp

/-- **C99, printing.** The entries are written between brackets with commas between them, after what
the stream held. -/
theorem C99_print (item : α → List Char) (os : List Char) (l : List α) :
    print item os l = .ok (os ++ bracketed (l.map item)) := by
  cases l with
  | nil => rfl
  | cons a l =>
    simp only [print, List.length_cons, Nat.add_eq_zero_iff, one_ne_zero, and_false, ne_eq,
      not_false_eq_true, if_true, getAt_of (show 0 < (a :: l).length by simp), Res.ok_bind,
      List.getElem_cons_zero, Nat.add_sub_cancel]
    rw [printLoop_eq item (a :: l) l.length 1 (by simp)]
    simp [bracketed, intercalate_cons, List.flatMap_map]

theorem split_comma {a b s t : List Char} (ha : ',' ∉ a) (hb : ',' ∉ b)
    (hs : s = [] ∨ ∃ s', s = ',' :: s') (ht : t = [] ∨ ∃ t', t = ',' :: t')
    (h : a ++ s = b ++ t) : a = b ∧ s = t := by
  induction a generalizing b with
  | nil =>
    cases b with
    | nil => exact ⟨rfl, h⟩
    | cons c b =>
      rcases hs with rfl | ⟨s', rfl⟩
      · simp at h
      · simp only [List.nil_append, List.cons_append, List.cons.injEq] at h
        exact absurd (by rw [h.1]; simp) hb
  | cons d a ih =>
    cases b with
    | nil =>
      rcases ht with rfl | ⟨t', rfl⟩
      · simp at h
      · simp only [List.nil_append, List.cons_append, List.cons.injEq] at h
        exact absurd (by rw [← h.1]; simp) ha
    | cons c b =>
      simp only [List.cons_append, List.cons.injEq] at h
      obtain ⟨rfl, h⟩ := h
      obtain ⟨rfl, h'⟩ := ih (fun hm => ha (by simp [hm])) (fun hm => hb (by simp [hm])) h
      exact ⟨rfl, h'⟩

theorem tail_cases (l : List (List Char)) : (l.flatMap fun x => ',' :: x) = [] ∨
    ∃ s, (l.flatMap fun x => ',' :: x) = ',' :: s := by
  cases l with
  | nil => exact .inl rfl
  | cons a l => exact .inr ⟨_, by simp only [List.flatMap_cons, List.cons_append]; rfl⟩

theorem tail_inj {l m : List (List Char)} (hl : ∀ a ∈ l, ',' ∉ a) (hm : ∀ a ∈ m, ',' ∉ a)
    (h : (l.flatMap fun x => ',' :: x) = m.flatMap fun x => ',' :: x) : l = m := by
  induction l generalizing m with
  | nil => cases m with
    | nil => rfl
    | cons b m => simp at h
  | cons a l ih => cases m with
    | nil => simp at h
    | cons b m =>
      simp only [List.flatMap_cons, List.cons_append, List.cons.injEq, true_and] at h
      obtain ⟨h1, h2⟩ := split_comma (hl a (by simp)) (hm b (by simp)) (tail_cases l) (tail_cases m) h
      rw [h1, ih (fun x hx => hl x (List.mem_cons_of_mem _ hx))
        (fun x hx => hm x (List.mem_cons_of_mem _ hx)) h2]

theorem bracketed_inj {l m : List (List Char)} (hl : ∀ a ∈ l, a ≠ [] ∧ ',' ∉ a)
    (hm : ∀ a ∈ m, a ≠ [] ∧ ',' ∉ a) (h : bracketed l = bracketed m) : l = m := by
  have h : [','].intercalate l = [','].intercalate m := by
    simpa [bracketed] using h
  cases l with
  | nil => cases m with
    | nil => rfl
    | cons b m =>
      rw [intercalate_cons] at h
      have := (List.append_eq_nil_iff.mp h.symm).1
      exact absurd this (hm b (by simp)).1
  | cons a l => cases m with
    | nil =>
      rw [intercalate_cons] at h
      exact absurd (List.append_eq_nil_iff.mp h).1 (hl a (by simp)).1
    | cons b m =>
      rw [intercalate_cons, intercalate_cons] at h
      obtain ⟨h1, h2⟩ := split_comma (hl a (by simp)).2 (hm b (by simp)).2 (tail_cases l)
        (tail_cases m) h
      rw [h1, tail_inj (fun x hx => (hl x (List.mem_cons_of_mem _ hx)).2)
        (fun x hx => (hm x (List.mem_cons_of_mem _ hx)).2) h2]

/-- The number that decimal digits stand for. -/
def value (s : List Char) : Nat := s.foldl (fun n c => 10 * n + (c.toNat - 48)) 0

theorem digit_toNat {d : Nat} (h : d < 10) : (Char.ofNat (48 + d)).toNat = 48 + d := by
  interval_cases d <;> rfl

theorem value_decimal (n : Nat) : value (decimal n) = n := by
  induction n using Nat.strongRecOn with
  | _ n ih =>
    rw [decimal]
    split
    · next h => simp [value, digit_toNat h]
    · next h =>
      have := ih (n / 10) (by omega)
      simp only [value] at this ⊢
      rw [List.foldl_append, this, List.foldl_cons, List.foldl_nil, digit_toNat (by omega)]
      omega

theorem decimal_text (n : Nat) : decimal n ≠ [] ∧ ',' ∉ decimal n := by
  induction n using Nat.strongRecOn with
  | _ n ih =>
    have hd : ∀ d < 10, ',' ≠ Char.ofNat (48 + d) := by
      intro d h
      interval_cases d <;> decide
    rw [decimal]
    split
    · next h => exact ⟨by simp, by simpa using hd n h⟩
    · next h => exact ⟨by simp, by simpa using ⟨(ih (n / 10) (by omega)).2, hd _ (by omega)⟩⟩

/-- **C99, printed integers.** Two repeated fields of unsigned integers are printed alike only if they
are the same. -/
theorem C99_print_integers (os : List Char) (l m : List Nat) :
    print decimal os l = print decimal os m ↔ l = m := by
  refine ⟨fun h => ?_, fun h => by rw [h]⟩
  rw [C99_print, C99_print, Res.ok.injEq, List.append_cancel_left_eq] at h
  have hb := bracketed_inj (by simp [decimal_text]) (by simp [decimal_text]) h
  exact List.map_injective_iff.mpr (Function.LeftInverse.injective value_decimal) hb

example : print decimal ['x'] [12, 0, 305] = .ok "x[12,0,305]".toList := by
  rw [C99_print]
  simp [bracketed, decimal]

theorem equalLoop_eq (ne : α → α → Bool) (x y : List α) (h : x.length = y.length) (n i : Nat)
    (hn : n + i = x.length) :
    ∃ b, equalLoop ne x y n i = .ok b ∧
      (b = true ↔ List.Forall₂ (fun a b => ne a b = false) (x.drop i) (y.drop i)) := by
  induction n generalizing i with
  | zero =>
    refine ⟨true, rfl, ?_⟩
    rw [List.drop_eq_nil_of_le (by omega), List.drop_eq_nil_of_le (by omega)]
    simp
  | succ n ih =>
    have hx : i < x.length := by omega
    have hy : i < y.length := by omega
    rw [equalLoop, getAt_of hx, getAt_of hy, Res.ok_bind, Res.ok_bind,
      List.drop_eq_getElem_cons hx, List.drop_eq_getElem_cons hy]
    cases hne : ne x[i] y[i]
    · obtain ⟨b, h1, h2⟩ := ih (i + 1) (by omega)
      exact ⟨b, by simpa using h1, by rw [h2, List.forall₂_cons]; simp only [hne, true_and]⟩
    · exact ⟨false, by simp [Res.pure_eq], by rw [List.forall₂_cons]; simp only [hne]; simp⟩

/-- **C99, comparing.** Repeated fields are equal if they have the same number of entries and no two
entries at the same place differ. -/
theorem C99_equal (ne : α → α → Bool) (x y : List α) :
    ∃ b, equal ne x y = .ok b ∧
      (b = true ↔ List.Forall₂ (fun a b => ne a b = false) x y) := by
  unfold equal
  split
  · next h => exact ⟨false, rfl, by simpa using fun hf => h hf.length_eq⟩
  · next h =>
    have := equalLoop_eq ne x y (not_not.mp h) x.length 0 rfl
    simpa using this

/-- **C99, integers.** Repeated fields of integers compare equal if they are. -/
theorem C99_equal_integers (x y : List Nat) : equal (· != ·) x y = .ok (decide (x = y)) := by
  obtain ⟨b, h1, h2⟩ := C99_equal (· != ·) x y
  rw [h1]
  simp only [bne_eq_false_iff_eq, List.forall₂_eq_eq_eq] at h2
  congr 1
  by_cases h : x = y <;> simp_all

example : equal (· != ·) [1, 2, 3] [1, 2, 3] = .ok true ∧ equal (· != ·) [1, 2, 3] [1, 2] = .ok false ∧
    equal (· != ·) [1, 2, 3] [1, 5, 3] = .ok false := by
  simp [C99_equal_integers]

theorem floatNe_false (a b : BitVec 32) :
    floatNe a b = false ↔ F32.val a = F32.val b ∧ F32.val a ≠ .nan := by
  unfold floatNe
  cases F32.val a with
  | nan => simp [F32.Val.le]
  | inf s => cases F32.val b with
    | nan => simp [F32.Val.le]
    | inf t => cases s <;> cases t <;> simp [F32.Val.le]
    | fin q => cases s <;> simp [F32.Val.le]
  | fin p => cases F32.val b with
    | nan => simp [F32.Val.le]
    | inf t => cases t <;> simp [F32.Val.le]
    | fin q =>
      simp only [F32.Val.le, Bool.not_eq_false', Bool.and_eq_true, decide_eq_true_eq, F32.Val.fin.injEq,
        ne_eq, reduceCtorEq, not_false_eq_true, and_true]
      exact ⟨fun h => le_antisymm h.1 h.2, fun h => ⟨h.le, h.ge⟩⟩

theorem val_zero : F32.val 0x00000000 = .fin 0 := by
  simp [F32.val, F32.expo, F32.man, F32.magnitude]

theorem val_neg_zero : F32.val 0x80000000 = .fin 0 := by
  have h1 : F32.expo 0x80000000 = 0 := by decide
  have h2 : F32.man 0x80000000 = 0 := by decide
  rw [F32.val, if_neg (by rw [h1]; decide), F32.magnitude, if_pos h1, h2]
  simp

theorem val_nan : F32.val 0x7fc00000 = .nan := by
  have h1 : F32.expo 0x7fc00000 = 255 := by decide
  have h2 : F32.man 0x7fc00000 ≠ 0 := by decide
  rw [F32.val, if_pos h1, if_neg h2]

/-- **C99, floats.** Repeated fields of floats are equal if they have the same number of entries and
those at the same place stand for the same number. -/
theorem C99_equal_floats (x y : List (BitVec 32)) :
    ∃ b, equal floatNe x y = .ok b ∧
      (b = true ↔ x.map F32.val = y.map F32.val ∧ ∀ a ∈ x, F32.val a ≠ .nan) := by
  obtain ⟨b, h1, h2⟩ := C99_equal floatNe x y
  refine ⟨b, h1, h2.trans ?_⟩
  simp only [floatNe_false]
  clear h1 h2
  induction x generalizing y with
  | nil => cases y <;> simp
  | cons a x ih => cases y with
    | nil => simp
    | cons c y =>
      rw [List.forall₂_cons, ih]
      simp only [List.map_cons, List.cons.injEq, List.forall_mem_cons]
      tauto

/-- **C99, finding.** A repeated field with an entry that is not a number does not equal itself. -/
theorem C99_equal_nan (x : List (BitVec 32)) (a : BitVec 32) (h : a ∈ x) (hn : F32.val a = .nan) :
    equal floatNe x x = .ok false := by
  obtain ⟨b, h1, h2⟩ := C99_equal_floats x x
  rw [h1]
  cases b with
  | false => rfl
  | true => exact absurd hn ((h2.mp rfl).2 a h)

example : equal floatNe [0x3f800000, 0x7fc00000] [0x3f800000, 0x7fc00000] = .ok false :=
  C99_equal_nan _ 0x7fc00000 (by simp) val_nan

/-- The message of Dirichlet-Discrete parameters with the given floats. -/
def alphasMsg {U : Type} (x : List (BitVec 32)) : Wire.Msg U := Wire.ofLists [x.map (·.toNat)]

/-- **C99, messages.** Messages that hold floats are equal, by their `operator==`, exactly if the bits
of the floats are. -/
theorem C99_message {U : Type} {lib : Wire.UnknownLib U} (L : UnknownLaws lib)
    (x y : List (BitVec 32)) :
    Wire.msgEq lib Wire.ddShared (alphasMsg x) (alphasMsg y) = true ↔ x = y := by
  have hw : ∀ x : List (BitVec 32), WellFormed lib Wire.ddShared (alphasMsg x) := fun x =>
    (Wire.wellFormed_ofLists (S := Wire.ddShared) (ls := [x.map (·.toNat)]) rfl (by
      simpa [Wire.ddShared, Fits, Wire.Ty.bound] using fun a _ => a.isLt)).1
  rw [Wire.C64_equal L (by simp [Wire.schemas]) _ _ (hw x) (hw y)]
  refine ⟨fun h => ?_, fun h => by rw [h]⟩
  have h1 := congrFun (congrArg Wire.Msg.vals h) 1
  simp only [alphasMsg, Wire.ofLists] at h1
  exact List.map_injective_iff.mpr (fun _ _ => BitVec.eq_of_toNat_eq) (by simpa using h1)

/-- **C99, finding.** The two ways of comparing disagree on the sign of zero and on what is not a number:
fields that compare equal may be in messages that differ, and the other way round. -/
theorem C99_disagree {U : Type} {lib : Wire.UnknownLib U} (L : UnknownLaws lib) :
    (equal floatNe [0x00000000] [0x80000000] = .ok true ∧
      Wire.msgEq lib Wire.ddShared (alphasMsg [0x00000000]) (alphasMsg [0x80000000]) = false) ∧
    (equal floatNe [0x7fc00000] [0x7fc00000] = .ok false ∧
      Wire.msgEq lib Wire.ddShared (alphasMsg [0x7fc00000]) (alphasMsg [0x7fc00000]) = true) := by
  refine ⟨⟨?_, ?_⟩, C99_equal_nan _ 0x7fc00000 (by simp) val_nan, (C99_message L _ _).mpr rfl⟩
  · obtain ⟨b, h1, h2⟩ := C99_equal_floats [0x00000000] [0x80000000]
    rw [h1, h2.mpr ⟨congrArg (· :: []) (val_zero.trans val_neg_zero.symm), fun a ha => by
      rw [List.mem_singleton.mp ha, val_zero]; simp⟩]
  · rw [← Bool.not_eq_true, C99_message L]
    simp

end Repeated

end Dist
