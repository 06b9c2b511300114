import Verif.Model.License
import Verif.Spec.License

/-! # Lines of text -/

namespace Dist.License

open Spec

theorem white_iff (c : Char) : White c ↔ isSpace c = true := by
  unfold White isSpace
  rw [List.contains_iff_mem]

theorem trimmed_iff (l t : Text) : Trimmed l t ↔ t = rstrip l := by
  unfold rstrip
  constructor
  · rintro ⟨w, rfl, hw, ht⟩
    have h1 : (t ++ w).rdropWhile isSpace = t.rdropWhile isSpace := by
      clear ht
      induction w using List.reverseRecOn with
      | nil => simp
      | append_singleton w c ih =>
        rw [← List.append_assoc, List.rdropWhile_concat_pos _ _ _ ((white_iff c).mp (hw c (by simp)))]
        exact ih fun c hc => hw c (by simp [hc])
    rw [h1, eq_comm, List.rdropWhile_eq_self_iff]
    intro hl h
    exact ht _ (List.getLast?_eq_some_getLast hl) ((white_iff _).mpr h)
  · rintro rfl
    refine ⟨l.rtakeWhile isSpace, ?_, ?_, ?_⟩
    · rw [List.rdropWhile_append_rtakeWhile]
    · intro c hc
      exact (white_iff c).mpr (List.mem_rtakeWhile_imp hc)
    · intro c hc h
      have hne : l.rdropWhile isSpace ≠ [] := by rintro h0; simp [h0] at hc
      have := List.rdropWhile_last_not isSpace l hne
      rw [List.getLast?_eq_some_getLast hne] at hc
      cases hc
      exact this ((white_iff _).mp h)

theorem rstrip_idem (l : Text) : rstrip (rstrip l) = rstrip l := List.rdropWhile_idempotent isSpace l

theorem rstrip_newline (l : Text) : rstrip (l ++ ['\n']) = rstrip l :=
  List.rdropWhile_concat_pos _ _ _ (by decide)

theorem linesOf_append (l rest : Text) (h : '\n' ∉ l) : linesOf (l ++ '\n' :: rest) = (l ++ ['\n']) :: linesOf rest := by
  induction l with
  | nil => simp [linesOf]
  | cons c l ih =>
    have hc : c ≠ '\n' := fun e => h (by simp [e])
    rw [List.cons_append, linesOf, if_neg hc, ih (fun e => h (by simp [e]))]
    rfl

theorem linesOf_last (l : Text) (h : '\n' ∉ l) (h0 : l ≠ []) : linesOf l = [l] := by
  induction l with
  | nil => exact absurd rfl h0
  | cons c l ih =>
    have hc : c ≠ '\n' := fun e => h (by simp [e])
    rw [linesOf, if_neg hc]
    cases l with
    | nil => rfl
    | cons c' l => rw [ih (fun e => h (by simp [e])) (by simp)]

theorem linesOf_flatMap (ls : List Text) (rest : Text) (h : ∀ l ∈ ls, '\n' ∉ l) :
    linesOf (ls.flatMap (fun l => l ++ ['\n']) ++ rest) = ls.map (fun l => l ++ ['\n']) ++ linesOf rest := by
  induction ls with
  | nil => rfl
  | cons l ls ih =>
    rw [List.flatMap_cons, List.append_assoc, List.append_assoc]
    change linesOf (l ++ '\n' :: (ls.flatMap (fun l => l ++ ['\n']) ++ rest)) = _
    rw [linesOf_append l _ (h l (by simp)), ih fun l hl => h l (by simp [hl])]
    rfl

theorem rstrip_linesOf {text : Text} {ls : List Text} (h : Lines text ls) :
    (linesOf text).map rstrip = ls.map rstrip := by
  obtain ⟨h1, h2 | ⟨init, last, rfl, h0, h2⟩⟩ := h
  · have := linesOf_flatMap ls [] h1
    rw [List.append_nil, ← h2] at this
    rw [this]
    simp only [linesOf, List.append_nil, List.map_map]
    exact List.map_congr_left fun l _ => rstrip_newline l
  · rw [h2, linesOf_flatMap init last fun l hl => h1 l (by simp [hl]), linesOf_last last (h1 last (by simp)) h0,
      List.map_append, List.map_append, List.map_map]
    congr 1
    exact List.map_congr_left fun l _ => rstrip_newline l

theorem exists_lines (text : Text) : ∃ ls, Lines text ls := by
  induction text with
  | nil => exact ⟨[], by simp, Or.inl rfl⟩
  | cons c text ih =>
    obtain ⟨ls, h1, h2⟩ := ih
    by_cases hc : c = '\n'
    · subst hc
      refine ⟨[] :: ls, by simpa using h1, ?_⟩
      rcases h2 with h2 | ⟨init, last, rfl, h0, h2⟩
      · exact Or.inl (by simp [h2])
      · exact Or.inr ⟨[] :: init, last, rfl, h0, by simp [h2]⟩
    · have hc' : ∀ l : Text, '\n' ∉ l → '\n' ∉ c :: l := fun l hl => by
        simp only [List.mem_cons, not_or]; exact ⟨fun e => hc e.symm, hl⟩
      rcases h2 with h2 | ⟨init, last, rfl, h0, h2⟩
      · cases ls with
        | nil =>
          subst h2
          exact ⟨[[c]], by simpa using fun e => hc e.symm, Or.inr ⟨[], [c], rfl, by simp, rfl⟩⟩
        | cons l ls =>
          refine ⟨(c :: l) :: ls, ?_, Or.inl (by simp [h2])⟩
          intro l' hl'
          rcases List.mem_cons.mp hl' with rfl | hl'
          · exact hc' _ (h1 _ (by simp))
          · exact h1 _ (by simp [hl'])
      · cases init with
        | nil =>
          refine ⟨[c :: last], ?_, Or.inr ⟨[], c :: last, rfl, by simp, by simp [h2]⟩⟩
          intro l' hl'
          rw [List.mem_singleton] at hl'
          subst hl'
          exact hc' _ (h1 _ (by simp))
        | cons l init =>
          refine ⟨(c :: l) :: init ++ [last], ?_, Or.inr ⟨(c :: l) :: init, last, rfl, h0, by simp [h2]⟩⟩
          intro l' hl'
          rcases List.mem_cons.mp hl' with rfl | hl'
          · exact hc' _ (h1 _ (by simp))
          · exact h1 _ (by simp at hl' ⊢; tauto)

/-- Lines that `read_and_strip_lines` skips at the top. -/
def skipped (symbol line : Text) : Bool := line.isEmpty || symbol.isPrefixOf line

theorem stripLoop_true (symbol : Text) (ls : List Text) : stripLoop symbol true ls = ls.map rstrip := by
  induction ls with
  | nil => rfl
  | cons l ls ih => simp [stripLoop, ih]

theorem stripLoop_false (symbol : Text) (ls : List Text) :
    stripLoop symbol false ls = (ls.map rstrip).dropWhile (skipped symbol) := by
  induction ls with
  | nil => rfl
  | cons l ls ih =>
    rw [List.map_cons, List.dropWhile_cons]
    unfold stripLoop
    by_cases h : skipped symbol (rstrip l) = true
    · have : (!false && decide (rstrip l ≠ []) && !symbol.isPrefixOf (rstrip l)) = false := by
        unfold skipped at h
        cases hl : rstrip l <;> simp_all
      simp only [this, h, if_true, Bool.false_eq_true, if_false]
      exact ih
    · have : (!false && decide (rstrip l ≠ []) && !symbol.isPrefixOf (rstrip l)) = true := by
        unfold skipped at h
        rw [Bool.or_eq_true, not_or] at h
        simp only [Bool.not_eq_true] at h
        simp [h.2]
        simpa using h.1
      simp only [this, h, if_true, Bool.false_eq_true, if_false]
      rw [stripLoop_true]

theorem code_iff (symbol text : Text) (code : List Text) :
    Code symbol text code ↔ code = stripLoop symbol false (linesOf text) := by
  rw [stripLoop_false]
  constructor
  · rintro ⟨ls, pre, hl, ht, hp, hc⟩
    have e : pre ++ code = ls.map rstrip := by
      clear hl hp hc
      generalize pre ++ code = ts at ht
      induction ht with
      | nil => rfl
      | cons h _ ih => rw [List.map_cons, ← ih, (trimmed_iff _ _).mp h]
    rw [rstrip_linesOf hl, ← e, List.dropWhile_append_of_pos]
    · cases code with
      | nil => rfl
      | cons c code =>
        rw [List.dropWhile_cons_of_neg]
        have := hc c rfl
        simp [skipped, this]
    · intro l h
      rcases hp l h with rfl | h
      · rfl
      · simp [skipped, h]
  · rintro rfl
    obtain ⟨ls, hl⟩ := exists_lines text
    rw [rstrip_linesOf hl]
    refine ⟨ls, (ls.map rstrip).takeWhile (skipped symbol), hl, ?_, ?_, ?_⟩
    · rw [List.takeWhile_append_dropWhile]
      clear hl
      induction ls with
      | nil => exact .nil
      | cons l ls ih => exact .cons ((trimmed_iff _ _).mpr rfl) ih
    · intro l h
      have := List.mem_takeWhile_imp h
      simpa [skipped] using this
    · intro l h
      have hne : (ls.map rstrip).dropWhile (skipped symbol) ≠ [] := by rintro h0; simp [h0] at h
      have := List.head_dropWhile_not (skipped symbol) hne
      rw [List.head?_eq_some_head hne] at h
      cases h
      simp only [skipped, Bool.or_eq_false_iff] at this
      exact ⟨by simpa using this.1, fun hp => by simp [List.isPrefixOf_iff_prefix.mpr hp] at this⟩

theorem lines_writeLines (ls : List Text) (h : ∀ l ∈ ls, '\n' ∉ l) : Lines (writeLines ls) ls :=
  ⟨h, Or.inl rfl⟩

theorem newline_not_mem_rstrip_linesOf (text : Text) : ∀ l ∈ (linesOf text).map rstrip, '\n' ∉ l := by
  obtain ⟨ls, hl⟩ := exists_lines text
  rw [rstrip_linesOf hl]
  intro l h hn
  obtain ⟨l', h1, rfl⟩ := List.mem_map.mp h
  exact hl.1 l' h1 ((List.rdropWhile_prefix isSpace l').subset hn)

theorem code_lines {symbol text : Text} {code : List Text} (h : Code symbol text code) :
    (∀ l ∈ code, '\n' ∉ l) ∧ ∀ l ∈ code, rstrip l = l := by
  rw [code_iff, stripLoop_false] at h
  subst h
  have hs := (List.dropWhile_suffix (skipped symbol) : _ <:+ (linesOf text).map rstrip).subset
  refine ⟨fun l hl => newline_not_mem_rstrip_linesOf text l (hs hl), fun l hl => ?_⟩
  obtain ⟨l', -, rfl⟩ := List.mem_map.mp (hs hl)
  exact rstrip_idem l'

theorem code_head {symbol text : Text} {code : List Text} (h : Code symbol text code) :
    ∀ l ∈ code.head?, l ≠ [] ∧ ¬ symbol <+: l := by
  obtain ⟨_, _, _, _, _, h⟩ := h
  exact h

/-- A text written from skipped lines and code has that code. -/
theorem code_write {symbol : Text} {pre code : List Text} (hn : ∀ l ∈ pre ++ code, '\n' ∉ l)
    (hp : ∀ l ∈ pre, rstrip l = [] ∨ symbol <+: rstrip l) (ht : ∀ l ∈ code, rstrip l = l)
    (hc : ∀ l ∈ code.head?, l ≠ [] ∧ ¬ symbol <+: l) : Code symbol (writeLines (pre ++ code)) code := by
  refine ⟨pre ++ code, pre.map rstrip, lines_writeLines _ hn, ?_, ?_, hc⟩
  · refine List.rel_append ?_ ?_
    · clear hn hp
      induction pre with
      | nil => exact .nil
      | cons l ls ih => exact .cons ((trimmed_iff _ _).mpr rfl) ih
    · clear hn hp hc
      induction code with
      | nil => exact .nil
      | cons l ls ih =>
        exact .cons ((trimmed_iff _ _).mpr (ht l (by simp)).symm) (ih fun l hl => ht l (by simp [hl]))
  · intro l hl
    obtain ⟨l', h1, rfl⟩ := List.mem_map.mp hl
    exact hp l' h1

theorem mem_of_lookup {α β : Type} [BEq α] {a : α} {b : β} :
    {l : List (α × β)} → l.lookup a = some b → ∃ a', (a', b) ∈ l
  | [], h => by simp at h
  | (k, v) :: l, h => by
    rw [List.lookup_cons] at h
    split at h
    · cases h; exact ⟨k, by simp⟩
    · obtain ⟨a', h⟩ := mem_of_lookup h
      exact ⟨a', by simp [h]⟩

theorem symbolFor_ok {e symbol : Text} (h : symbolFor e = .ok symbol) :
    '\n' ∉ symbol ∧ rstrip symbol = symbol ∧ symbol ≠ [] := by
  unfold symbolFor at h
  cases hl : symbolOf.lookup e with
  | none => rw [hl] at h; cases h
  | some s =>
    rw [hl] at h
    cases h
    obtain ⟨a, ha⟩ := mem_of_lookup hl
    have : symbol ∈ symbolOf.map Prod.snd := List.mem_map.mpr ⟨_, ha, rfl⟩
    clear ha hl
    revert symbol
    decide

theorem prefix_rstrip {symbol line : Text} (hs : rstrip symbol = symbol) (h : symbol <+: line) :
    symbol <+: rstrip line := by
  obtain ⟨x, rfl⟩ := h
  unfold rstrip at hs ⊢
  induction x using List.reverseRecOn with
  | nil => rw [List.append_nil, hs]; exact List.prefix_refl _
  | append_singleton x c ih =>
    rw [← List.append_assoc]
    by_cases hc : isSpace c = true
    · rw [List.rdropWhile_concat_pos _ _ _ hc]
      exact ih
    · rw [List.rdropWhile_concat_neg _ _ _ hc, List.append_assoc]
      exact List.prefix_append _ _

theorem header_line {symbol line : Text} (hs : rstrip symbol = symbol) (hl : rstrip line = line) :
    symbol <+: rstrip (if line = [] then symbol else symbol ++ [' '] ++ line) := by
  split_ifs with h
  · rw [hs]; exact List.prefix_refl _
  · have : rstrip (symbol ++ [' '] ++ line) = symbol ++ [' '] ++ line := by
      unfold rstrip at hl ⊢
      rw [List.rdropWhile_eq_self_iff] at hl ⊢
      intro _
      rw [List.getLast_append_of_ne_nil _ h]
      exact hl h
    rw [this, List.append_assoc]
    exact List.prefix_append _ _

end Dist.License
