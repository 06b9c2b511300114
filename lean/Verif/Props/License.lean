import Verif.Lemmas.License

/-! # C94: the licence tool -/

namespace Dist.License

open Spec

/-- The files the tool touches, and that it knows the comment symbol of each. -/
theorem C94_files (walk : List (List Text × List Text)) (file : Text) :
    file ∈ files walk ↔ ∃ dir ∈ walk, (∀ d ∈ dirBlacklist, d ∉ dir.1) ∧ ∃ name ∈ dir.2,
      file = path dir.1 name ∧ (∃ e ∈ extensions, e <:+ name) ∧ blacklisted name = false := by
  unfold files
  rw [List.mem_flatMap]
  refine exists_congr fun dir => and_congr_right fun _ => ?_
  by_cases h : (dirBlacklist.any fun d => dir.1.contains d) = true
  · simp only [h, if_true, List.not_mem_nil, false_iff, not_and]
    intro h'
    obtain ⟨d, h1, h2⟩ := List.any_eq_true.mp h
    exact absurd (List.contains_iff_mem.mp h2) (h' d h1)
  · have h' : ∀ d ∈ dirBlacklist, d ∉ dir.1 := fun d h1 h2 =>
      h (List.any_eq_true.mpr ⟨d, h1, List.contains_iff_mem.mpr h2⟩)
    simp only [h, Bool.false_eq_true, if_false]
    simp only [List.mem_flatMap, List.mem_map, List.mem_filter, List.isSuffixOf_iff_suffix,
      Bool.not_eq_true']
    constructor
    · rintro ⟨e, he, name, ⟨⟨h1, h2⟩, h3⟩, rfl⟩
      exact ⟨h', name, h1, rfl, ⟨e, he, h2⟩, h3⟩
    · rintro ⟨-, name, h1, rfl, ⟨e, he, h2⟩, h3⟩
      exact ⟨e, he, name, ⟨⟨h1, h2⟩, h3⟩, rfl⟩

theorem extension_suffix {e name : Text} (he : e ∈ extensions) (h : e <:+ name) : extension name = .ok e := by
  obtain ⟨t, rfl⟩ := h
  have he' : ∃ x, e = '.' :: x ∧ '.' ∉ x := by
    have : ∀ e ∈ extensions, e.head? = some '.' ∧ '.' ∉ e.tail := by decide
    obtain ⟨h1, h2⟩ := this e he
    exact ⟨e.tail, (List.cons_head?_tail h1).symm, h2⟩
  obtain ⟨x, rfl, hx⟩ := he'
  unfold extension
  rw [if_pos (by simp)]
  congr 2
  unfold List.rtakeWhile
  rw [List.reverse_append, List.reverse_cons, List.append_assoc, List.takeWhile_append_of_pos]
  · simp
  · intro c hc
    simp only [ne_eq, decide_eq_true_eq]
    rintro rfl
    exact hx (List.mem_reverse.mp hc)

theorem C94_symbol (walk : List (List Text × List Text)) (file : Text) (h : file ∈ files walk) :
    ∃ e s es, (s, es) ∈ symbols ∧ e ∈ es ∧ e <:+ file ∧ extension file = .ok e ∧ symbolFor e = .ok s := by
  obtain ⟨dir, -, -, name, -, rfl, ⟨e, he, h2⟩, -⟩ := (C94_files walk file).mp h
  have hs : e <:+ path dir.1 name := h2.trans (List.suffix_append _ _)
  have : ∃ s es, (s, es) ∈ symbols ∧ e ∈ es ∧ symbolFor e = .ok s := by
    have : ∀ e ∈ extensions, ∃ p ∈ symbols, e ∈ p.2 ∧ symbolFor e = .ok p.1 := by decide
    obtain ⟨p, h3, h4⟩ := this e he
    exact ⟨p.1, p.2, h3, h4⟩
  obtain ⟨s, es, h3, h4, h5⟩ := this
  exact ⟨e, s, es, h3, h4, hs, extension_suffix he hs, h5⟩

/-- The listed files are those with a known ending that are not generated, outside of `.git`, `vendor`
and `doc`; each is commented with the symbol of its ending. -/
theorem C94_which (walk : List (List Text × List Text)) :
    (∀ file, file ∈ files walk ↔ ∃ dir ∈ walk, (∀ d ∈ [".git", "vendor", "doc"], d.toList ∉ dir.1) ∧
      ∃ name ∈ dir.2, file = path dir.1 name ∧ (∃ e ∈ commentSymbol, e.1.toList <:+ name) ∧
        ¬ Generated name) ∧
    ∀ e ∈ commentSymbol, ∀ file, e.1.toList <:+ file →
      extension file = .ok e.1.toList ∧ symbolFor e.1.toList = .ok e.2.toList := by
  refine ⟨fun file => ?_, fun e he file hf => ⟨extension_suffix ?_ hf, ?_⟩⟩
  · have h1 : ∀ name : Text, (∃ e ∈ extensions, e <:+ name) ↔
        ∃ e ∈ commentSymbol, e.1.toList <:+ name := fun name => by
      simp [extensions, symbols, commentSymbol]
    have h2 : ∀ name : Text, blacklisted name = false ↔ ¬ Generated name := fun name => by
      simp [blacklisted, Generated, ← Bool.not_eq_true, not_or]
    simp only [C94_files, dirBlacklist, h1, h2, List.forall_mem_map]
  · clear hf
    revert e
    decide
  · clear hf
    revert e
    decide

/-- Every text has one code. -/
theorem C94_code (symbol text : Text) : ∃! code, Code symbol text code :=
  ⟨_, (code_iff _ _ _).mpr rfl, fun _ h => (code_iff _ _ _).mp h⟩

section

variable {name e symbol : Text} (he : extension name = .ok e) (hs : symbolFor e = .ok symbol)
include he hs

/-- `strip` leaves the code and nothing else. -/
theorem C94_strip {text : Text} {code : List Text} (h : Code symbol text code) :
    stripFile name text = .ok (code.flatMap fun l => l ++ ['\n']) := by
  simp only [stripFile, readAndStripLines, he, hs, Res.ok_bind, Res.pure_eq]
  rw [← (code_iff _ _ _).mp h]
  rfl

theorem C94_strip_idempotent (text : Text) : ∃ text', stripFile name text = .ok text' ∧
    stripFile name text' = .ok text' := by
  obtain ⟨code, h, -⟩ := C94_code symbol text
  refine ⟨_, C94_strip he hs h, C94_strip he hs ?_⟩
  exact code_write (pre := []) (code_lines h).1 (by simp) (code_lines h).2 (code_head h)

/-- `update` writes the licence as a comment, a blank line and the code. -/
theorem C94_update (license : List Text) {text : Text} {code : List Text} (h : Code symbol text code)
    (h0 : code ≠ []) : updateFile license name text =
      .ok ((commented symbol license ++
        (if e = ".py".toList ∧ "class ".toList <+: code.head h0 then [[], []] else [[]]) ++ code).flatMap
          fun l => l ++ ['\n']) := by
  obtain ⟨first, rest, rfl⟩ := List.exists_cons_of_ne_nil h0
  have h1 := (code_head h first rfl).1
  have hh : header license symbol = commented symbol license := by
    unfold header commented
    refine List.map_congr_left fun l _ => ?_
    by_cases hl : l = [] <;> simp [hl]
  simp only [updateFile, readAndStripLines, he, hs, Res.ok_bind, Res.pure_eq, ← (code_iff _ _ _).mp h, h1,
    ne_eq, not_false_eq_true, if_true, hh, List.isPrefixOf_iff_prefix]
  by_cases hc : e = ".py".toList ∧ "class ".toList <+: first
  · rw [if_pos hc, if_pos (show _ ∧ _ <+: (first :: rest).head h0 from hc)]
    simp only [writeLines, List.append_assoc, List.cons_append, List.nil_append]
  · rw [if_neg hc, if_neg (show ¬ (_ ∧ _ <+: (first :: rest).head h0) from hc)]
    simp only [writeLines, List.append_assoc, List.cons_append, List.nil_append]

/-- A file without code is left as it is. -/
theorem C94_update_no_code (license : List Text) {text : Text} (h : Code symbol text []) :
    updateFile license name text = .ok text := by
  simp only [updateFile, readAndStripLines, he, hs, Res.ok_bind, Res.pure_eq, ← (code_iff _ _ _).mp h]

theorem updateFile_congr (license : List Text) {text text' : Text} {code : List Text} (h : Code symbol text code)
    (h' : Code symbol text' code) (h0 : code ≠ []) :
    updateFile license name text = updateFile license name text' := by
  obtain ⟨first, rest, rfl⟩ := List.exists_cons_of_ne_nil h0
  have hf := (code_head h first rfl).1
  simp only [updateFile, readAndStripLines, he, hs, Res.ok_bind, Res.pure_eq, ← (code_iff _ _ _).mp h,
    ← (code_iff _ _ _).mp h', hf, ne_eq, not_false_eq_true, if_true]

/-- `update` replaces: after it, `strip` or another `update` do what they would have done before it. -/
theorem C94_update_replaces (licenseText text : Text) : ∃ text',
    updateFile (license licenseText) name text = .ok text' ∧
    (∀ code, Code symbol text code ↔ Code symbol text' code) ∧
    stripFile name text' = stripFile name text ∧
    ((∃ l, Code symbol text l ∧ l ≠ []) → ∀ license',
      updateFile license' name text' = updateFile license' name text) := by
  obtain ⟨code, h, hu⟩ := C94_code symbol text
  by_cases h0 : code = []
  · subst h0
    refine ⟨text, C94_update_no_code he hs _ h, fun _ => Iff.rfl, rfl, fun _ _ => rfl⟩
  obtain ⟨blank, hb, h1⟩ : ∃ blank, (blank = [[]] ∨ blank = [[], []]) ∧
      updateFile (license licenseText) name text =
        .ok ((commented symbol (license licenseText) ++ blank ++ code).flatMap fun l => l ++ ['\n']) := by
    refine ⟨_, ?_, C94_update he hs (license licenseText) h h0⟩
    split_ifs
    · exact Or.inr rfl
    · exact Or.inl rfl
  obtain ⟨s1, s2, s3⟩ := symbolFor_ok hs
  have hlic : ∀ l ∈ license licenseText, '\n' ∉ l ∧ rstrip l = l := fun l hl => by
    refine ⟨newline_not_mem_rstrip_linesOf licenseText l hl, ?_⟩
    obtain ⟨l', -, rfl⟩ := List.mem_map.mp hl
    exact rstrip_idem l'
  have hblank : ∀ l ∈ blank, l = [] := by
    rcases hb with rfl | rfl <;> simp
  have hc : Code symbol (writeLines (commented symbol (license licenseText) ++ blank ++ code)) code := by
    refine code_write ?_ ?_ (code_lines h).2 (code_head h)
    · intro l hl
      rcases List.mem_append.mp hl with hl | hl
      · rcases List.mem_append.mp hl with hl | hl
        · obtain ⟨l', h2, rfl⟩ := List.mem_map.mp hl
          split_ifs
          · exact s1
          · simp [s1, (hlic l' h2).1]
        · rw [hblank l hl]; simp
      · exact (code_lines h).1 l hl
    · intro l hl
      rcases List.mem_append.mp hl with hl | hl
      · obtain ⟨l', h2, rfl⟩ := List.mem_map.mp hl
        exact Or.inr (header_line s2 (hlic l' h2).2)
      · rw [hblank l hl]; exact Or.inl rfl
  refine ⟨_, h1, fun c => ?_, ?_, fun _ license' => ?_⟩
  · constructor
    · intro hc'
      rw [hu c hc']
      exact hc
    · intro hc'
      obtain ⟨c1, _, hc2⟩ := C94_code symbol (writeLines (commented symbol (license licenseText) ++ blank ++ code))
      rw [hc2 c hc', ← hc2 code hc]
      exact h
  · rw [C94_strip he hs h]
    exact C94_strip he hs hc
  · exact updateFile_congr he hs license' hc h h0

theorem C94_update_idempotent (licenseText text : Text) : ∃ text',
    updateFile (license licenseText) name text = .ok text' ∧
    updateFile (license licenseText) name text' = .ok text' := by
  obtain ⟨text', h1, h2, -, h4⟩ := C94_update_replaces he hs licenseText text
  refine ⟨text', h1, ?_⟩
  obtain ⟨code, h, -⟩ := C94_code symbol text
  by_cases h0 : code = []
  · subst h0
    exact C94_update_no_code he hs _ ((h2 []).mp h)
  · rw [h4 ⟨code, h, h0⟩, h1]

end

/-- Files that are not listed keep their content; of the others each becomes what the function makes of it, and
running an idempotent command again changes nothing. -/
theorem overFiles_idem {f : Text → Text → Res Text} {names : List Text} (fs : Text → Text)
    (hf : ∀ n ∈ names, ∀ t, ∃ t', f n t = .ok t' ∧ f n t' = .ok t') :
    ∃ fs', overFiles f names fs = .ok fs' ∧ (∀ n ∉ names, fs' n = fs n) ∧
      (∀ n ∈ names, f n (fs n) = .ok (fs' n)) ∧ overFiles f names fs' = .ok fs' := by
  have fix : ∀ (names : List Text) (g : Text → Text), (∀ n ∈ names, f n (g n) = .ok (g n)) →
      overFiles f names g = .ok g := by
    intro names g
    induction names with
    | nil => intro _; rfl
    | cons n names ih =>
      intro h
      rw [overFiles, h n (by simp), Res.ok_bind, Function.update_eq_self]
      exact ih fun m hm => h m (by simp [hm])
  suffices h : ∃ fs', overFiles f names fs = .ok fs' ∧ (∀ n ∉ names, fs' n = fs n) ∧
      ∀ n ∈ names, f n (fs n) = .ok (fs' n) by
    obtain ⟨fs', h1, h2, h3⟩ := h
    refine ⟨fs', h1, h2, h3, fix names fs' fun n hn => ?_⟩
    obtain ⟨t', h4, h5⟩ := hf n hn (fs n)
    rw [h3 n hn] at h4
    cases h4
    exact h5
  induction names generalizing fs with
  | nil => exact ⟨fs, rfl, fun _ _ => rfl, by simp⟩
  | cons n names ih =>
    obtain ⟨t', h1, h2⟩ := hf n (by simp) (fs n)
    obtain ⟨fs', h3, h4, h5⟩ := ih (Function.update fs n t') fun m hm => hf m (by simp [hm])
    refine ⟨fs', ?_, fun m hm => ?_, fun m hm => ?_⟩
    · rw [overFiles, h1]
      exact h3
    · rw [h4 m (fun h => hm (by simp [h])), Function.update_of_ne (fun e => hm (by simp [e]))]
    · by_cases e : m = n
      · subst e
        rw [h1]
        by_cases hm' : m ∈ names
        · have := h5 m hm'
          rw [Function.update_self, h2] at this
          exact this
        · rw [h4 m hm', Function.update_self]
      · have := h5 m (by simpa [e] using hm)
        rwa [Function.update_of_ne e] at this

/-- The commands on all files of a directory tree: they return, touch the listed files only, and running a command
twice is running it once. -/
theorem C94_commands (walk : List (List Text × List Text)) (licenseText : Text) (names : List Text)
    (hn : names.Perm (files walk)) (fs : Text → Text) :
    (∃ fs', overFiles stripFile names fs = .ok fs' ∧ (∀ n ∉ files walk, fs' n = fs n) ∧
      overFiles stripFile names fs' = .ok fs') ∧
    ∃ fs', overFiles (updateFile (license licenseText)) names fs = .ok fs' ∧ (∀ n ∉ files walk, fs' n = fs n) ∧
      (∀ n ∈ files walk, updateFile (license licenseText) n (fs n) = .ok (fs' n)) ∧
      overFiles (updateFile (license licenseText)) names fs' = .ok fs' := by
  constructor
  · obtain ⟨fs', h1, h2, h3, h4⟩ := overFiles_idem (f := stripFile) (names := names) fs fun n h t => by
      obtain ⟨e, s, es, -, -, -, he, hs⟩ := C94_symbol walk n (hn.mem_iff.mp h)
      exact C94_strip_idempotent he hs t
    exact ⟨fs', h1, fun n h => h2 n fun h' => h (hn.mem_iff.mp h'), h4⟩
  · obtain ⟨fs', h1, h2, h3, h4⟩ := overFiles_idem (f := updateFile (license licenseText)) (names := names) fs
      fun n h t => by
        obtain ⟨e, s, es, -, -, -, he, hs⟩ := C94_symbol walk n (hn.mem_iff.mp h)
        exact C94_update_idempotent he hs licenseText t
    exact ⟨fs', h1, fun n h => h2 n fun h' => h (hn.mem_iff.mp h'),
      fun n h => h3 n (hn.mem_iff.mpr h), h4⟩

/-- What comes before the code does not survive, be it the licence, a `#!` line or documentation: a file with any
comments and blank lines put before it is updated, and stripped, to what it would be without them. -/
theorem C94_leading_comments_lost {name e symbol : Text} (he : extension name = .ok e)
    (hs : symbolFor e = .ok symbol) (license : List Text) (pre : List Text)
    (hp : ∀ l ∈ pre, '\n' ∉ l ∧ (l = [] ∨ symbol <+: l)) (text : Text) {code : List Text}
    (h : Code symbol text code) (h0 : code ≠ []) :
    updateFile license name ((pre.flatMap fun l => l ++ ['\n']) ++ text) = updateFile license name text ∧
    stripFile name ((pre.flatMap fun l => l ++ ['\n']) ++ text) = stripFile name text := by
  obtain ⟨s1, s2, s3⟩ := symbolFor_ok hs
  have hc : Code symbol ((pre.flatMap fun l => l ++ ['\n']) ++ text) code := by
    obtain ⟨ls, pre', ⟨l1, l2⟩, ht, hp', hc⟩ := h
    refine ⟨pre ++ ls, pre.map rstrip ++ pre', ⟨?_, ?_⟩, ?_, ?_, hc⟩
    · intro l hl
      rcases List.mem_append.mp hl with hl | hl
      · exact (hp l hl).1
      · exact l1 l hl
    · rcases l2 with l2 | ⟨init, last, rfl, h1, h2⟩
      · exact Or.inl (by rw [l2, List.flatMap_append])
      · exact Or.inr ⟨pre ++ init, last, by simp, h1, by rw [h2, List.flatMap_append, List.append_assoc]⟩
    · rw [List.append_assoc]
      refine List.rel_append ?_ ht
      clear hp
      induction pre with
      | nil => exact .nil
      | cons l ls ih => exact .cons ((trimmed_iff _ _).mpr rfl) ih
    · intro l hl
      rcases List.mem_append.mp hl with hl | hl
      · obtain ⟨l', h1, rfl⟩ := List.mem_map.mp hl
        rcases (hp l' h1).2 with rfl | h2
        · exact Or.inl rfl
        · exact Or.inr (prefix_rstrip s2 h2)
      · exact hp' l hl
  exact ⟨updateFile_congr he hs license hc h h0, by rw [C94_strip he hs hc, C94_strip he hs h]⟩

/-- A file of comments only gets no licence and is emptied by `strip`. -/
theorem C94_comments_only {name e symbol : Text} (he : extension name = .ok e)
    (hs : symbolFor e = .ok symbol) (license : List Text) (ls : List Text)
    (hl : ∀ l ∈ ls, '\n' ∉ l ∧ (l = [] ∨ symbol <+: l)) :
    updateFile license name (ls.flatMap fun l => l ++ ['\n']) = .ok (ls.flatMap fun l => l ++ ['\n']) ∧
    stripFile name (ls.flatMap fun l => l ++ ['\n']) = .ok [] := by
  obtain ⟨s1, s2, s3⟩ := symbolFor_ok hs
  have hc : Code symbol (ls.flatMap fun l => l ++ ['\n']) [] := by
    have := code_write (symbol := symbol) (pre := ls) (code := []) (fun l h => (hl l (by simpa using h)).1)
      (fun l h => by
        rcases (hl l h).2 with rfl | h2
        · exact Or.inl rfl
        · exact Or.inr (prefix_rstrip s2 h2)) (by simp) (by simp)
    rwa [List.append_nil] at this
  exact ⟨C94_update_no_code he hs license hc, C94_strip he hs hc⟩

/-! ## Examples -/

-- the files of a small tree
example : files [([".".toList], ["setup.py", "README.md", "x.pb.h"].map String.toList),
    (["." , "vendor"].map String.toList, ["a.c".toList])] = ["./setup.py".toList] := by decide

-- an update with a licence of one line; the `#!` line and the blanks at the ends of lines are lost
example : updateFile (license "L\n".toList) "./a.py".toList "#!/usr/bin/python\nx = 1  \n".toList =
    .ok "# L\n\nx = 1\n".toList := by decide

example : updateFile (license "L\n".toList) "./a.py".toList "# L\n\nclass A:\n  pass\n".toList =
    .ok "# L\n\n\nclass A:\n  pass\n".toList := by decide

example : extension "./a.py".toList = .ok ".py".toList ∧ symbolFor ".py".toList = .ok "#".toList := by decide

-- the code of a text
example : Code "#".toList "# c\n\nx = 1 \n# d\n".toList ["x = 1".toList, "# d".toList] := by
  rw [code_iff]
  decide

-- a module of comments has no licence after `update`
example : updateFile (license "L\n".toList) "./__init__.py".toList "# empty\n".toList = .ok "# empty\n".toList :=
  (C94_comments_only (symbol := "#".toList) (e := ".py".toList) (by decide) (by decide) _ ["# empty".toList]
    (by decide)).1

end Dist.License
