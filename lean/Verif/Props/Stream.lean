import Verif.Model.Stream
import Mathlib.Algebra.BigOperators.Group.List.Basic
import Mathlib.Data.List.Basic
import Mathlib.Tactic.NormNum

/-!
# C54: item streams
-/

namespace Dist

open Stream

namespace Stream

/-- The four header bytes. -/
def header (n : Nat) : Bytes :=
  [UInt8.ofNat (n % 256), UInt8.ofNat (n / 256 % 256), UInt8.ofNat (n / 65536 % 256),
    UInt8.ofNat (n / 16777216)]

theorem unpack_header {n : Nat} (h : n < 2 ^ 32) :
    unpack32 (UInt8.ofNat (n % 256)) (UInt8.ofNat (n / 256 % 256))
      (UInt8.ofNat (n / 65536 % 256)) (UInt8.ofNat (n / 16777216)) = n := by
  unfold unpack32
  simp only [UInt8.toNat_ofNat']
  norm_num at h
  omega

theorem write_eq {fd item : Bytes} (h : item.length < 2 ^ 32) :
    write fd item = .ok (fd ++ (header item.length ++ item)) := by
  unfold write pack32
  rw [if_pos h]
  simp [header]

theorem read_item {item rest : Bytes} (h : item.length < 2 ^ 32) (k : Nat) :
    read (header item.length ++ (item.take k ++ rest)) =
      some ((item.take k ++ rest).take item.length, (item.take k ++ rest).drop item.length) := by
  show read (_ :: _ :: _ :: _ :: _) = _
  unfold read
  simp only [unpack_header h]
  simp

theorem load_item {item rest : Bytes} (h : item.length < 2 ^ 32) :
    load (header item.length ++ (item ++ rest)) = item :: load rest := by
  have hr := read_item (item := item) (rest := rest) h item.length
  simp only [List.take_length, List.take_left', List.drop_left'] at hr
  rw [load]
  split
  · next h' => rw [hr] at h'; cases h'
  · next i r h' =>
      rw [hr] at h'
      injection h' with h'
      injection h' with h1 h2
      subst h1 h2
      rfl

theorem load_short {fd : Bytes} (h : fd.length < 4) : load fd = [] := by
  rw [load]
  split
  · rfl
  · next i r h' =>
      exfalso
      unfold read at h'
      split at h'
      · simp at h; omega
      · cases h'

theorem load_cut {item : Bytes} (h : item.length < 2 ^ 32) {k : Nat} (hk : k ≤ item.length) :
    load (header item.length ++ item.take k) = [item.take k] := by
  have hr := read_item (item := item) (rest := []) h k
  have hl : (item.take k).length ≤ item.length := by rw [List.length_take]; omega
  rw [List.append_nil, List.take_of_length_le hl, List.drop_eq_nil_of_le hl] at hr
  rw [load]
  split
  · next h' => rw [hr] at h'; cases h'
  · next i r h' =>
      rw [hr] at h'
      injection h' with h'
      injection h' with h1 h2
      subst h1 h2
      rw [load_short (by simp)]

theorem foldlM_write (items : List Bytes) (fd : Bytes)
    (h : ∀ i ∈ items, i.length < 2 ^ 32) :
    items.foldlM write fd = .ok (fd ++ items.flatMap fun i => header i.length ++ i) := by
  induction items generalizing fd with
  | nil => simp
  | cons i is ih =>
    rw [List.foldlM_cons, write_eq (h i (by simp)), Res.ok_bind,
      ih _ fun j hj => h j (by simp [hj])]
    simp

theorem dump_eq (items : List Bytes) (h : ∀ i ∈ items, i.length < 2 ^ 32) :
    dump items = .ok (items.flatMap fun i => header i.length ++ i) := by
  unfold dump
  rw [foldlM_write items [] h]
  simp

end Stream

/-- **C54, round trip.** Reading back a stream written item by item yields the same items in
the same order, for every list of items (empty items included) that fit the length prefix. -/
theorem C54_roundtrip (items : List Bytes) (h : ∀ i ∈ items, i.length < 2 ^ 32) :
    ∃ file, dump items = .ok file ∧ load file = items := by
  refine ⟨_, dump_eq items h, ?_⟩
  induction items with
  | nil => exact load_short (by simp)
  | cons i is ih =>
    rw [List.flatMap_cons, List.append_assoc, load_item (h i (by simp)),
      ih fun j hj => h j (by simp [hj])]

example : ∃ file, dump [[1, 2, 3], [], [255]] = .ok file ∧ load file = [[1, 2, 3], [], [255]] :=
  C54_roundtrip _ (by decide)

/-- An item whose length does not fit 32 bits is refused when it is written. -/
theorem C54_too_long (fd item : Bytes) (h : 2 ^ 32 ≤ item.length) : write fd item = .fail := by
  unfold write pack32
  rw [if_neg (by omega)]
  rfl

/-- **C54, finding: cutting a stream can corrupt an item.** A stream of the single item
`[1, 2]` cut after five bytes is read without complaint as the single item `[1]`; cut after
four bytes, as one empty item. -/
theorem C54_truncated_corrupt : ∃ file, dump [[1, 2]] = .ok file ∧
    load (file.take 5) = [[1]] ∧ load (file.take 4) = [[]] := by
  refine ⟨_, dump_eq _ (by decide), ?_, ?_⟩
  · exact load_cut (item := [1, 2]) (by decide) (k := 1) (by decide)
  · exact load_cut (item := [1, 2]) (by decide) (k := 0) (by decide)

/-- Bytes taken by the first `k` items: four for the prefix of each. -/
def Spec.streamBytes (items : List Bytes) (k : Nat) : Nat :=
  ((items.take k).map fun i => 4 + i.length).sum

/-- **C54, truncation.** A stream cut after any number of bytes yields exactly the items that
lie completely before the cut and then, when the cut is inside the body of the next item
(after its length prefix), one more item: the part of it before the cut.  Missing against
the claim: that last item should have been reported as an error
(`C54_truncated_corrupt`). -/
theorem C54_truncated_partial (items : List Bytes) (h : ∀ i ∈ items, i.length < 2 ^ 32)
    (n : Nat) : ∃ file, dump items = .ok file ∧ ∃ k ≤ items.length,
      Spec.streamBytes items k ≤ n ∧
      (k < items.length → n < Spec.streamBytes items (k + 1)) ∧
      ((load (file.take n) = items.take k ∧
          (k < items.length → n < Spec.streamBytes items k + 4)) ∨
        ∃ i, items[k]? = some i ∧ Spec.streamBytes items k + 4 ≤ n ∧
          load (file.take n) = items.take k ++ [i.take (n - Spec.streamBytes items k - 4)]) := by
  refine ⟨_, dump_eq items h, ?_⟩
  induction items generalizing n with
  | nil =>
    refine ⟨0, Nat.le_refl _, by simp [Spec.streamBytes], by simp, .inl ⟨?_, by simp⟩⟩
    exact load_short (by simp)
  | cons i is ih =>
    have hi := h i (by simp)
    have hlen : (header i.length).length = 4 := rfl
    rw [List.flatMap_cons]
    by_cases h1 : 4 + i.length ≤ n
    · obtain ⟨k, hk, hlo, hhi, hcase⟩ := ih (fun j hj => h j (by simp [hj])) (n - (4 + i.length))
      have hs : ∀ k, Spec.streamBytes (i :: is) (k + 1) = 4 + i.length + Spec.streamBytes is k := by
        intro k; simp [Spec.streamBytes]
      have hload : load ((header i.length ++ i ++ is.flatMap fun i => header i.length ++ i).take n)
          = i :: load ((is.flatMap fun i => header i.length ++ i).take (n - (4 + i.length))) := by
        rw [List.take_append, List.take_of_length_le (by simp [hlen]; omega), List.append_assoc,
          load_item hi]
        simp [hlen]
      refine ⟨k + 1, by simpa using hk, by rw [hs]; omega, ?_, ?_⟩
      · intro hk'
        have := hhi (by simpa using hk')
        rw [hs]; omega
      · rw [hload]
        rcases hcase with ⟨c1, c2⟩ | ⟨j, c1, c2, c3⟩
        · refine .inl ⟨by rw [c1]; simp, fun hk' => ?_⟩
          have := c2 (by simpa using hk')
          rw [hs]; omega
        · refine .inr ⟨j, by simpa using c1, by rw [hs]; omega, ?_⟩
          rw [c3, hs]
          simp only [List.take_succ_cons, List.cons_append, List.cons.injEq, true_and]
          congr 3
          omega
    · refine ⟨0, by simp, by simp [Spec.streamBytes], fun _ => by
        simp [Spec.streamBytes]; omega, ?_⟩
      have htake : (header i.length ++ i ++ is.flatMap fun i => header i.length ++ i).take n =
          (header i.length ++ i).take n := by
        rw [List.take_append, show n - (header i.length ++ i).length = 0 by
          simp [hlen]; omega]
        simp
      rw [htake]
      by_cases h4 : n < 4
      · refine .inl ⟨?_, fun _ => by simp [Spec.streamBytes]; omega⟩
        exact load_short (by simp; omega)
      · refine .inr ⟨i, by simp, by simp [Spec.streamBytes]; omega, ?_⟩
        rw [List.take_append, List.take_of_length_le (by rw [hlen]; omega), hlen,
          load_cut hi (by omega)]
        simp [Spec.streamBytes]

/-- Two items cut inside the second one. -/
example : ∃ file, dump [[7], [1, 2, 3]] = .ok file ∧ ∃ k ≤ 2,
      Spec.streamBytes [[7], [1, 2, 3]] k ≤ 10 ∧
      (k < 2 → 10 < Spec.streamBytes [[7], [1, 2, 3]] (k + 1)) ∧
      ((load (file.take 10) = [[7], [1, 2, 3]].take k ∧
          (k < 2 → 10 < Spec.streamBytes [[7], [1, 2, 3]] k + 4)) ∨
        ∃ i, [[7], [1, 2, 3]][k]? = some i ∧ Spec.streamBytes [[7], [1, 2, 3]] k + 4 ≤ 10 ∧
          load (file.take 10) = [[7], [1, 2, 3]].take k ++
            [i.take (10 - Spec.streamBytes [[7], [1, 2, 3]] k - 4)]) :=
  C54_truncated_partial [[7], [1, 2, 3]] (by decide) 10

/-! ## JSON streams -/

/-- What the loader relies on about the text of one item: `simplejson` with the separators
`(',', ':')` and no `indent` writes no newline, and no JSON text is empty, is a lone closing
bracket or ends in a comma. -/
structure Spec.JsonText (s : List Char) : Prop where
  noNewline : '\n' ∉ s
  nonempty : s ≠ []
  noBracket : s ≠ [']']
  lastChar : s.getLast? ≠ some ','

namespace Stream

theorem readLine_append {s : List Char} (h : '\n' ∉ s) (rest : List Char) :
    readLine (s ++ '\n' :: rest) = (s ++ ['\n'], rest) := by
  induction s with
  | nil => simp [readLine]
  | cons c cs ih =>
    have hc : c ≠ '\n' := fun h' => h (by simp [h'])
    simp only [List.cons_append, readLine, if_neg hc]
    rw [ih fun h' => h (by simp [h'])]

theorem rstrip_eq {s suffix : List Char} (hs : ∀ c ∈ suffix, c = ',' ∨ c = '\n') (hne : s ≠ [])
    (h1 : s.getLast? ≠ some ',') (h2 : '\n' ∉ s) : rstrip (s ++ suffix) = s := by
  unfold rstrip
  rw [List.reverse_append, List.dropWhile_append_of_pos]
  · obtain ⟨init, last, rfl⟩ := List.eq_nil_or_concat s |>.resolve_left hne
    have hl : last ≠ ',' := by simpa using h1
    have hl' : last ≠ '\n' := by rintro rfl; exact h2 (by simp)
    simp [List.dropWhile_cons, hl, hl']
  · intro c hc
    simpa using hs c (by simpa using hc)

theorem jsonItems_cons {s rest : List Char} (h : Spec.JsonText s) (comma : List Char)
    (hc : comma = [] ∨ comma = [',']) :
    jsonItems (s ++ comma ++ '\n' :: rest) = (do
      let r ← jsonItems rest
      return s :: r) := by
  have hread : readLine (s ++ comma ++ '\n' :: rest) = (s ++ comma ++ ['\n'], rest) := by
    apply readLine_append
    rcases hc with rfl | rfl <;> simp [h.noNewline]
  have hstrip : rstrip (s ++ comma ++ ['\n']) = s := by
    rw [List.append_assoc]
    apply rstrip_eq _ h.nonempty h.lastChar h.noNewline
    rcases hc with rfl | rfl <;> simp
  obtain ⟨c, cs, hcs⟩ : ∃ c cs, s ++ comma ++ '\n' :: rest = c :: cs := by
    cases s with
    | nil => exact absurd rfl h.nonempty
    | cons c cs => exact ⟨c, _, rfl⟩
  rw [hcs] at hread ⊢
  rw [jsonItems]
  simp only [hread, hstrip, if_neg h.noBracket]

theorem jsonItems_end : jsonItems [']'] = .ok [] := by
  rw [jsonItems]
  simp [readLine, rstrip]

end Stream

/-- **C54, JSON round trip.** Loading a JSON stream yields the texts that were dumped, in
order, for every list of items. -/
theorem C54_json (items : List (List Char)) (h : ∀ i ∈ items, Spec.JsonText i) :
    jsonLoad (jsonDump items) = .ok items := by
  unfold jsonDump
  cases items with
  | nil => exact jsonItems_end
  | cons i is =>
    show jsonItems (i ++ (is.flatMap fun i => ',' :: '\n' :: i) ++ ['\n', ']']) = _
    induction is generalizing i with
    | nil =>
      have := jsonItems_cons (rest := [']']) (h i (by simp)) [] (.inl rfl)
      simp only [List.append_nil] at this
      simp only [List.flatMap_nil, List.append_nil]
      rw [this, jsonItems_end]
      rfl
    | cons j js ih =>
      have := jsonItems_cons (rest := j ++ (js.flatMap fun i => ',' :: '\n' :: i) ++ ['\n', ']'])
        (h i (by simp)) [','] (.inr rfl)
      rw [ih j fun k hk => h k (by simp at hk ⊢; tauto)] at this
      simp only [List.flatMap_cons]
      rw [show i ++ (',' :: '\n' :: j ++ js.flatMap fun i => ',' :: '\n' :: i) ++ ['\n', ']']
        = i ++ [','] ++ '\n' :: (j ++ (js.flatMap fun i => ',' :: '\n' :: i) ++ ['\n', ']']) by
          simp]
      rw [this]
      rfl

example : jsonLoad (jsonDump ["[1,2]".toList, "{\"a\":\"],\"}".toList, "3".toList]) =
    .ok ["[1,2]".toList, "{\"a\":\"],\"}".toList, "3".toList] :=
  C54_json _ (by
    intro i hi
    simp only [List.mem_cons, List.not_mem_nil, or_false] at hi
    rcases hi with rfl | rfl | rfl <;> constructor <;> decide)

end Dist
