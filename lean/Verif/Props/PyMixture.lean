import Verif.Model.PyMixture
import Verif.Props.PyIo
import Verif.Props.Mixture

/-! # C80: mixtures, score arrays and id trackers seen from Python -/

namespace Dist.Py

open Spec FloatOps FloatNotation

variable {S G V F : Type}

theorem asInt_ok {z : Int} (h : InInt32 z) : asInt z = .ok z := asInt_of h

theorem toSize_nonneg {z : Int} (h : InInt32 z) (h0 : 0 ≤ z) : toSize z = z.toNat := by
  unfold InInt32 int32Min int32Max at h
  unfold toSize; rw [Int.emod_eq_of_lt h0 (by omega)]

theorem toSize_neg {z : Int} (h : InInt32 z) (h0 : z < 0) : 2 ^ 63 ≤ toSize z := by
  unfold InInt32 int32Min int32Max at h
  unfold toSize; omega

theorem pyAssert_of {opt : Bool} {p : Prop} [Decidable p] (h : p) : pyAssert opt p = .ok () := by
  simp [pyAssert, h]

theorem pyAssert_not {p : Prop} [Decidable p] (h : ¬ p) : pyAssert false p = .fail := by
  simp [pyAssert, h]

/-- **C80, `mixture[i]`.** An index in range gives the group; an index past the end is
rejected, unless Python runs with `-O`; a negative index, which in Python counts from the
end, reads memory before the array. -/
theorem C80_getitem (opt : Bool) (m : MixtureSlave S G) (hm : m.groups.length ≤ 2147483648)
    (i : Int) (hi : InInt32 i) :
    (∀ g, 0 ≤ i → m.groups[i.toNat]? = some g → getItem opt m i = .ok g) ∧
    ((m.groups.length : Int) ≤ i → getItem opt m i = if opt then .ub else .fail) ∧
    (i < 0 → getItem opt m i = .ub) := by
  refine ⟨fun g h0 hg => ?_, fun hl => ?_, fun h0 => ?_⟩
  · obtain ⟨hlt, rfl⟩ := List.getElem?_eq_some_iff.mp hg
    rw [getItem, asInt_ok hi, Res.ok_bind, pyAssert_of (by omega), Res.ok_bind,
      toSize_nonneg hi h0, getAt_of hlt]
  · have h0 : 0 ≤ i := by omega
    cases opt with
    | false => rw [getItem, asInt_ok hi, Res.ok_bind, pyAssert_not (by omega)]; rfl
    | true =>
      rw [getItem, asInt_ok hi, Res.ok_bind]
      simp only [pyAssert, true_or, if_true, Res.ok_bind]
      rw [toSize_nonneg hi h0, getAt_of_ge (by omega)]
  · have := toSize_neg hi h0
    rw [getItem, asInt_ok hi, Res.ok_bind, pyAssert_of (by omega), Res.ok_bind,
      getAt_of_ge (by omega)]

/-- **C80, finding: `for group in mixture`.** The body sees every group in order, and then
the loop raises `AssertionError` instead of ending; with `-O` it goes on to read past the
array.  So `list(mixture)` never returns. -/
theorem C80_iteration (opt : Bool) (m : MixtureSlave S G) (hm : m.groups.length < 2147483648)
    (gs : List G) (r : Res Unit) :
    Loops opt m 0 gs r ↔ gs = m.groups ∧ r = if opt then .ub else .fail := by
  have hend : getItem opt m (m.groups.length : Nat) = if opt then .ub else .fail :=
    (C80_getitem opt m (by omega) _ (by unfold InInt32 int32Min int32Max; omega)).2.1 le_rfl
  have hitem : ∀ (i : Nat) (h : i < m.groups.length), getItem opt m i = .ok m.groups[i] :=
    fun i h => (C80_getitem opt m (by omega) i (by unfold InInt32 int32Min int32Max; omega)).1 _
      (by omega) (by simp [h])
  have key : ∀ (k i : Nat), i + k = m.groups.length →
      (Loops opt m i gs r ↔ gs = m.groups.drop i ∧ r = if opt then .ub else .fail) := by
    intro k
    induction k generalizing gs with
    | zero =>
      intro i hi
      have hi : i = m.groups.length := by omega
      subst hi
      rw [List.drop_length]
      constructor
      · intro h
        cases h with
        | item h1 _ => rw [hend] at h1; cases opt <;> simp at h1
        | raised h1 => rw [hend] at h1; cases opt <;> simp at h1 ⊢
        | undefined h1 => rw [hend] at h1; cases opt <;> simp at h1 ⊢
      · rintro ⟨rfl, rfl⟩
        cases opt with
        | true => exact .undefined hend
        | false => exact .raised hend
    | succ k ih =>
      intro i hi
      have hlt : i < m.groups.length := by omega
      have h0 := hitem i hlt
      rw [List.drop_eq_getElem_cons hlt]
      constructor
      · intro h
        cases h with
        | item h1 h2 =>
          rw [h0] at h1; cases h1
          obtain ⟨rfl, h3⟩ := (ih _ (i + 1) (by omega)).mp h2
          exact ⟨rfl, h3⟩
        | raised h1 => rw [h0] at h1; cases h1
        | undefined h1 => rw [h0] at h1; cases h1
      · rintro ⟨rfl, h3⟩
        exact .item h0 ((ih _ (i + 1) (by omega)).mpr ⟨rfl, h3⟩)
  simpa using key m.groups.length 0 (by omega)

example : Loops false (⟨[10, 20], ()⟩ : MixtureSlave Unit Nat) 0 [10, 20] .fail :=
  (C80_iteration false _ (by decide) _ _).mpr ⟨rfl, rfl⟩

/-- **C80, wrong group ids.** In the bindings every other method refuses an id outside the
range, negative ids included. -/
theorem C80_bad_id (ops : GroupOps G V) (vs : ValueScorerOps S G V F) (m : MixtureSlave S G)
    (hm : m.groups.length ≤ 2147483648) (i : Int) (v : V)
    (hi : i < 0 ∨ (m.groups.length : Int) ≤ i) :
    removeGroup vs m i = .fail ∧ addValue ops vs m i v = .fail ∧
    removeValue ops vs m i v = .fail ∧ scoreValueGroup vs m i v = .fail := by
  by_cases h : InInt32 i
  · have hb : ¬ toSize i < m.groups.length := by
      rcases lt_or_ge i 0 with h0 | h0
      · have := toSize_neg h h0; omega
      · rw [toSize_nonneg h h0]; omega
    refine ⟨?_, ?_, ?_, ?_⟩
    · rw [removeGroup, asInt_ok h, Res.ok_bind, MixtureSlave.removeGroup, SlaveGroups.removeGroup,
        packedRemove, distAssert_of_not (by decide) hb]; rfl
    · rw [addValue, asInt_ok h, Res.ok_bind, MixtureSlave.addValue, SlaveGroups.addValue,
        SlaveGroups.groupAt, distAssert_of_not (by decide) hb]; rfl
    · rw [removeValue, asInt_ok h, Res.ok_bind, MixtureSlave.removeValue, SlaveGroups.removeValue,
        SlaveGroups.groupAt, distAssert_of_not (by decide) hb]; rfl
    · rw [scoreValueGroup, asInt_ok h, Res.ok_bind, MixtureSlave.scoreValueGroup,
        distAssert_of_not (by decide) hb]; rfl
  · simp only [removeGroup, addValue, removeValue, scoreValueGroup, asInt_not h]
    exact ⟨rfl, rfl, rfl, rfl⟩

/-- **C80, good group ids.** Ids in range reach the C++ method unchanged. -/
theorem C80_good_id (ops : GroupOps G V) (vs : ValueScorerOps S G V F) (m : MixtureSlave S G)
    (hm : m.groups.length ≤ 2147483648) (i : Nat) (v : V) (hi : i < m.groups.length) :
    removeGroup vs m i = m.removeGroup 3 vs i ∧ addValue ops vs m i v = m.addValue 3 ops vs i v ∧
    removeValue ops vs m i v = m.removeValue 3 ops vs i v ∧
    scoreValueGroup vs m i v = m.scoreValueGroup 3 vs i v := by
  have h : InInt32 (i : Int) := by unfold InInt32 int32Min int32Max; omega
  have hs : toSize (i : Int) = i := by rw [toSize_nonneg h (by omega)]; omega
  simp only [removeGroup, addValue, removeValue, scoreValueGroup, asInt_ok h, Res.ok_bind, hs]
  exact ⟨rfl, rfl, rfl, rfl⟩

/-! ## Score arrays -/

/-- All items of the array lie in its block of memory. -/
def NdArray.Valid (a : NdArray F) : Prop := a.off ≤ a.mem.length ∧ ∀ i < a.len, ∃ x, a.item i = some x

theorem item_contiguous {a : NdArray F} (h : a.stride = 1) (i : Nat) :
    a.item i = a.mem[a.off + i]? := by
  unfold NdArray.item
  rw [h, if_pos (by omega)]
  congr 1; omega

theorem fits_of_pos {a : NdArray F} (hv : a.Valid) (hs : 1 ≤ a.stride) :
    a.off + a.len ≤ a.mem.length := by
  obtain ⟨h0, hv⟩ := hv
  rcases Nat.eq_zero_or_pos a.len with h | h
  · omega
  · obtain ⟨x, hx⟩ := hv (a.len - 1) (by omega)
    unfold NdArray.item at hx
    split_ifs at hx with hc
    obtain ⟨hlt, _⟩ := List.getElem?_eq_some_iff.mp hx
    have : ((a.len - 1 : Nat) : Int) ≤ ((a.len - 1 : Nat) : Int) * a.stride :=
      le_mul_of_one_le_right (by omega) hs
    omega

theorem scoreValue_eq [FloatOps F] (opt : Bool) (vs : ValueScorerOps S G V F)
    (m : MixtureSlave S G) (v : V) (score : G → F) (hm : ScoresLike 3 vs m v score)
    (a : NdArray F) (hf : a.off + a.len ≤ a.mem.length) (hl : a.len = m.groups.length) :
    scoreValue opt vs m v a = toNdarray (List.zipWith (fun x g => FloatOps.add x (score g))
      ((a.mem.drop a.off).take a.len) m.groups) a := by
  rw [scoreValue, pyAssert_of hl, Res.ok_bind, fromNdarray, if_pos hf, Res.ok_bind]
  show (m.scoreValue 3 vs v _ >>= _) = _
  rw [hm.2 _ (by simp; omega), Res.ok_bind]

/-- **C80, `score_value` on an ordinary array.** Every item grows by the score of its group,
and no other memory changes. -/
theorem C80_score_value [FloatOps F] (opt : Bool) (vs : ValueScorerOps S G V F)
    (m : MixtureSlave S G) (v : V) (score : G → F) (hm : ScoresLike 3 vs m v score)
    (a : NdArray F) (hv : a.Valid) (hs : a.stride = 1) (hl : a.len = m.groups.length) :
    ∃ a', scoreValue opt vs m v a = .ok a' ∧ a'.len = a.len ∧
      (∀ i x g, a.item i = some x → m.groups[i]? = some g →
        a'.item i = some (FloatOps.add x (score g))) ∧
      a'.mem.length = a.mem.length ∧
      ∀ j, j < a.off ∨ a.off + a.len ≤ j → a'.mem[j]? = a.mem[j]? := by
  have hf := fits_of_pos hv (by omega)
  have hz : (List.zipWith (fun x g => FloatOps.add x (score g))
      ((a.mem.drop a.off).take a.len) m.groups).length = a.len := by
    simp only [List.length_zipWith, List.length_take, List.length_drop]; omega
  refine ⟨⟨a.mem.take a.off ++ List.zipWith (fun x g => FloatOps.add x (score g))
        ((a.mem.drop a.off).take a.len) m.groups ++ a.mem.drop (a.off + a.len),
      a.off, a.stride, a.len, a.resizable⟩, ?_, rfl, ?_, ?_, ?_⟩
  · rw [scoreValue_eq opt vs m v score hm a hf hl, toNdarray,
      if_neg (by simp [NdArray.oneSegment, hs]), if_pos hz, if_pos hf]
  · intro i x g hx hg
    rw [item_contiguous hs] at hx
    rw [item_contiguous (by exact hs)]
    have hi : i < a.len := by
      obtain ⟨h, _⟩ := List.getElem?_eq_some_iff.mp hg; omega
    show (a.mem.take a.off ++ _ ++ _)[a.off + i]? = _
    rw [List.append_assoc, List.getElem?_append_right (by simp)]
    have e : a.off + i - (a.mem.take a.off).length = i := by
      simp only [List.length_take]; omega
    rw [e, List.getElem?_append_left (by omega), List.getElem?_zipWith, hg,
      List.getElem?_take_of_lt hi, List.getElem?_drop, hx]
  · simp only [List.length_append, hz, List.length_take, List.length_drop]; omega
  · intro j hj
    show (a.mem.take a.off ++ _ ++ _)[j]? = _
    rcases hj with hj | hj
    · rw [List.append_assoc, List.getElem?_append_left (by simp; omega),
        List.getElem?_take_of_lt hj]
    · rw [List.getElem?_append_right (by
        simp only [List.length_append, hz, List.length_take]; omega), List.getElem?_drop]
      congr 1
      simp only [List.length_append, hz, List.length_take]; omega

/-- **C80, finding: spaced arrays.** For a slice such as `scores[::2]` the call succeeds and
changes nothing: the scores are lost. -/
theorem C80_spaced [FloatOps F] (opt : Bool) (vs : ValueScorerOps S G V F)
    (m : MixtureSlave S G) (v : V) (score : G → F) (hm : ScoresLike 3 vs m v score)
    (a : NdArray F) (hv : a.Valid) (hs : 2 ≤ a.stride) (h2 : 2 ≤ a.len)
    (hl : a.len = m.groups.length) :
    scoreValue opt vs m v a = .ok a := by
  rw [scoreValue_eq opt vs m v score hm a (fits_of_pos hv (by omega)) hl, toNdarray, if_pos]
  simp only [NdArray.oneSegment, Bool.or_eq_false_iff, decide_eq_false_iff_not]
  omega

/-- **C80, finding: what is read from a spaced array.** The floats next to item 0, not the
items. -/
theorem C80_spaced_read (a : NdArray F) (hv : a.Valid) (hs : 1 ≤ a.stride) :
    ∃ xs, fromNdarray a = .ok xs ∧ xs.length = a.len ∧
      (∀ i < a.len, xs[i]? = a.mem[a.off + i]?) ∧
      ((∀ i < a.len, xs[i]? = a.item i) ↔
        ∀ i < a.len, a.mem[a.off + i]? = a.mem[a.off + i * a.stride.toNat]?) := by
  have hf := fits_of_pos hv hs
  refine ⟨_, if_pos hf, by simp; omega, ?_, ?_⟩
  · intro i hi
    rw [List.getElem?_take_of_lt hi, List.getElem?_drop]
  · have e : ∀ i, a.item i = a.mem[a.off + i * a.stride.toNat]? := by
      intro i
      have h0 : 0 ≤ (i : Int) * a.stride := by positivity
      unfold NdArray.item
      rw [if_pos (by omega)]
      congr 1
      have : ((i * a.stride.toNat : Nat) : Int) = (i : Int) * a.stride := by
        push_cast; rw [Int.toNat_of_nonneg (by omega)]
      omega
    refine forall₂_congr fun i hi => ?_
    rw [List.getElem?_take_of_lt hi, List.getElem?_drop, e]

/-- **C80, finding: reversed arrays.** For `scores[::-1]` the call reads past the end of the
array. -/
theorem C80_reversed (opt : Bool) (vs : ValueScorerOps S G V F) (m : MixtureSlave S G) (v : V)
    (xs : List F) (h2 : 2 ≤ xs.length) (hl : xs.length = m.groups.length) (res : Bool) :
    (∀ i < xs.length, (NdArray.mk xs (xs.length - 1) (-1) xs.length res).item i =
      xs[xs.length - 1 - i]?) ∧
    scoreValue opt vs m v ⟨xs, xs.length - 1, -1, xs.length, res⟩ = .ub := by
  refine ⟨fun i hi => ?_, ?_⟩
  · unfold NdArray.item
    simp only
    rw [if_pos (by omega)]
    congr 1; omega
  · rw [scoreValue, pyAssert_of hl, Res.ok_bind, fromNdarray, if_neg (by simp only; omega)]
    rfl

/-- **C80, array of another length.** Refused, also with `-O`, where the C++ assertion does
it. -/
theorem C80_length (opt : Bool) (vs : ValueScorerOps S G V F) (m : MixtureSlave S G) (v : V)
    (a : NdArray F) (hv : a.Valid) (hs : a.stride = 1) (hl : a.len ≠ m.groups.length) :
    scoreValue opt vs m v a = .fail := by
  have hf := fits_of_pos hv (by omega)
  cases opt with
  | false => rw [scoreValue, pyAssert_not hl]; rfl
  | true =>
    rw [scoreValue]
    simp only [pyAssert, true_or, if_true, Res.ok_bind]
    rw [fromNdarray, if_pos hf, Res.ok_bind, MixtureSlave.scoreValue,
      distAssert_of_not (by decide) (by simp; omega)]
    rfl

/-- **C80, score arrays of the clusterings.** Here the scores are only written.  A contiguous
array of the right length, or one that may be resized, ends up with the scores; any other
keeps its old contents and length, without an error. -/
theorem C80_write (v : List F) (a : NdArray F) (hv : a.Valid) (hs : a.stride = 1) :
    ∃ a', toNdarray v a = .ok a' ∧
      ((a.len = v.length ∨ a.resizable = true) →
        a'.len = v.length ∧ ∀ i < v.length, a'.item i = v[i]?) ∧
      (a.len ≠ v.length → a.resizable = false → a' = a) := by
  have hf := fits_of_pos hv (by omega)
  have ho : ¬ a.oneSegment = false := by simp [NdArray.oneSegment, hs]
  by_cases hl : v.length = a.len
  · refine ⟨⟨a.mem.take a.off ++ v ++ a.mem.drop (a.off + a.len), a.off, a.stride, a.len,
      a.resizable⟩, by rw [toNdarray, if_neg ho, if_pos hl, if_pos hf], fun _ => ⟨hl.symm, ?_⟩,
      fun h => absurd hl.symm h⟩
    intro i hi
    rw [item_contiguous (by exact hs)]
    show (a.mem.take a.off ++ _ ++ _)[a.off + i]? = _
    rw [List.append_assoc, List.getElem?_append_right (by simp)]
    have e : a.off + i - (a.mem.take a.off).length = i := by
      simp only [List.length_take]; omega
    rw [e, List.getElem?_append_left hi]
  · cases hr : a.resizable with
    | true =>
      refine ⟨⟨v, 0, 1, v.length, true⟩, by rw [toNdarray, if_neg ho, if_neg hl, if_pos hr], fun _ => ⟨rfl, ?_⟩, ?_⟩
      · intro i hi
        rw [item_contiguous rfl]; simp
      · intro _ h; simp at h
    | false =>
      refine ⟨a, by rw [toNdarray, if_neg ho, if_neg hl, if_neg (by simp [hr])], ?_, fun _ _ => rfl⟩
      rintro (h | h)
      · exact absurd h.symm hl
      · simp [hr] at h

/-- **C80, finding: spaced arrays of the clusterings.** Nothing is written. -/
theorem C80_write_spaced (v : List F) (a : NdArray F) (hs : a.stride ≠ 1) (h2 : 2 ≤ a.len) :
    toNdarray v a = .ok a := by
  rw [toNdarray, if_pos]
  simp only [NdArray.oneSegment, Bool.or_eq_false_iff, decide_eq_false_iff_not]
  omega

/-- **C80, arrays of one item.** The distance between items does not matter then: the score is
added to the item, also in a slice such as `scores[::-1]` or `scores[::2]` of length one. -/
theorem C80_single_item [FloatOps F] (opt : Bool) (vs : ValueScorerOps S G V F)
    (m : MixtureSlave S G) (v : V) (score : G → F) (hm : ScoresLike 3 vs m v score)
    (a : NdArray F) (x : F) (g : G) (h1 : a.len = 1) (hx : a.item 0 = some x) (hg : m.groups = [g]) :
    ∃ a', scoreValue opt vs m v a = .ok a' ∧ a'.len = 1 ∧
      a'.item 0 = some (FloatOps.add x (score g)) ∧
      ∀ j, j ≠ a.off → a'.mem[j]? = a.mem[j]? := by
  have e0 : ∀ b : NdArray F, b.item 0 = b.mem[b.off]? := by
    intro b
    unfold NdArray.item
    rw [if_pos (by omega)]
    congr 1; omega
  rw [e0] at hx
  obtain ⟨hlt, rfl⟩ := List.getElem?_eq_some_iff.mp hx
  have hf : a.off + a.len ≤ a.mem.length := by omega
  have hr : (a.mem.drop a.off).take a.len = [a.mem[a.off]] := by
    rw [h1, List.drop_eq_getElem_cons hlt, List.take_succ_cons, List.take_zero]
  refine ⟨⟨a.mem.take a.off ++ [FloatOps.add a.mem[a.off] (score g)] ++ a.mem.drop (a.off + a.len),
      a.off, a.stride, a.len, a.resizable⟩, ?_, h1, ?_, ?_⟩
  · rw [scoreValue_eq opt vs m v score hm a hf (by rw [h1, hg]; rfl), hr, hg, toNdarray,
      if_neg (by simp [NdArray.oneSegment, h1]), if_pos (by simp [h1]), if_pos hf]
    rfl
  · rw [e0]
    show (a.mem.take a.off ++ [_] ++ _)[a.off]? = _
    rw [List.append_assoc, List.getElem?_append_right (by simp)]
    simp [Nat.min_eq_left hlt.le]
  · intro j hj
    show (a.mem.take a.off ++ [_] ++ _)[j]? = _
    have hlen : (a.mem.take a.off).length = a.off := by simp; omega
    rcases Nat.lt_or_ge j a.off with h | h
    · rw [List.append_assoc, List.getElem?_append_left (by omega), List.getElem?_take_of_lt h]
    · rw [List.getElem?_append_right (by simp; omega), List.getElem?_drop]
      congr 1
      simp; omega

/-! ## Appending groups -/

theorem foldl_append (l : List G) (m : MixtureSlave S G) :
    (l.foldl append m).groups = m.groups ++ l := by
  induction l generalizing m with
  | nil => simp
  | cons g l ih => rw [List.foldl_cons, ih]; simp [append]

theorem init_of_run {lvl : Nat} {ops : GroupOps G V} {vs : ValueScorerOps S G V F}
    {m m' : MixtureSlave S G} (h : runMixture lvl ops vs m [.init] = .ok m') :
    m.init vs = .ok m' := by
  rw [runMixture] at h
  simp only [Res.bind_eq_ok] at h
  obtain ⟨m₁, h1, h4⟩ := h
  simp only [runMixture, Res.ok.injEq] at h4
  exact h4 ▸ h1

/-- **C80, `append` and `init`.** Groups appended one by one and then `init`ialised score like
the groups, whatever the mixture held before `clear` (bit for bit). -/
theorem C80_append [FloatOps F] :
    (∀ (sh : BB.Shared F) m (gs : List BB.Group),
      ∃ m', (gs.foldl append (clear m)).init (BB.valueScorer 3 sh) = .ok m' ∧ m'.groups = gs ∧
        ∀ v, ScoresLike 3 (BB.valueScorer 3 sh) m' v (fun g => g.scoreValue sh v)) ∧
    (∀ (sh : GP.Shared F) m (gs : List (GP.Group F)),
      ∃ m', (gs.foldl append (clear m)).init (GP.valueScorer 3 sh) = .ok m' ∧ m'.groups = gs ∧
        ∀ v, ScoresLike 3 (GP.valueScorer 3 sh) m' v (fun g => g.scoreValue sh v)) ∧
    (∀ (sh : NICH.Shared F) m (gs : List (NICH.Group F)),
      ∃ m', (gs.foldl append (clear m)).init (NICH.valueScorer 3 sh) = .ok m' ∧ m'.groups = gs ∧
        ∀ v, ScoresLike 3 (NICH.valueScorer 3 sh) m' v (fun g => g.scoreValue sh v)) := by
  refine ⟨fun sh m gs => ?_, fun sh m gs => ?_, fun sh m gs => ?_⟩
  · obtain ⟨m', h1, h⟩ := C35_bb 3 sh (gs.foldl append (clear m)) [] gs
      (by simp [groupsAfter, foldl_append, clear])
    exact ⟨m', init_of_run h1, h⟩
  · obtain ⟨m', h1, h⟩ := C35_gp 3 sh (gs.foldl append (clear m)) [] gs
      (by simp [groupsAfter, foldl_append, clear])
    exact ⟨m', init_of_run h1, h⟩
  · obtain ⟨m', h1, h⟩ := C35_nich 3 sh (gs.foldl append (clear m)) [] gs
      (by simp [groupsAfter, foldl_append, clear])
    exact ⟨m', init_of_run h1, h⟩

/-- **C80, finding: `append` without `init`.** The cached scores do not cover the new group:
`score_value` passes both length checks and reads past the cache (Beta-Bernoulli). -/
theorem C80_append_without_init [FloatOps F] (sh : BB.Shared F)
    (m : MixtureSlave (BB.Cache F) BB.Group) (g : BB.Group) (v : Bool)
    (hc : m.scorer.heads.length = m.groups.length ∧ m.scorer.tails.length = m.groups.length)
    (xs : List F) (hx : xs.length = m.groups.length + 1) (opt res : Bool) :
    scoreValue opt (BB.valueScorer 3 sh) (append m g) v ⟨xs, 0, 1, xs.length, res⟩ = .ub := by
  have hub : ∀ (cache accum : List F) (i : Nat), cache.length < i + accum.length → i ≤ cache.length →
      accumulate (fun i => getAt cache i) i accum = .ub := by
    intro cache accum
    induction accum with
    | nil => intro i h1 h2; simp at h1; omega
    | cons a as ih =>
      intro i h1 h2
      rw [accumulate]
      simp only [List.length_cons] at h1
      rcases Nat.lt_or_ge i cache.length with hi | hi
      · rw [getAt_of hi, Res.ok_bind, ih (i + 1) (by omega) hi]; rfl
      · rw [getAt_of_ge hi]; rfl
  have hl : xs.length = (append m g).groups.length := by simp [append, hx]
  rw [scoreValue, pyAssert_of hl, Res.ok_bind, fromNdarray, if_pos (by simp), Res.ok_bind,
    MixtureSlave.scoreValue, distAssert_of (by simp [hl]), Res.ok_bind]
  have : (BB.valueScorer 3 sh).scoreValue (append m g).scorer (append m g).groups v
      ((List.drop 0 xs).take xs.length) = .ub := by
    show vectorAdd _ _ = _
    refine hub _ _ 0 ?_ (by omega)
    simp only [append, List.drop_zero, List.take_length, Nat.zero_add]
    cases v
    · show m.scorer.tails.length < _; omega
    · show m.scorer.heads.length < _; omega
  rw [this]; rfl

/-! ## Values -/

/-- **C80, finding: negative counts.** `add_value(-k)` is accepted: the group gains one
observation of `2^32 - k`, so its sum goes down by `k`. -/
theorem C80_negative_value [FloatOps F] (g : GP.Group F) (h : BNB.Group) (z : Int)
    (hz : InInt32 z) :
    (∃ g', addValueGP g z = .ok g' ∧ g'.count = g.count + 1 ∧
      (g'.sum.toNat : Int) = (g.sum.toNat + z) % 4294967296) ∧
    (∃ h', addValueBNB h z = .ok h' ∧ h'.count = h.count + 1 ∧
      (h'.sum.toNat : Int) = (h.sum.toNat + z) % 4294967296) := by
  have key : ∀ u : UInt32, ((u + toU32 z).toNat : Int) = (u.toNat + z) % 4294967296 := by
    intro u
    have e : (toU32 z).toNat = (z % 4294967296).toNat := by
      unfold toU32 UInt32.ofInt
      rw [UInt32.toNat_ofNat']
      norm_num
      omega
    rw [UInt32.toNat_add, e]
    push_cast
    omega
  refine ⟨⟨g.addValue (toU32 z), ?_, rfl, key _⟩, ⟨h.addValue (toU32 z), ?_, rfl, key _⟩⟩
  · rw [addValueGP, asInt_ok hz]; rfl
  · rw [addValueBNB, asInt_ok hz]; rfl

/-! ## Id tracker -/

/-- **C80, id tracker.** Ids below `2^31` reach the C++ tracker unchanged; a negative id stands
for `2^32` plus itself, which the tracker refuses as long as fewer than `2^31` groups exist
and were ever created. -/
theorem C80_tracker (t : IdTracker) (n : Nat) (hn : t.globalSize = some n) (z : Int)
    (hz : InInt32 z) :
    (0 ≤ z → removeTracked t z = t.removeGroup 3 z.toNat ∧
      packedToGlobal t z = t.packedToGlobalId 3 z.toNat ∧
      globalToPacked t z = t.globalToPackedId 3 z.toNat) ∧
    (z < 0 → t.packedToGlobal.length ≤ 2147483648 → n ≤ 2147483648 →
      removeTracked t z = .fail ∧ packedToGlobal t z = .fail ∧ globalToPacked t z = .fail) := by
  have hz' := hz
  unfold InInt32 int32Min int32Max at hz'
  have e : (toU32 z).toNat = (z % 4294967296).toNat := by
    unfold toU32 UInt32.ofInt
    rw [UInt32.toNat_ofNat']
    norm_num
    omega
  refine ⟨fun h0 => ?_, fun h0 hl hg => ?_⟩
  · have e' : (toU32 z).toNat = z.toNat := by rw [e]; omega
    simp only [removeTracked, packedToGlobal, globalToPacked, asInt_ok hz, Res.ok_bind, e']
    exact ⟨rfl, rfl, rfl⟩
  · have hb : 2147483648 ≤ (toU32 z).toNat := by rw [e]; omega
    refine ⟨?_, ?_, ?_⟩
    · rw [removeTracked, asInt_ok hz, Res.ok_bind, IdTracker.removeGroup,
        distAssert_of_not (by decide) (by omega)]; rfl
    · rw [packedToGlobal, asInt_ok hz, Res.ok_bind, IdTracker.packedToGlobalId,
        distAssert_of_not (by decide) (by omega)]; rfl
    · rw [globalToPacked, asInt_ok hz, Res.ok_bind, IdTracker.globalToPackedId]
      simp only [pyLevel, show 1 ≤ 3 by decide, if_true, IdTracker.getGlobalSize, hn, Res.ok_bind]
      rw [distAssert_of_not (by decide) (by omega)]; rfl

/-- **C80, finding: global ids from `2^31` on.** `packed_to_global` hands them out and
`global_to_packed` cannot take them back. -/
theorem C80_tracker_large (t : IdTracker) (global : Nat) (h : 2147483648 ≤ global) :
    globalToPacked t global = .fail := by
  rw [globalToPacked, asInt_not (by unfold InInt32 int32Min int32Max; omega)]; rfl

/-- **C80, `init` of the id tracker.** Every count from 0 on reaches the C++ tracker; a negative
one is refused. -/
theorem C80_tracker_init (t : IdTracker) (z : Int) (hz : InInt32 z) :
    (0 ≤ z → initTracker t z = t.init z.toNat) ∧ (z < 0 → initTracker t z = .fail) := by
  refine ⟨fun h => ?_, fun h => ?_⟩
  · rw [initTracker, asInt_ok hz, Res.ok_bind, if_neg (by omega)]
  · rw [initTracker, asInt_ok hz, Res.ok_bind, if_pos h]

/-- Such ids are handed out. -/
example : packedToGlobal ⟨[2147483648], .empty, some 2147483649⟩ 0 = .ok 2147483648 := by
  decide

/-- A slice with every other item of a block: not vacuous. -/
example : (NdArray.mk [1, 2, 3, 4] 0 2 2 false : NdArray Nat).Valid ∧
    (NdArray.mk [1, 2, 3, 4] 0 2 2 false : NdArray Nat).item 1 = some 3 ∧
    fromNdarray (NdArray.mk [1, 2, 3, 4] 0 2 2 false : NdArray Nat) = .ok [1, 2] := by
  refine ⟨⟨by simp, ?_⟩, by decide, by rfl⟩
  intro i hi
  simp only at hi
  interval_cases i
  · exact ⟨1, by decide⟩
  · exact ⟨3, by decide⟩

end Dist.Py
