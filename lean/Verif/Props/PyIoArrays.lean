import Verif.Props.PyIo
import Verif.Model.DD

/-! # C79: Dirichlet-Discrete dictionaries and messages of the Python bindings -/

namespace Dist.Py

open FloatOps FloatNotation Spec

/-! ## Arrays -/

theorem fill_eq {α : Type} (xs a : List α) (i : Nat) (h : i + xs.length ≤ a.length) :
    fill (i : Int) xs a = .ok (a.take i ++ xs ++ a.drop (i + xs.length)) := by
  induction xs generalizing i a with
  | nil => simp [fill]
  | cons x xs ih =>
    simp only [List.length_cons] at h
    have hw : DD.writeAt a (i : Int) x = .ok (a.set i x) := by
      simp [DD.writeAt, setAt_of (show i < a.length by omega)]
    have := ih (a.set i x) (i + 1) (by simp; omega)
    push_cast at this
    rw [fill, hw, Res.ok_bind, this]
    congr 1
    have e1 : (a.set i x).take (i + 1) = a.take i ++ [x] := by
      rw [List.take_succ, List.take_set_of_le (le_refl i),
        List.getElem?_set_self (by omega)]
      rfl
    have e2 : (a.set i x).drop (i + 1 + xs.length) = a.drop (i + (xs.length + 1)) := by
      rw [List.drop_set_of_lt (by omega)]
      congr 1; omega
    rw [e1, e2]
    simp

theorem fill_ub {α : Type} (xs a : List α) (i : Nat) (hi : i ≤ a.length)
    (h : a.length < i + xs.length) : fill (i : Int) xs a = .ub := by
  induction xs generalizing i a with
  | nil => simp at h; omega
  | cons x xs ih =>
    simp only [List.length_cons] at h
    by_cases hl : i < a.length
    · have hw : DD.writeAt a (i : Int) x = .ok (a.set i x) := by
        simp [DD.writeAt, setAt_of hl]
      have := ih (a.set i x) (i + 1) (by simp; omega) (by simp; omega)
      push_cast at this
      rw [fill, hw, Res.ok_bind, this]
    · have hw : DD.writeAt a (i : Int) x = .ub := by
        simp [DD.writeAt, setAt_of_ge (show a.length ≤ i by omega)]
      rw [fill, hw]; rfl

theorem collect_eq {α : Type} (a : List α) (i n : Nat) (h : i + n ≤ a.length) :
    collect a (i : Int) n = .ok ((a.drop i).take n) := by
  induction n generalizing i with
  | zero => simp [collect]
  | succ n ih =>
    have hr : DD.readAt a (i : Int) = .ok (a[i]'(by omega)) := by
      simp [DD.readAt, getAt_of (show i < a.length by omega)]
    have := ih (i + 1) (by omega)
    push_cast at this
    rw [collect, hr, Res.ok_bind, this, Res.ok_bind, Res.pure_eq]
    congr 1
    rw [List.drop_eq_getElem_cons (show i < a.length by omega), List.take_succ_cons]

theorem lenInt_of {n : Nat} (h : n < 2 ^ 31) : lenInt n = n := by
  unfold lenInt; rw [Int.bmod_def]; omega

variable {D F : Type} (c : Conv D F)

theorem loadDDShared_eq (alphas : List D) (s : DDShared F) (h : alphas.length ≤ s.alphas.length)
    (hs : s.alphas.length = 256) :
    loadDDShared c alphas s = .ok ⟨(alphas.length : Int),
      alphas.map c.narrow ++ s.alphas.drop alphas.length⟩ () := by
  have hn : lenInt alphas.length = (alphas.length : Int) := lenInt_of (by omega)
  have hf := fill_eq (alphas.map c.narrow) s.alphas 0 (by simpa using h)
  simp only [Nat.cast_zero, List.take_zero, List.nil_append, List.length_map, Nat.zero_add] at hf
  rw [loadDDShared, hn]
  simp only [loadDDSharedDim, act_bind, act_modify, act_get, Int.toNat_natCast, List.take_length,
    hf, act_lift_ok]

/-- **C79 (Dirichlet-Discrete), hyperparameters.** Up to 256 alphas: loading a dictionary or
a message sets the dimension and those entries of the array, leaves the others, and `dump`
returns the numbers rounded to single precision; so what was dumped is restored. -/
theorem C79_dd_shared (s old : DDShared F) (hs : s.alphas.length = 256)
    (ho : old.alphas.length = 256) (hd : 0 ≤ s.dim ∧ s.dim ≤ 256) (before : Proto.DDSharedMsg F) :
    (∀ alphas : List D, alphas.length ≤ 256 → ∃ t, loadDDShared c alphas old = .ok t () ∧
      t.dim = alphas.length ∧ t.alphas.length = 256 ∧
      (∀ i, alphas.length ≤ i → t.alphas[i]? = old.alphas[i]?) ∧
      dumpDDShared c t = .ok (alphas.map fun x => c.widen (c.narrow x))) ∧
    (∃ raw t, dumpDDShared c s = .ok raw ∧ loadDDShared c raw old = .ok t () ∧
      t.dim = s.dim ∧ ∀ i : Nat, (i : Int) < s.dim → t.alphas[i]? = s.alphas[i]?) ∧
    (∃ msg t, pbDumpDDShared c s before = .ok msg ∧ pbLoadDDShared c msg old = .ok t () ∧
      t.dim = s.dim ∧ ∀ i : Nat, (i : Int) < s.dim → t.alphas[i]? = s.alphas[i]?) := by
  obtain ⟨n, hn⟩ : ∃ n : Nat, s.dim = n := ⟨s.dim.toNat, by omega⟩
  have hdump : dumpDDShared c s = .ok ((s.alphas.take n).map c.widen) := by
    have := collect_eq s.alphas 0 n (by omega)
    simp only [Nat.cast_zero, List.drop_zero] at this
    simp only [dumpDDShared, hn, Int.toNat_natCast, this, Res.ok_bind, Res.pure_eq]
  have hmm : ∀ l : List F, (l.map c.widen).map c.narrow = l := by
    intro l; simp [List.map_map, Function.comp_def, c.narrow_widen]
  have hload : loadDDShared c ((s.alphas.take n).map c.widen) old =
      .ok ⟨s.dim, s.alphas.take n ++ old.alphas.drop n⟩ () := by
    have hl : (s.alphas.take n).length = n := by rw [List.length_take]; omega
    rw [loadDDShared_eq c _ old (by rw [List.length_map, hl]; omega) ho, hmm, List.length_map, hl,
      hn]
  have hget : ∀ i : Nat, (i : Int) < s.dim →
      (s.alphas.take n ++ old.alphas.drop n)[i]? = s.alphas[i]? := by
    intro i hi
    rw [List.getElem?_append_left (by rw [List.length_take]; omega), List.getElem?_take]
    rw [if_pos (by omega)]
  refine ⟨fun alphas ha => ?_, ?_, ?_⟩
  · refine ⟨_, loadDDShared_eq c alphas old (by omega) ho, rfl, ?_, ?_, ?_⟩
    · simp only [List.length_append, List.length_map, List.length_drop]; omega
    · intro i hi
      simp only
      rw [List.getElem?_append_right (by simpa using hi), List.getElem?_drop, List.length_map,
        Nat.add_sub_cancel' hi]
    · have := collect_eq (alphas.map c.narrow ++ old.alphas.drop alphas.length) 0 alphas.length
        (by simp)
      simp only [Nat.cast_zero, List.drop_zero] at this
      simp only [dumpDDShared, Int.toNat_natCast, this, Res.ok_bind, Res.pure_eq]
      rw [List.take_left' (by simp), List.map_map]
      rfl
  · exact ⟨_, ⟨s.dim, s.alphas.take n ++ old.alphas.drop n⟩, hdump, hload, rfl, hget⟩
  · refine ⟨⟨s.alphas.take n⟩, ⟨s.dim, s.alphas.take n ++ old.alphas.drop n⟩, ?_, ?_, rfl, hget⟩
    · simp only [pbDumpDDShared, hdump, Res.ok_bind, Res.pure_eq, hmm]
    · exact hload

/-- Three alphas into a new object. -/
example : loadDDShared (⟨id, id, 1, (· - ·), fun _ => rfl⟩ : Conv Int Int) [1, 2, 3]
    ⟨0, List.replicate 256 0⟩ = .ok ⟨3, [1, 2, 3] ++ List.replicate 253 0⟩ () := by
  rw [loadDDShared_eq _ _ _ (by rw [List.length_replicate]; simp) (List.length_replicate ..),
    List.drop_replicate]
  rfl

/-- **C79, finding.** More than 256 alphas are written past the end of the array, from a
dictionary and from a message alike; the C++ `protobuf_load` refuses the same message. -/
theorem C79_dd_overrun (old : DDShared F) (ho : old.alphas.length = 256) :
    (∀ alphas : List D, 256 < alphas.length → alphas.length < 2 ^ 31 →
      loadDDShared c alphas old = .ub) ∧
    (∀ msg : Proto.DDSharedMsg F, 256 < msg.alphas.length → msg.alphas.length < 2 ^ 31 →
      pbLoadDDShared c msg old = .ub ∧ ∀ sh, Proto.loadDDShared 256 sh msg = .fail) := by
  have key : ∀ alphas : List D, 256 < alphas.length → alphas.length < 2 ^ 31 →
      loadDDShared c alphas old = .ub := by
    intro alphas h1 h2
    have hf := fill_ub (alphas.map c.narrow) old.alphas 0 (by omega) (by simp; omega)
    simp only [Nat.cast_zero] at hf
    rw [loadDDShared, lenInt_of h2]
    simp only [loadDDSharedDim, act_bind, act_modify, act_get, Int.toNat_natCast,
      List.take_length, hf, act_lift_ub]
  refine ⟨key, fun msg h1 h2 => ⟨key _ (by simpa using h1) (by simpa using h2), fun sh => ?_⟩⟩
  have : ¬ msg.alphas.length ≤ 256 := by omega
  simp [Proto.loadDDShared, distAssert0, distAssert, this]

/-! ## Groups -/

theorem length_newDDGroup : newDDGroup.counts.length = 256 := List.length_replicate ..

theorem loadDDGroupLoop_eq (zs : List Int) (g : DDGroup) (i : Nat)
    (h : i + zs.length ≤ g.counts.length) (hz : ∀ z ∈ zs, 0 ≤ z) (h0 : 0 ≤ g.countSum)
    (hs : g.countSum + zs.sum ≤ 2147483647) :
    loadDDGroupLoop (i : Int) zs g = .ok { g with
      countSum := g.countSum + zs.sum,
      counts := g.counts.take i ++ zs ++ g.counts.drop (i + zs.length) } () := by
  induction zs generalizing g i with
  | nil => simp [loadDDGroupLoop, act_pure]
  | cons z zs ih =>
    simp only [List.length_cons, List.sum_cons] at h hs
    have hz0 := hz z (by simp)
    have hnn : 0 ≤ zs.sum := List.sum_nonneg fun x hx => hz x (by simp [hx])
    have h1 : InInt32 (g.countSum + z) := by unfold InInt32 int32Min int32Max; omega
    have h2 : InInt32 z := by unfold InInt32 int32Min int32Max; omega
    have hw : DD.writeAt g.counts (i : Int) z = .ok (g.counts.set i z) := by
      simp [DD.writeAt, setAt_of (show i < g.counts.length by omega)]
    have := ih { g with countSum := g.countSum + z, counts := g.counts.set i z } (i + 1)
      (by simp; omega) (fun x hx => hz x (by simp [hx])) (by simp only; omega) (by simp only; omega)
    push_cast at this
    simp only [loadDDGroupLoop, act_bind, act_get, asInt_of h1, asInt_of h2, act_lift_ok, act_modify,
      hw, this]
    congr 2
    · simp; ring
    · have e1 : (g.counts.set i z).take (i + 1) = g.counts.take i ++ [z] := by
        rw [List.take_succ, List.take_set_of_le (le_refl i),
          List.getElem?_set_self (by omega)]
        rfl
      have e2 : (g.counts.set i z).drop (i + 1 + zs.length) =
          g.counts.drop (i + (zs.length + 1)) := by
        rw [List.drop_set_of_lt (by omega)]
        congr 1; omega
      rw [e1, e2]
      simp

theorem loadDDGroup_eq (counts : List Int) (old : DDGroup) (ho : old.counts.length = 256)
    (h : counts.length ≤ 256) (hz : ∀ z ∈ counts, 0 ≤ z) (hs : counts.sum ≤ 2147483647) :
    loadDDGroup counts old = .ok ⟨counts.length, old.dim, counts.sum,
      counts ++ old.counts.drop counts.length⟩ () := by
  have hn : lenInt counts.length = (counts.length : Int) := lenInt_of (by omega)
  have := loadDDGroupLoop_eq counts
    { old with pyDim := (counts.length : Int), countSum := 0 } 0 (by simp only; omega) hz
    (le_refl _) (by simpa using hs)
  simp only [Nat.cast_zero, List.take_zero, List.nil_append, Nat.zero_add, Int.zero_add] at this
  rw [loadDDGroup, hn]
  simp only [loadDDGroupDim, act_bind, act_modify, Int.toNat_natCast, List.take_length, this]

/-- **C79 (Dirichlet-Discrete), groups.** Up to 256 non-negative counts whose total fits a C
`int` load: the counts and their total are assigned, and `dump` returns them. -/
theorem C79_dd_group (counts : List Int) (old : DDGroup) (ho : old.counts.length = 256)
    (h : counts.length ≤ 256) (hz : ∀ z ∈ counts, 0 ≤ z) (hs : counts.sum ≤ 2147483647) :
    ∃ g, loadDDGroup counts old = .ok g () ∧ g.countSum = counts.sum ∧
      (∀ i : Nat, i < counts.length → g.counts[i]? = counts[i]?) ∧
      (∀ i : Nat, counts.length ≤ i → g.counts[i]? = old.counts[i]?) ∧
      dumpDDGroup g = .ok counts := by
  refine ⟨_, loadDDGroup_eq counts old ho h hz hs, rfl, ?_, ?_, ?_⟩
  · intro i hi
    simp only
    rw [List.getElem?_append_left hi]
  · intro i hi
    simp only
    rw [List.getElem?_append_right hi, List.getElem?_drop]
    congr 1; omega
  · have := collect_eq (counts ++ old.counts.drop counts.length) 0 counts.length (by simp)
    simp only [Nat.cast_zero, List.drop_zero] at this
    simp only [dumpDDGroup, Int.toNat_natCast, this]
    rw [List.take_left' rfl]

/-- **C79, finding.** `Group.load` assigns the Python member `dim` but not the member `dim`
of the C++ group, which bounds its loops.  A group made from a dictionary (`from_dict`: a
new object, then `load`) keeps `dim = 0`, so its `score_data` depends on the total count
only, not on the counts nor on the hyperparameters, and in a build with checks it refuses
every value. -/
theorem C79_dd_group_dim [FloatOps F] (counts : List Int) (h : counts.length ≤ 256)
    (hz : ∀ z ∈ counts, 0 ≤ z) (hs : counts.sum ≤ 2147483647) :
    ∃ g, loadDDGroup counts newDDGroup = .ok g () ∧ g.dim = 0 ∧
      (∀ sh : DDShared F, scoreDataDD sh g = .ok (ofInt 0 +
        (lgamma (ofInt 0) - lgamma (ofInt 0 + ofInt counts.sum)))) ∧
      ∀ value : Int, 0 ≤ value → ∀ lvl, 1 ≤ lvl → addValueDD lvl value g = .fail g := by
  refine ⟨_, loadDDGroup_eq counts newDDGroup length_newDDGroup h hz hs, rfl, ?_, ?_⟩
  · intro sh
    rfl
  · intro value hv lvl hl
    have : ¬ value < newDDGroup.dim := by simp only [newDDGroup]; omega
    simp only [addValueDD, act_bind, act_get, Act.check, distAssert, hl, this, decide_false]
    rfl

/-- **C79.** A group with its dimension set counts a value once, in its own entry. -/
theorem C79_dd_add_value (lvl : Nat) (g : DDGroup) (value : Nat) (n : Int) (hv : value < g.dim)
    (hn : g.counts[value]? = some n) (h1 : InInt32 (n + 1)) (h2 : InInt32 (g.countSum + 1)) :
    ∃ g', addValueDD lvl value g = .ok g' () ∧ g'.countSum = g.countSum + 1 ∧
      g'.counts[value]? = some (n + 1) ∧ (∀ i, i ≠ value → g'.counts[i]? = g.counts[i]?) ∧
      g'.dim = g.dim ∧ g'.pyDim = g.pyDim := by
  obtain ⟨hl, rfl⟩ := List.getElem?_eq_some_iff.mp hn
  have hr : DD.readAt g.counts (value : Int) = .ok g.counts[value] := by
    simp [DD.readAt, getAt_of hl]
  have hw : ∀ x, DD.writeAt g.counts (value : Int) x = .ok (g.counts.set value x) := by
    intro x
    simp [DD.writeAt, setAt, hl]
  refine ⟨{ g with countSum := g.countSum + 1, counts := g.counts.set value (g.counts[value] + 1) },
    ?_, rfl, ?_, ?_, rfl, rfl⟩
  · simp only [addValueDD, act_bind, act_get, Act.check, distAssert_of hv, act_lift_ok, i32_of h2,
      act_modify, hr, i32_of h1, hw]
  · simp [hl]
  · intro i hi
    rw [List.getElem?_set_ne (Ne.symm hi)]

theorem scoreDataDDLoop_eq [FloatOps F] (s : DDShared F) (g : DDGroup) (i n : Nat)
    (h1 : i + n ≤ s.alphas.length) (h2 : i + n ≤ g.counts.length) (score asum : F) :
    scoreDataDDLoop s g (i : Int) n score asum =
      DD.scoreLoop ((s.alphas.drop i).take n) ((g.counts.drop i).take n) score asum := by
  induction n generalizing i score asum with
  | zero => simp [scoreDataDDLoop, DD.scoreLoop]
  | succ n ih =>
    have hr1 : DD.readAt s.alphas (i : Int) = .ok (s.alphas[i]'(by omega)) := by
      simp [DD.readAt, getAt_of (show i < s.alphas.length by omega)]
    have hr2 : DD.readAt g.counts (i : Int) = .ok (g.counts[i]'(by omega)) := by
      simp [DD.readAt, getAt_of (show i < g.counts.length by omega)]
    have := fun a b => ih (i + 1) (by omega) (by omega) a b
    push_cast at this
    rw [scoreDataDDLoop, hr1, Res.ok_bind, hr2, Res.ok_bind, this,
      List.drop_eq_getElem_cons (show i < s.alphas.length by omega),
      List.drop_eq_getElem_cons (show i < g.counts.length by omega), List.take_succ_cons,
      List.take_succ_cons, DD.scoreLoop]

/-- **C79.** Loading into a group initialised from hyperparameters of the same dimension
works: its score is the score of those counts. -/
theorem C79_dd_group_initialised [FloatOps F] (sh : DDShared F) (counts : List Int) (old : DDGroup)
    (hsh : sh.alphas.length = 256) (ho : old.counts.length = 256)
    (h : counts.length ≤ 256) (hd : sh.dim = counts.length) (hz : ∀ z ∈ counts, 0 ≤ z)
    (hs : counts.sum ≤ 2147483647) :
    ∃ g1 g, initDDGroup sh old = .ok g1 () ∧ loadDDGroup counts g1 = .ok g () ∧
      scoreDataDD sh g =
        DD.Group.scoreData ⟨sh.alphas.take counts.length⟩ ⟨counts.sum, counts⟩ := by
  have hf := fill_eq (List.replicate counts.length 0) old.counts 0 (by simp; omega)
  simp only [Nat.cast_zero, List.take_zero, List.nil_append, Nat.zero_add,
    List.length_replicate] at hf
  have hi : initDDGroup sh old = .ok ⟨counts.length, counts.length, 0,
      List.replicate counts.length 0 ++ old.counts.drop counts.length⟩ () := by
    simp only [initDDGroup, act_bind, act_modify, act_get, hd, Int.toNat_natCast, hf, act_lift_ok]
  refine ⟨_, _, hi, loadDDGroup_eq counts _ (by simp; omega) h hz hs, ?_⟩
  have hsc := fun a b => scoreDataDDLoop_eq sh ⟨counts.length, counts.length, counts.sum,
      counts ++ (List.replicate counts.length 0 ++ old.counts.drop counts.length).drop
        counts.length⟩ 0 counts.length (by omega) (by simp) a b
  simp only [Nat.cast_zero, List.drop_zero, List.take_left' rfl] at hsc
  simp only [scoreDataDD, Int.toNat_natCast, hsc, DD.Group.scoreData]

/-- Not vacuous: two heads, one tail. -/
example : ∃ g, loadDDGroup [2, 1] newDDGroup = .ok g () ∧ g.countSum = 3 ∧
    dumpDDGroup g = .ok [2, 1] ∧ g.dim = 0 := by
  obtain ⟨g, h1, h2, _, _, h3⟩ := C79_dd_group [2, 1] newDDGroup length_newDDGroup (by simp)
    (by simp) (by simp)
  refine ⟨g, h1, h2, h3, ?_⟩
  rw [loadDDGroup_eq [2, 1] newDDGroup length_newDDGroup (by simp) (by simp) (by simp)] at h1
  cases h1; rfl

/-- **C79, finding.** More than 256 counts are written past the end of the array. -/
theorem C79_dd_group_overrun (counts : List Int) (old : DDGroup) (ho : old.counts.length = 256)
    (h : 256 < counts.length) (h' : counts.length < 2 ^ 31) (hz : ∀ z ∈ counts, 0 ≤ z)
    (hs : counts.sum ≤ 2147483647) : loadDDGroup counts old = .ub := by
  have hn : lenInt counts.length = (counts.length : Int) := lenInt_of h'
  have key : ∀ (zs : List Int) (g : DDGroup) (i : Nat), i ≤ g.counts.length →
      g.counts.length < i + zs.length → (∀ z ∈ zs, 0 ≤ z) → 0 ≤ g.countSum →
      g.countSum + zs.sum ≤ 2147483647 → loadDDGroupLoop (i : Int) zs g = .ub := by
    intro zs
    induction zs with
    | nil => intro g i h1 h2; simp at h2; omega
    | cons z zs ih =>
      intro g i h1 h2 hz h0 hs
      simp only [List.length_cons, List.sum_cons] at h2 hs
      have hz0 := hz z (by simp)
      have hnn : 0 ≤ zs.sum := List.sum_nonneg fun x hx => hz x (by simp [hx])
      have h3 : InInt32 (g.countSum + z) := by unfold InInt32 int32Min int32Max; omega
      have h4 : InInt32 z := by unfold InInt32 int32Min int32Max; omega
      by_cases hi : i < g.counts.length
      · have hw : DD.writeAt g.counts (i : Int) z = .ok (g.counts.set i z) := by
          simp [DD.writeAt, setAt_of hi]
        have := ih { g with countSum := g.countSum + z, counts := g.counts.set i z } (i + 1)
          (by simp; omega) (by simp; omega) (fun x hx => hz x (by simp [hx])) (by simp only; omega)
          (by simp only; omega)
        push_cast at this
        simp only [loadDDGroupLoop, act_bind, act_get, asInt_of h3, asInt_of h4, act_lift_ok,
          act_modify, hw, this]
      · have hw : DD.writeAt g.counts (i : Int) z = .ub := by
          simp [DD.writeAt, setAt_of_ge (show g.counts.length ≤ i by omega)]
        simp only [loadDDGroupLoop, act_bind, act_get, asInt_of h3, asInt_of h4, act_lift_ok,
          act_modify, hw, act_lift_ub]
  have := key counts { old with pyDim := (counts.length : Int), countSum := 0 } 0 (by simp)
    (by simp only; omega) hz (le_refl _) (by simpa using hs)
  simp only [Nat.cast_zero] at this
  rw [loadDDGroup, hn]
  simp only [loadDDGroupDim, act_bind, act_modify, Int.toNat_natCast, List.take_length, this]

end Dist.Py
