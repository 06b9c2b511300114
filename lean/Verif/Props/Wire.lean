import Verif.Lemmas.Wire
import Verif.Props.Protobuf

/-!
# C64: serialised messages

`lib` is what the protobuf library does with unknown fields; the laws asked of it hold of
`plainLib`, the library without groups (`plain_laws`).
-/

namespace Dist.Wire

open Spec
open Stream (Bytes)
open Proto

variable {U : Type} {lib : UnknownLib U} {S : Schema}

theorem good_of_mem (h : S ∈ schemas) : Schema.Good S := by
  have : ∀ T ∈ schemas, Schema.Good T := by decide
  exact this S h

/-! ## Messages -/

/-- **C64 (round trip).** For every class, parsing the serialisation of a message whose required
fields are set gives the message back, unknown fields included. -/
theorem C64_roundtrip (L : UnknownLaws lib) (h : S ∈ schemas) (m : Msg U) (hw : WellFormed lib S m)
    (hi : ∀ f ∈ S, f.rep = false → m.vals f.num ≠ []) :
    parse lib S (serialize lib S m) = some m :=
  parse_serialize L (good_of_mem h) m hw hi

/-- **C64 (missing fields).** The serialisation of a message with a required field not set is not
accepted. -/
theorem C64_missing (L : UnknownLaws lib) (h : S ∈ schemas) (m : Msg U) (hw : WellFormed lib S m)
    {f : Field} (hf : f ∈ S) (hr : f.rep = false) (hm : m.vals f.num = []) :
    parse lib S (serialize lib S m) = none := by
  have hS := good_of_mem h
  have := merge_serialize L hS .empty m hw []
  rw [List.append_nil, mergeFromBytes_nil, mergeFrom_empty hS m hw] at this
  unfold parse
  rw [this]
  simp only [Option.bind_some]
  rw [if_neg fun hi => hi f hf hr hm]

/-- **C64 (equality).** The `operator==` of messages, which compares serialisations, is equality. -/
theorem C64_equal (L : UnknownLaws lib) (h : S ∈ schemas) (x y : Msg U) (hx : WellFormed lib S x)
    (hy : WellFormed lib S y) : msgEq lib S x y = true ↔ x = y := by
  have hS := good_of_mem h
  refine ⟨fun he => ?_, fun he => by simp [he, msgEq]⟩
  have he : serialize lib S x = serialize lib S y := by simpa [msgEq] using he
  have h1 := merge_serialize L hS .empty x hx []
  have h2 := merge_serialize L hS .empty y hy []
  rw [List.append_nil, mergeFromBytes_nil, mergeFrom_empty hS x hx] at h1
  rw [List.append_nil, mergeFromBytes_nil, mergeFrom_empty hS y hy, ← he, h1] at h2
  exact Option.some.inj h2

/-- **C64 (copying).** `CopyFrom` makes an equal message, and parsing into a message that is not
cleared does what `MergeFrom` does. -/
theorem C64_copy (L : UnknownLaws lib) (h : S ∈ schemas) (m x : Msg U) (hx : WellFormed lib S x) :
    copyFrom S x = x ∧
      mergeFromBytes lib S m (serialize lib S x) = some (mergeFrom S m x) := by
  have hS := good_of_mem h
  refine ⟨mergeFrom_empty hS x hx, ?_⟩
  have := merge_serialize L hS m x hx []
  rwa [List.append_nil, mergeFromBytes_nil] at this

/-- **C64 (concatenation).** Two serialisations one after the other parse as one message: repeated
fields are appended, required fields are those of the second. -/
theorem C64_concat (L : UnknownLaws lib) (h : S ∈ schemas) (x y : Msg U) (hx : WellFormed lib S x)
    (hy : WellFormed lib S y) (hi : ∀ f ∈ S, f.rep = false → y.vals f.num ≠ []) :
    ∃ z, parse lib S (serialize lib S x ++ serialize lib S y) = some z ∧
      z.unknown = x.unknown ++ y.unknown ∧
      ∀ f ∈ S, z.vals f.num = if f.rep then x.vals f.num ++ y.vals f.num else y.vals f.num := by
  have hS := good_of_mem h
  have h1 := merge_serialize L hS .empty x hx (serialize lib S y)
  rw [mergeFrom_empty hS x hx, (C64_copy L h x y hy).2] at h1
  obtain ⟨h2, h3, h4⟩ := mergeFrom_vals hS x y
  have h5 : ∀ f ∈ S, (mergeFrom S x y).vals f.num =
      if f.rep then x.vals f.num ++ y.vals f.num else y.vals f.num := by
    intro f hf
    rw [h3 f hf]
    by_cases hr : f.rep = true
    · rw [if_pos hr, if_pos hr]
    · rw [if_neg hr, if_neg hr]
      have h6 := hy.single f hf (by simpa using hr)
      have h7 := hi f hf (by simpa using hr)
      rcases hv : y.vals f.num with _ | ⟨v, _ | ⟨w, vs⟩⟩
      · exact absurd hv h7
      · rfl
      · rw [hv] at h6; simp at h6
  refine ⟨mergeFrom S x y, ?_, h2, h5⟩
  unfold parse
  rw [h1]
  simp only [Option.bind_some]
  rw [if_pos]
  intro f hf hr
  rw [h5 f hf, if_neg (by simp [hr])]
  exact hi f hf hr

theorem foldlM_i32 {α : Type} (l : List α) (g : α → Nat) (t : Int) (h0 : 0 ≤ t)
    (ht : t ≤ 2147483647) :
    l.foldlM (fun (t : Int) a => i32 (t + g a)) t =
      if t + ((l.map g).sum : Nat) ≤ 2147483647 then Res.ok (t + ((l.map g).sum : Nat)) else .ub := by
  induction l generalizing t with
  | nil => simp [ht]
  | cons a l ih =>
    rw [List.foldlM_cons, List.map_cons, List.sum_cons]
    by_cases ha : t + g a ≤ 2147483647
    · rw [i32_of (by unfold InInt32 int32Min int32Max; omega), Res.ok_bind, ih _ (by omega) ha]
      push_cast
      rw [add_assoc]
    · rw [i32, if_neg (by unfold InInt32 int32Min int32Max; omega), if_neg (by rw [Nat.cast_add]; omega)]
      rfl

theorem length_serialize (hS : Schema.Good S) (m : Msg U) (hw : WellFormed lib S m) :
    (serialize lib S m).length = (S.map fun f => fieldSize f (m.vals f.num)).sum +
      (m.unknown.map fun u => (lib.enc u).length).sum := by
  unfold serialize
  rw [List.length_append, List.length_flatMap, List.length_flatMap]
  congr 2
  apply List.map_congr_left
  intro f hf
  exact length_writeField (hS.2 f hf) _ (hw.fits f hf)

/-- **C64 (sizes).** `ByteSize` is the number of bytes written, as long as that is an `int`; for
longer messages it overflows. -/
theorem C64_size (h : S ∈ schemas) (m : Msg U) (hw : WellFormed lib S m) :
    byteSize lib S m =
      if (serialize lib S m).length ≤ 2147483647 then .ok ((serialize lib S m).length : Int) else .ub := by
  have hS := good_of_mem h
  rw [length_serialize hS m hw]
  unfold byteSize
  rw [foldlM_i32 S (fun f => fieldSize f (m.vals f.num)) 0 le_rfl (by norm_num)]
  simp only [zero_add]
  generalize (S.map fun f => fieldSize f (m.vals f.num)).sum = a
  generalize (m.unknown.map fun u => (lib.enc u).length).sum = b
  by_cases ha : (a : Int) ≤ 2147483647
  · rw [if_pos ha, Res.ok_bind]
    by_cases hb : a + b ≤ 2147483647
    · rw [if_pos hb, i32_of (by unfold InInt32 int32Min int32Max; omega)]
      push_cast; rfl
    · rw [if_neg hb, i32, if_neg (by unfold InInt32 int32Min int32Max; omega)]
  · rw [if_neg ha, if_neg (by omega)]
    rfl

/-! ## Cut input -/

/-- **C64 (truncation).** Any prefix of a serialised message either is not accepted, or is itself the
serialisation of the message it parses to; that message has all required fields, and in each field
holds the first of the values. -/
theorem C64_truncated (L : UnknownLaws lib) (h : S ∈ schemas) (m : Msg U) (hw : WellFormed lib S m)
    (hu : m.unknown = []) (k : Nat) :
    parse lib S ((serialize lib S m).take k) = none ∨
      ∃ m' : Msg U, parse lib S ((serialize lib S m).take k) = some m' ∧
        (serialize lib S m).take k = serialize lib S m' ∧ m'.unknown = [] ∧
        (∀ f ∈ S, f.rep = false → m'.vals f.num = m.vals f.num) ∧
        ∀ n, m'.vals n <+: m.vals n := by
  have hS := good_of_mem h
  have e : serialize lib S m = S.flatMap fun f => writeField f (m.vals f.num) := by
    simp [serialize, hu]
  rw [e]
  rcases fields_cut (lib := lib) L hS S (fun _ hf => hf) hS.1 m.vals hw.fits k with hc | ⟨vals', h1, h2⟩
  · left
    unfold parse
    rw [hc]
    rfl
  · have hw' : WellFormed lib S (⟨vals', []⟩ : Msg U) := by
      refine ⟨fun n hn => ?_, fun f hf v hv => ?_, fun f hf hr => ?_, by simp⟩
      · have := h1 n
        rw [hw.own n hn] at this
        exact List.prefix_nil.mp this
      · exact hw.fits f hf v ((h1 f.num).subset hv)
      · exact (h1 f.num).length_le.trans (hw.single f hf hr)
    have e' : (S.flatMap fun f => writeField f (m.vals f.num)).take k =
        serialize lib S (⟨vals', []⟩ : Msg U) := by
      rw [h2]; simp [serialize]
    by_cases hi : isInitialized S (⟨vals', []⟩ : Msg U)
    · right
      refine ⟨⟨vals', []⟩, ?_, e', rfl, fun f hf hr => ?_, h1⟩
      · rw [e']; exact parse_serialize L hS _ hw' hi
      · have a := hw.single f hf hr
        have b := hi f hf hr
        obtain ⟨t, ht⟩ := h1 f.num
        have hp : 0 < (vals' f.num).length := List.length_pos_iff.mpr b
        have : t = [] := by
          have := congrArg List.length ht
          rw [List.length_append] at this
          exact List.length_eq_zero_iff.mp (by omega)
        rw [this, List.append_nil] at ht
        exact ht
    · left
      rw [e']
      unfold isInitialized at hi
      push Not at hi
      obtain ⟨f, hf, hr, hv⟩ := hi
      exact C64_missing L h _ hw' hf hr hv

/-- **C64 (truncation, required fields only).** A class without repeated fields accepts no strict
prefix of a serialised message. -/
theorem C64_truncated_required (L : UnknownLaws lib) (h : S ∈ schemas)
    (hreq : ∀ f ∈ S, f.rep = false) (m : Msg U) (hw : WellFormed lib S m) (hu : m.unknown = [])
    (k : Nat) (hk : k < (serialize lib S m).length) :
    parse lib S ((serialize lib S m).take k) = none := by
  rcases C64_truncated L h m hw hu k with hn | ⟨m', -, h2, h3, h4, h5⟩
  · exact hn
  · exfalso
    have : m' = m := by
      ext n : 1
      · funext n
        by_cases hn : ∀ f ∈ S, f.num ≠ n
        · have := h5 n
          rw [hw.own n hn] at this ⊢
          exact List.prefix_nil.mp this
        · push Not at hn
          obtain ⟨f, hf, rfl⟩ := hn
          exact h4 f hf (hreq f hf)
      · rw [h3, hu]
    rw [this] at h2
    have := congrArg List.length h2
    rw [List.length_take] at this
    omega

/-- **C64 (truncation goes unnoticed).** The first ten bytes of the shared parameters of a
three-valued Dirichlet-Discrete are accepted, as those of a two-valued one. -/
theorem C64_truncated_repeated (a b c : Nat) (ha : a < 2 ^ 32) (hb : b < 2 ^ 32) :
    (serialize plainLib ddShared (ofLists [[a, b, c]])).length = 15 ∧
    parse plainLib ddShared ((serialize plainLib ddShared (ofLists [[a, b, c]])).take 10) =
      some (ofLists [[a, b]]) := by
  have e : ∀ l, serialize plainLib ddShared (ofLists [l]) = l.flatMap fun v => 13 :: writeFixed32 v := by
    intro l
    simp [serialize, ddShared, ofLists, writeField, Ty.wire, writeVal, writeVarint_small]
  have e2 : (serialize plainLib ddShared (ofLists [[a, b, c]])).take 10 =
      serialize plainLib ddShared (ofLists [[a, b]]) := by
    rw [e, e]; simp [writeFixed32]
  refine ⟨by rw [e]; simp [writeFixed32], ?_⟩
  rw [e2]
  have := wellFormed_ofLists (U := Plain) (lib := plainLib) (S := ddShared) (ls := [[a, b]])
    (by decide) (by simp only [ddShared, Fits, Ty.bound]; simp; exact ⟨ha, hb⟩)
  exact C64_roundtrip plain_laws (by decide) _ this.1 this.2

/-! ## `Clustering` -/

/-- **C64 (nested messages).** Parsing the serialisation of a `Clustering` gives it back. -/
theorem C64_clustering (L : UnknownLaws lib) (m : ClusteringMsg U)
    (hpy : ∀ x, m.py = some x → WellFormed lib pitmanYor x ∧ isInitialized pitmanYor x ∧
      (serialize lib pitmanYor x).length < 2 ^ 32)
    (hle : ∀ x, m.le = some x → WellFormed lib lowEntropy x ∧ isInitialized lowEntropy x ∧
      (serialize lib lowEntropy x).length < 2 ^ 32)
    (hu : ∀ u ∈ m.unknown, lib.tag u ≠ 10 ∧ lib.tag u ≠ 18) :
    clusteringParse lib (clusteringSerialize lib m) = some m := by
  obtain ⟨py, le, us⟩ := m
  have hpyS : Schema.Good pitmanYor := by decide
  have hleS : Schema.Good lowEntropy := by decide
  have h2 : ∀ py, clusteringLoop lib (writeMessage lib lowEntropy 2 le ++ us.flatMap lib.enc).length
      ⟨py, none, []⟩ (writeMessage lib lowEntropy 2 le ++ us.flatMap lib.enc) = some ⟨py, le, us⟩ := by
    intro py
    cases le with
    | none =>
      simp only [writeMessage, List.nil_append]
      rw [clustering_unknown L us hu]
      rfl
    | some x =>
      obtain ⟨ha, -, hc⟩ := hle x rfl
      simp only [writeMessage]
      rw [List.append_assoc (writeVarint _), clustering_tag L _ ⟨py, some x, []⟩ _ (by norm_num)
        (by norm_num), clustering_unknown L us hu]
      · rfl
      · unfold clusteringStep
        rw [if_neg (by norm_num), if_pos (by norm_num), readMessage_write L hleS x ha hc]
        rfl
  have h1 : clusteringLoop lib (clusteringSerialize lib ⟨py, le, us⟩).length .empty
      (clusteringSerialize lib ⟨py, le, us⟩) = some ⟨py, le, us⟩ := by
    unfold clusteringSerialize
    cases py with
    | none =>
      have e : writeMessage lib pitmanYor 1 none = [] := rfl
      simp only [e, List.nil_append]
      exact h2 none
    | some x =>
      obtain ⟨ha, -, hc⟩ := hpy x rfl
      rw [List.append_assoc]
      have e : ∀ rest : Bytes, writeMessage lib pitmanYor 1 (some x) ++ rest =
          writeVarint (1 * 8 + 2) ++ (writeVarint (serialize lib pitmanYor x).length ++
            serialize lib pitmanYor x) ++ rest := by
        intro rest; simp [writeMessage]
      simp only [e]
      rw [clustering_tag L _ ⟨some x, none, []⟩ _ (by norm_num) (by norm_num), h2]
      unfold clusteringStep
      rw [if_pos (by norm_num)]
      simp only [ClusteringMsg.empty]
      rw [readMessage_write L hpyS x ha hc]
      rfl
  unfold clusteringParse
  rw [h1]
  simp only [Option.bind_some]
  rw [if_pos]
  unfold ClusteringMsg.isInitialized
  simp only [Bool.and_eq_true]
  constructor
  · cases py with
    | none => rfl
    | some x => simpa using (hpy x rfl).2.1
  · cases le with
    | none => rfl
    | some x => simpa using (hle x rfl).2.1

/-! ## Objects -/

theorem restore_save {R : Type} (L : UnknownLaws lib) (c : Class U R) (hc : c.schema ∈ schemas) (r : R)
    (h : WellFormed lib c.schema (c.put r) ∧ isInitialized c.schema (c.put r))
    (hg : c.get (c.put r) = r) : c.restore lib (c.save lib r) = some r := by
  unfold Class.restore Class.save
  rw [C64_roundtrip L hc _ h.1 h.2, Option.map_some, hg]

theorem map_toNat64 (l : List UInt64) : (l.map (·.toNat)).map UInt64.ofNat = l := by
  simp [Function.comp_def]

theorem map_toNat32 (l : List UInt32) : (l.map (·.toNat)).map UInt32.ofNat = l := by
  simp [Function.comp_def]

theorem map_bits {F : Type} (fb : FloatBits F) (l : List F) : (l.map fb.bits).map fb.ofBits = l := by
  simp [Function.comp_def, fb.ofBits_bits]

theorem fits_bits {F : Type} (fb : FloatBits F) (l : List F) :
    ∀ v ∈ l.map fb.bits, Fits .float v := by
  intro v hv
  obtain ⟨x, -, rfl⟩ := List.mem_map.mp hv
  exact fb.bits_lt x

theorem fits_u64 (l : List UInt64) : ∀ v ∈ l.map (·.toNat), Fits .u64 v := by
  intro v hv
  obtain ⟨x, -, rfl⟩ := List.mem_map.mp hv
  exact x.toNat_lt

theorem fits_u32 (l : List UInt32) : ∀ v ∈ l.map (·.toNat), Fits .u32 v := by
  intro v hv
  obtain ⟨x, -, rfl⟩ := List.mem_map.mp hv
  exact x.toNat_lt

theorem bitsI32_i32Bits {x : Int} (h : InInt32 x) : bitsI32 (i32Bits x) = x := by
  unfold InInt32 int32Min int32Max at h
  unfold bitsI32 i32Bits
  rw [Int.bmod_def]
  omega

/-- **C64 (records).** What the accessors put into a message of each class comes back from its bytes:
all floats, negative zeros and NaNs included, and all integers of the type. -/
theorem C64_records {F : Type} (fb : FloatBits F) (L : UnknownLaws lib) :
    (∀ r, (cPitmanYor fb).restore lib ((cPitmanYor fb).save lib r) = some r) ∧
    (∀ r, cLowEntropy.restore lib (cLowEntropy.save lib r) = some r) ∧
    (∀ r, (cBBShared fb).restore lib ((cBBShared fb).save lib r) = some r) ∧
    (∀ r, cBBGroup.restore lib (cBBGroup.save lib r) = some r) ∧
    (∀ r, (cDDShared fb).restore lib ((cDDShared fb).save lib r) = some r) ∧
    (∀ r, cDDGroup.restore lib (cDDGroup.save lib r) = some r) ∧
    (∀ r, (cDPDShared fb).restore lib ((cDPDShared fb).save lib r) = some r) ∧
    (∀ r, cDPDGroup.restore lib (cDPDGroup.save lib r) = some r) ∧
    (∀ r, (cGPShared fb).restore lib ((cGPShared fb).save lib r) = some r) ∧
    (∀ r, (cGPGroup fb).restore lib ((cGPGroup fb).save lib r) = some r) ∧
    (∀ r, (cBNBShared fb).restore lib ((cBNBShared fb).save lib r) = some r) ∧
    (∀ r, cBNBGroup.restore lib (cBNBGroup.save lib r) = some r) ∧
    (∀ r, (cNICHShared fb).restore lib ((cNICHShared fb).save lib r) = some r) ∧
    (∀ r, (cNICHGroup fb).restore lib ((cNICHGroup fb).save lib r) = some r) ∧
    (∀ r, (cNIWShared fb).restore lib ((cNIWShared fb).save lib r) = some r) ∧
    (∀ r, InInt32 r.count →
      (cNIWGroup fb).restore lib ((cNIWGroup fb).save lib r) = some r) := by
  have f1 : ∀ x : F, ∀ v ∈ [fb.bits x], Fits .float v := fun x => by simpa using fits_bits fb [x]
  have u1 : ∀ x : UInt64, ∀ v ∈ [x.toNat], Fits .u64 v := fun x => by simpa using fits_u64 [x]
  have fl := fits_bits fb
  have nf : ∀ x y : Nat, true = false → x = y := fun x y h => by cases h
  refine ⟨fun r => ?_, fun r => ?_, fun r => ?_, fun r => ?_, fun r => ?_, fun r => ?_, fun r => ?_,
    fun r => ?_, fun r => ?_, fun r => ?_, fun r => ?_, fun r => ?_, fun r => ?_, fun r => ?_,
    fun r => ?_, fun r hr => ?_⟩
  · refine restore_save L _ (show pitmanYor ∈ schemas by decide) r
      (wellFormed_ofLists rfl
        (.cons ⟨f1 _, fun _ => rfl⟩ (.cons ⟨f1 _, fun _ => rfl⟩ .nil))) ?_
    simp [cPitmanYor, ofLists, Msg.get, Function.comp_def, fb.ofBits_bits]
  · refine restore_save L _ (show lowEntropy ∈ schemas by decide) r
      (wellFormed_ofLists rfl
        (.cons ⟨u1 _, fun _ => rfl⟩ .nil)) ?_
    simp [cLowEntropy, ofLists, Msg.get, Function.comp_def, fb.ofBits_bits]
  · refine restore_save L _ (show bbShared ∈ schemas by decide) r
      (wellFormed_ofLists rfl
        (.cons ⟨f1 _, fun _ => rfl⟩ (.cons ⟨f1 _, fun _ => rfl⟩ .nil))) ?_
    simp [cBBShared, ofLists, Msg.get, Function.comp_def, fb.ofBits_bits]
  · refine restore_save L _ (show bbGroup ∈ schemas by decide) r
      (wellFormed_ofLists rfl
        (.cons ⟨u1 _, fun _ => rfl⟩ (.cons ⟨u1 _, fun _ => rfl⟩ .nil))) ?_
    simp [cBBGroup, ofLists, Msg.get, Function.comp_def, fb.ofBits_bits]
  · refine restore_save L _ (show ddShared ∈ schemas by decide) r
      (wellFormed_ofLists rfl
        (.cons ⟨fl _, nf _ _⟩ .nil)) ?_
    simp [cDDShared, ofLists, Msg.get, Function.comp_def, fb.ofBits_bits]
  · refine restore_save L _ (show ddGroup ∈ schemas by decide) r
      (wellFormed_ofLists rfl
        (.cons ⟨fits_u64 _, nf _ _⟩ .nil)) ?_
    simp [cDDGroup, ofLists, Msg.get, Function.comp_def, fb.ofBits_bits]
  · refine restore_save L _ (show dpdShared ∈ schemas by decide) r
      (wellFormed_ofLists rfl
        (.cons ⟨f1 _, fun _ => rfl⟩ (.cons ⟨f1 _, fun _ => rfl⟩ (.cons ⟨fits_u32 _, nf _ _⟩ (.cons ⟨fl _, nf _ _⟩ (.cons ⟨fits_u64 _, nf _ _⟩ .nil)))))) ?_
    simp [cDPDShared, ofLists, Msg.get, Function.comp_def, fb.ofBits_bits]
  · refine restore_save L _ (show dpdGroup ∈ schemas by decide) r
      (wellFormed_ofLists rfl
        (.cons ⟨fits_u32 _, nf _ _⟩ (.cons ⟨fits_u64 _, nf _ _⟩ .nil))) ?_
    simp [cDPDGroup, ofLists, Msg.get, Function.comp_def, fb.ofBits_bits]
  · refine restore_save L _ (show gpShared ∈ schemas by decide) r
      (wellFormed_ofLists rfl
        (.cons ⟨f1 _, fun _ => rfl⟩ (.cons ⟨f1 _, fun _ => rfl⟩ .nil))) ?_
    simp [cGPShared, ofLists, Msg.get, Function.comp_def, fb.ofBits_bits]
  · refine restore_save L _ (show gpGroup ∈ schemas by decide) r
      (wellFormed_ofLists rfl
        (.cons ⟨u1 _, fun _ => rfl⟩ (.cons ⟨u1 _, fun _ => rfl⟩ (.cons ⟨f1 _, fun _ => rfl⟩ .nil)))) ?_
    simp [cGPGroup, ofLists, Msg.get, Function.comp_def, fb.ofBits_bits]
  · refine restore_save L _ (show bnbShared ∈ schemas by decide) r
      (wellFormed_ofLists rfl
        (.cons ⟨f1 _, fun _ => rfl⟩ (.cons ⟨f1 _, fun _ => rfl⟩ (.cons ⟨u1 _, fun _ => rfl⟩ .nil)))) ?_
    simp [cBNBShared, ofLists, Msg.get, Function.comp_def, fb.ofBits_bits]
  · refine restore_save L _ (show bnbGroup ∈ schemas by decide) r
      (wellFormed_ofLists rfl
        (.cons ⟨u1 _, fun _ => rfl⟩ (.cons ⟨u1 _, fun _ => rfl⟩ .nil))) ?_
    simp [cBNBGroup, ofLists, Msg.get, Function.comp_def, fb.ofBits_bits]
  · refine restore_save L _ (show nichShared ∈ schemas by decide) r
      (wellFormed_ofLists rfl
        (.cons ⟨f1 _, fun _ => rfl⟩ (.cons ⟨f1 _, fun _ => rfl⟩ (.cons ⟨f1 _, fun _ => rfl⟩ (.cons ⟨f1 _, fun _ => rfl⟩ .nil))))) ?_
    simp [cNICHShared, ofLists, Msg.get, Function.comp_def, fb.ofBits_bits]
  · refine restore_save L _ (show nichGroup ∈ schemas by decide) r
      (wellFormed_ofLists rfl
        (.cons ⟨u1 _, fun _ => rfl⟩ (.cons ⟨f1 _, fun _ => rfl⟩ (.cons ⟨f1 _, fun _ => rfl⟩ .nil)))) ?_
    simp [cNICHGroup, ofLists, Msg.get, Function.comp_def, fb.ofBits_bits]
  · refine restore_save L _ (show niwShared ∈ schemas by decide) r
      (wellFormed_ofLists rfl
        (.cons ⟨fl _, nf _ _⟩ (.cons ⟨f1 _, fun _ => rfl⟩ (.cons ⟨fl _, nf _ _⟩ (.cons ⟨f1 _, fun _ => rfl⟩ .nil))))) ?_
    simp [cNIWShared, ofLists, Msg.get, Function.comp_def, fb.ofBits_bits]
  · have hi : ∀ v ∈ [i32Bits r.count], Fits .i32 v := by
      intro v hv
      rw [List.mem_singleton.mp hv]
      unfold i32Bits Fits
      simp only [Ty.bound]
      omega
    refine restore_save L _ (show niwGroup ∈ schemas by decide) r
      (wellFormed_ofLists rfl
        (.cons ⟨hi, fun _ => rfl⟩ (.cons ⟨fl _, nf _ _⟩ (.cons ⟨fl _, nf _ _⟩ .nil)))) ?_
    simp [cNIWGroup, ofLists, Msg.get, Function.comp_def, fb.ofBits_bits, bitsI32_i32Bits hr]

/-- **C64 (objects).** Dumping into a message, serialising it, parsing the bytes and loading the
message restores clustering models, and shared parameters and groups of Beta-Bernoulli, Gamma-Poisson,
Beta-Negative-Binomial and Normal-Inverse-ChiSq. -/
theorem C64_objects {F : Type} (fb : FloatBits F) (L : UnknownLaws lib) :
    (∀ (x old : PitmanYor F) msg, ((cPitmanYor fb).restore lib
      ((cPitmanYor fb).save lib (dumpPitmanYor x msg))).map (loadPitmanYor old) = some x) ∧
    (∀ (x old : LowEntropy) msg, InInt32 x.datasetSize → (cLowEntropy.restore lib
      (cLowEntropy.save lib (dumpLowEntropy x msg))).map (loadLowEntropy old) = some x) ∧
    (∀ (x old : BB.Shared F) msg, ((cBBShared fb).restore lib
      ((cBBShared fb).save lib (dumpBBShared x msg))).map (loadBBShared old) = some x) ∧
    (∀ (x old : BB.Group) msg, InInt32 x.heads → InInt32 x.tails → (cBBGroup.restore lib
      (cBBGroup.save lib (dumpBBGroup x msg))).map (loadBBGroup old) = some x) ∧
    (∀ (x old : GP.Shared F) msg, ((cGPShared fb).restore lib
      ((cGPShared fb).save lib (dumpGPShared x msg))).map (loadGPShared old) = some x) ∧
    (∀ (x old : GP.Group F) msg, ((cGPGroup fb).restore lib
      ((cGPGroup fb).save lib (dumpGPGroup x msg))).map (loadGPGroup old) = some x) ∧
    (∀ (x old : BNB.Shared F) msg, ((cBNBShared fb).restore lib
      ((cBNBShared fb).save lib (dumpBNBShared x msg))).map (loadBNBShared old) = some x) ∧
    (∀ (x old : BNB.Group) msg, (cBNBGroup.restore lib
      (cBNBGroup.save lib (dumpBNBGroup x msg))).map (loadBNBGroup old) = some x) ∧
    (∀ (x old : NICH.Shared F) msg, ((cNICHShared fb).restore lib
      ((cNICHShared fb).save lib (dumpNICHShared x msg))).map (loadNICHShared old) = some x) ∧
    (∀ (x old : NICH.Group F) msg, InInt32 x.count → ((cNICHGroup fb).restore lib
      ((cNICHGroup fb).save lib (dumpNICHGroup x msg))).map (loadNICHGroup old) = some x) := by
  obtain ⟨h1, h2, h3, h4, -, -, -, -, h9, h10, h11, h12, h13, h14, -, -⟩ := C64_records fb L
  refine ⟨fun x old msg => ?_, fun x old msg h => ?_, fun x old msg => ?_, fun x old msg h h' => ?_,
    fun x old msg => ?_, fun x old msg => ?_, fun x old msg => ?_, fun x old msg => ?_,
    fun x old msg => ?_, fun x old msg h => ?_⟩
  · rw [h1]; rfl
  · rw [h2, Option.map_some]
    simp only [loadLowEntropy, dumpLowEntropy, u64ToInt_intToU64 h]
  · rw [h3]; rfl
  · rw [h4, Option.map_some]
    simp only [loadBBGroup, dumpBBGroup, u64ToInt_intToU64 h, u64ToInt_intToU64 h']
  · rw [h9]; rfl
  · rw [h10, Option.map_some]
    simp only [loadGPGroup, dumpGPGroup, toUInt32_toUInt64]
  · rw [h11, Option.map_some]
    simp only [loadBNBShared, dumpBNBShared, toUInt32_toUInt64]
  · rw [h12, Option.map_some]
    simp only [loadBNBGroup, dumpBNBGroup, toUInt32_toUInt64]
  · rw [h13]; rfl
  · rw [h14, Option.map_some]
    simp only [loadNICHGroup, dumpNICHGroup, u64ToInt_intToU64 h]

/-- **C64 (objects with loads that check).** Likewise for Dirichlet-Discrete, groups of
Dirichlet-Process-Discrete and Normal-Inverse-Wishart; Dirichlet-Process-Discrete parameters are loaded
from the bytes as from the message (`C40_dpd_shared_partial`). -/
theorem C64_checked_objects {F : Type} [FloatOps F] (fb : FloatBits F) (L : UnknownLaws lib) :
    (∀ maxDim (x old : DD.Shared F) msg, x.alphas.length ≤ maxDim → ((cDDShared fb).restore lib
      ((cDDShared fb).save lib (dumpDDShared x msg))).map (loadDDShared maxDim old) = some (.ok x)) ∧
    (∀ maxDim (x old : DD.Group) msg, x.counts.length ≤ maxDim → (∀ c ∈ x.counts, InInt32 c) →
      (x.counts.map fun c => |c|).sum ≤ 2147483647 → x.countSum = x.counts.sum →
      (cDDGroup.restore lib (cDDGroup.save lib (dumpDDGroup x msg))).map (loadDDGroup maxDim old) =
        some (.ok x)) ∧
    (∀ lvl (x old : DPD.Group) msg ks (M : Multiset UInt32), x.map.Enum ks → x.Holds M →
      M.card ≤ 2147483647 → (cDPDGroup.restore lib
        (cDPDGroup.save lib (dumpDPDGroup ks x msg))).map (loadDPDGroup lvl old) = some (.ok x)) ∧
    (∀ lvl (x old : DPD.Shared F) msg ks, ((cDPDShared fb).restore lib
        ((cDPDShared fb).save lib (dumpDPDShared ks x msg))).map (loadDPDShared lvl old) =
      some (loadDPDShared lvl old (dumpDPDShared ks x msg))) ∧
    (∀ lvl d (spd : {d : Nat} → NIW.Mat F d → Bool) (x : NIW.Shared F d) msg,
      FloatOps.lt (FloatOps.ofInt 0) x.kappa = true → spd x.psi = true →
      FloatOps.lt (FloatOps.sub (FloatOps.ofInt d) (FloatOps.lit 1 1)) x.nu = true →
      ((cNIWShared fb).restore lib ((cNIWShared fb).save lib (dumpNIWShared x msg))).map
        (loadNIWShared lvl (some d) spd) = some (.ok ⟨d, x⟩)) ∧
    (∀ lvl d (sym : {d : Nat} → NIW.Mat F d → Bool) (x : NIW.Group F d) msg, sym x.sumXXT = true →
      InInt32 x.count →
      ((cNIWGroup fb).restore lib ((cNIWGroup fb).save lib (dumpNIWGroup x msg))).map
        (loadNIWGroup lvl (some d) sym) = some (.ok ⟨d, x⟩)) := by
  obtain ⟨-, -, -, -, h5, h6, h7, h8, -, -, -, -, -, -, h15, h16⟩ := C64_records fb L
  refine ⟨fun n x old msg h => ?_, fun n x old msg h hc hb ht => ?_,
    fun lvl x old msg ks M hks hM hcard => ?_, fun lvl x old msg ks => ?_,
    fun lvl d spd x msg hk hs hn => ?_, fun lvl d sym x msg hs hc => ?_⟩
  · rw [h5, Option.map_some, C40_dd_shared n x old msg h]
  · rw [h6, Option.map_some, (C40_dd_group_partial n x old msg h hc hb).2 ht]
  · rw [h8, Option.map_some, C40_dpd_group_holds lvl x old msg ks hks M hM hcard]
  · rw [h7, Option.map_some]
  · rw [h15, Option.map_some, C40_niw_shared lvl (some d) (.inl rfl) spd x msg hk hs hn]
  · rw [h16 _ (by simpa [dumpNIWGroup, int32Field] using hc), Option.map_some,
      C40_niw_group lvl (some d) (.inl rfl) sym x msg hs]

/-! ## Concrete cases -/

/-- Floats as their bits. -/
def rawBits : FloatBits (BitVec 32) where
  bits := BitVec.toNat
  ofBits := BitVec.ofNat 32
  bits_lt x := x.isLt
  ofBits_bits x := by simp

/-- Beta-Bernoulli parameters 0.5 and 2: ten bytes. -/
example : (cBBShared rawBits).save plainLib ⟨0x3f000000, 0x40000000⟩ =
    [13, 0, 0, 0, 63, 21, 0, 0, 0, 64] := by
  simp [Class.save, cBBShared, serialize, bbShared, ofLists, writeField, Ty.wire, writeVal, writeFixed32,
    writeVarint_small, rawBits]

/-- A negative `int32` takes ten bytes. -/
example : (writeVal .i32 (i32Bits (-1))).length = 10 := by
  rw [← valSize_eq (by unfold Fits; simp only [Ty.bound, i32Bits]; norm_num)]
  norm_num [valSize, i32Bits]

/-- A message with an unknown field (number 7, varint 300), which is kept. -/
def withUnknown : Msg Plain := ⟨(ofLists [[5], [300]] : Msg Plain).vals, [⟨7, by norm_num, by norm_num, .varint 300⟩]⟩

example : WellFormed plainLib bbGroup withUnknown ∧ isInitialized bbGroup withUnknown := by
  have := wellFormed_ofLists (U := Plain) (lib := plainLib) (S := bbGroup) (ls := [[5], [300]])
    rfl (by simp [bbGroup, Fits, Ty.bound])
  refine ⟨⟨this.1.own, this.1.fits, this.1.single, ?_⟩, this.2⟩
  intro u hu
  simp only [withUnknown, List.mem_singleton] at hu
  subst hu
  rintro ⟨f, hf, h1, -⟩
  simp [bbGroup, plainLib, Data.wire] at hf h1
  rcases hf with rfl | rfl <;> simp at h1

example : ∀ f ∈ nichGroup, f.rep = false := by decide

end Dist.Wire
