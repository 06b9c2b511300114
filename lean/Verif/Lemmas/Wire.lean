import Mathlib.Data.List.Forall2
import Verif.Spec.Wire
import Verif.Model.WireRecords
import Mathlib.Tactic.Ring
import Mathlib.Tactic.Linarith

/-!
# Reading back what was written
-/

namespace Dist.Wire

open Spec
open Stream (Bytes)

variable {U : Type}

/-! ## Varints -/

theorem writeVarint_small {n : Nat} (h : n < 128) : writeVarint n = [UInt8.ofNat n] := by
  rw [writeVarint, if_pos h]

theorem writeVarint_big {n : Nat} (h : 128 ≤ n) :
    writeVarint n = UInt8.ofNat (n % 128 + 128) :: writeVarint (n / 128) := by
  rw [writeVarint, if_neg (by omega)]

theorem toNat_ofNat {n : Nat} (h : n < 256) : (UInt8.ofNat n).toNat = n := by
  simp [Nat.mod_eq_of_lt h]

theorem writeVarint_ne_nil (n : Nat) : writeVarint n ≠ [] := by
  rw [writeVarint]; split_ifs <;> simp

theorem readVarintLoop_write (f n : Nat) (h : n < 128 ^ (f + 1)) (rest : Bytes) :
    readVarintLoop (f + 1) (writeVarint n ++ rest) = some (n, rest) := by
  induction f generalizing n with
  | zero =>
    rw [writeVarint_small (by simpa using h)]
    have : n < 128 := by simpa using h
    simp [readVarintLoop, toNat_ofNat (show n < 256 by omega), this]
  | succ f ih =>
    by_cases hn : n < 128
    · rw [writeVarint_small hn]
      simp [readVarintLoop, toNat_ofNat (show n < 256 by omega), hn]
    · rw [writeVarint_big (by omega)]
      have hm : n % 128 + 128 < 256 := by have := Nat.mod_lt n (show 128 > 0 by norm_num); omega
      have hd : n / 128 < 128 ^ (f + 1) := by
        rw [Nat.div_lt_iff_lt_mul (by norm_num)]
        calc n < 128 ^ (f + 1 + 1) := h
          _ = 128 ^ (f + 1) * 128 := by ring
      rw [List.cons_append, readVarintLoop, toNat_ofNat hm, if_neg (by omega), ih _ hd]
      simp only [Option.map_some, Option.some.injEq, Prod.mk.injEq, and_true]
      omega

theorem readVarint_write {n : Nat} (h : n < 2 ^ 64) (rest : Bytes) :
    readVarint (writeVarint n ++ rest) = some (n, rest) := by
  unfold readVarint
  rw [readVarintLoop_write 9 n (by
    calc n < 2 ^ 64 := h
      _ ≤ 128 ^ (9 + 1) := by norm_num)]
  simp only [Option.map_some, Nat.mod_eq_of_lt h]

theorem readVarintLoop_lt (f : Nat) (bs : Bytes) (n : Nat) (rest : Bytes)
    (h : readVarintLoop f bs = some (n, rest)) : rest.length < bs.length := by
  induction f generalizing bs n with
  | zero => simp [readVarintLoop] at h
  | succ f ih =>
    cases bs with
    | nil => simp [readVarintLoop] at h
    | cons b bs =>
      rw [readVarintLoop] at h
      split_ifs at h with hb
      · simp only [Option.some.injEq, Prod.mk.injEq] at h
        simp [← h.2]
      · simp only [Option.map_eq_some_iff, Prod.exists, Prod.mk.injEq] at h
        obtain ⟨a, r, h1, -, rfl⟩ := h
        have := ih bs a h1
        simp; omega

theorem readVarint_lt {bs : Bytes} {n : Nat} {rest : Bytes} (h : readVarint bs = some (n, rest)) :
    rest.length < bs.length := by
  unfold readVarint at h
  simp only [Option.map_eq_some_iff, Prod.exists, Prod.mk.injEq] at h
  obtain ⟨a, r, h1, -, rfl⟩ := h
  exact readVarintLoop_lt _ _ _ _ h1

theorem readTag_write {n : Nat} (h : n < 2 ^ 32) (rest : Bytes) :
    readTag (writeVarint n ++ rest) = some (n, rest) := by
  unfold readTag
  rw [readVarint_write (lt_trans h (by norm_num))]
  simp only [Option.map_some, Nat.mod_eq_of_lt h]

theorem readTag_lt {bs : Bytes} {n : Nat} {rest : Bytes} (h : readTag bs = some (n, rest)) :
    rest.length < bs.length := by
  unfold readTag at h
  simp only [Option.map_eq_some_iff, Prod.exists, Prod.mk.injEq] at h
  obtain ⟨a, r, h1, -, rfl⟩ := h
  exact readVarint_lt h1

/-! ## Values -/

theorem readFixed32_write {v : Nat} (h : v < 2 ^ 32) (rest : Bytes) :
    readFixed32 (writeFixed32 v ++ rest) = some (v, rest) := by
  simp only [writeFixed32, List.cons_append, List.nil_append, readFixed32, Stream.unpack32]
  rw [toNat_ofNat (by omega), toNat_ofNat (by omega), toNat_ofNat (by omega), toNat_ofNat (by omega)]
  simp only [Option.some.injEq, Prod.mk.injEq, and_true]
  omega

theorem signExtend_lt {v : Nat} (h : v < 2 ^ 32) : signExtend v < 2 ^ 64 := by
  unfold signExtend; split_ifs <;> omega

theorem signExtend_mod {v : Nat} (h : v < 2 ^ 32) : signExtend v % 2 ^ 32 = v := by
  unfold signExtend; split_ifs <;> omega

theorem readVal_write {ty : Ty} {v : Nat} (h : Fits ty v) (rest : Bytes) :
    readVal ty (writeVal ty v ++ rest) = some (v, rest) := by
  unfold Fits at h
  cases ty <;> simp only [Ty.bound] at h
  · exact readFixed32_write h rest
  · simp only [readVal, writeVal]
    rw [readVarint_write (lt_trans h (by norm_num))]
    simp [Nat.mod_eq_of_lt h]
  · exact readVarint_write h rest
  · simp only [readVal, writeVal]
    rw [readVarint_write (signExtend_lt h)]
    simp only [Option.map_some, signExtend_mod h]

theorem readVal_lt {ty : Ty} {bs : Bytes} {v : Nat} {rest : Bytes}
    (h : readVal ty bs = some (v, rest)) : rest.length < bs.length := by
  cases ty
  · simp only [readVal] at h
    unfold readFixed32 at h
    split at h
    · simp only [Option.some.injEq, Prod.mk.injEq] at h
      rw [← h.2]; simp
      omega
    · cases h
  · simp only [readVal, Option.map_eq_some_iff, Prod.exists, Prod.mk.injEq] at h
    obtain ⟨a, r, h1, -, rfl⟩ := h
    exact readVarint_lt h1
  · exact readVarint_lt h
  · simp only [readVal, Option.map_eq_some_iff, Prod.exists, Prod.mk.injEq] at h
    obtain ⟨a, r, h1, -, rfl⟩ := h
    exact readVarint_lt h1

theorem readPacked_lt {ty : Ty} {bs : Bytes} {vs : List Nat} {rest : Bytes}
    (h : readPacked ty bs = some (vs, rest)) : rest.length < bs.length := by
  unfold readPacked at h
  simp only [Option.bind_eq_some_iff, Prod.exists] at h
  obtain ⟨n, r, h1, h2⟩ := h
  split_ifs at h2
  simp only [Option.map_eq_some_iff, Prod.mk.injEq] at h2
  obtain ⟨a, -, -, rfl⟩ := h2
  have := readVarint_lt h1
  simp
  omega

/-! ## Sizes -/

theorem length_writeVarint (n : Nat) (k : Nat) (h : n < 128 ^ (k + 1)) (h' : k = 0 ∨ 128 ^ k ≤ n) :
    (writeVarint n).length = k + 1 := by
  induction k generalizing n with
  | zero => rw [writeVarint_small (by simpa using h)]; rfl
  | succ k ih =>
    have hk : 128 ^ (k + 1) ≤ n := by rcases h' with h' | h' <;> [omega; exact h']
    have h128 : 128 ≤ n := le_trans (by
      calc 128 = 128 ^ 1 := by norm_num
        _ ≤ 128 ^ (k + 1) := Nat.pow_le_pow_right (by norm_num) (by omega)) hk
    rw [writeVarint_big h128, List.length_cons, ih]
    · rw [Nat.div_lt_iff_lt_mul (by norm_num)]
      calc n < 128 ^ (k + 1 + 1) := h
        _ = 128 ^ (k + 1) * 128 := by ring
    · right
      rw [Nat.le_div_iff_mul_le (by norm_num)]
      calc 128 ^ k * 128 = 128 ^ (k + 1) := by ring
        _ ≤ n := hk

theorem varintSize_eq {n : Nat} (h : n < 2 ^ 64) : varintSize n = (writeVarint n).length := by
  unfold varintSize
  split_ifs <;> symm
  · exact length_writeVarint n 0 (by norm_num; omega) (.inl rfl)
  · exact length_writeVarint n 1 (by norm_num; omega) (.inr (by norm_num; omega))
  · exact length_writeVarint n 2 (by norm_num; omega) (.inr (by norm_num; omega))
  · exact length_writeVarint n 3 (by norm_num; omega) (.inr (by norm_num; omega))
  · exact length_writeVarint n 4 (by norm_num; omega) (.inr (by norm_num; omega))
  · exact length_writeVarint n 5 (by norm_num; omega) (.inr (by norm_num; omega))
  · exact length_writeVarint n 6 (by norm_num; omega) (.inr (by norm_num; omega))
  · exact length_writeVarint n 7 (by norm_num; omega) (.inr (by norm_num; omega))
  · exact length_writeVarint n 8 (by norm_num; omega) (.inr (by norm_num; omega))
  · exact length_writeVarint n 9 (by norm_num; omega) (.inr (by norm_num; omega))

theorem valSize_eq {ty : Ty} {v : Nat} (h : Fits ty v) : valSize ty v = (writeVal ty v).length := by
  unfold Fits at h
  cases ty <;> simp only [Ty.bound] at h
  · simp [valSize, writeVal, writeFixed32]
  · exact varintSize_eq (lt_trans h (by norm_num))
  · exact varintSize_eq h
  · simp only [valSize, writeVal]
    split_ifs with hv
    · rw [varintSize_eq (lt_trans hv (by norm_num)), signExtend, if_pos hv]
    · have hs := signExtend_lt h
      have hs2 : 2 ^ 63 ≤ signExtend v := by
        rw [signExtend, if_neg hv]
        exact le_trans (by norm_num) (Nat.le_add_left _ _)
      symm
      exact length_writeVarint _ 9 (lt_trans hs (by norm_num))
        (.inr (le_trans (by norm_num) hs2))

/-! ## The loop -/

theorem uninterpreted_le {lib : UnknownLib U} (L : UnknownLaws lib) {m m' : Msg U} {tag : Nat}
    {bs rest : Bytes} (h : uninterpreted lib m tag bs = some (m', rest)) :
    rest.length ≤ bs.length := by
  unfold uninterpreted at h
  split_ifs at h
  simp only [Option.map_eq_some_iff, Prod.exists, Prod.mk.injEq] at h
  obtain ⟨u, r, h1, -, rfl⟩ := h
  exact L.skip_le _ _ _ _ h1

theorem step_le {lib : UnknownLib U} (L : UnknownLaws lib) {S : Schema} {m m' : Msg U} {tag : Nat}
    {bs rest : Bytes} (h : step lib S m tag bs = some (m', rest)) : rest.length ≤ bs.length := by
  unfold step at h
  split at h
  · split_ifs at h
    · simp only [Option.map_eq_some_iff, Prod.exists, Prod.mk.injEq] at h
      obtain ⟨v, r, h1, -, rfl⟩ := h
      exact (readVal_lt h1).le
    · simp only [Option.map_eq_some_iff, Prod.exists, Prod.mk.injEq] at h
      obtain ⟨v, r, h1, -, rfl⟩ := h
      exact (readVal_lt h1).le
    · simp only [Option.map_eq_some_iff, Prod.exists, Prod.mk.injEq] at h
      obtain ⟨v, r, h1, -, rfl⟩ := h
      exact (readPacked_lt h1).le
    · exact uninterpreted_le L h
  · exact uninterpreted_le L h

theorem parseLoop_fuel {lib : UnknownLib U} (L : UnknownLaws lib) (S : Schema) (f g : Nat) (m : Msg U)
    (bs : Bytes) (hf : bs.length ≤ f) (hg : bs.length ≤ g) :
    parseLoop lib S f m bs = parseLoop lib S g m bs := by
  induction f generalizing g m bs with
  | zero =>
    have : bs = [] := List.length_eq_zero_iff.mp (by omega)
    subst this
    cases g <;> simp [parseLoop]
  | succ f ih =>
    cases g with
    | zero =>
      have : bs = [] := List.length_eq_zero_iff.mp (by omega)
      subst this
      simp [parseLoop]
    | succ g =>
      rw [parseLoop, parseLoop]
      split_ifs with hbs
      · rfl
      · cases hr : readTag bs with
        | none => rfl
        | some q =>
          obtain ⟨tag, r⟩ := q
          simp only [Option.bind_some]
          split_ifs with h0
          · rfl
          · cases hs : step lib S m tag r with
            | none => rfl
            | some q =>
              obtain ⟨m', r'⟩ := q
              simp only [Option.bind_some]
              have h1 := readTag_lt hr
              have h2 := step_le L hs
              exact ih g m' r' (by omega) (by omega)

/-- A round on a tag that was written. -/
theorem merge_tag {lib : UnknownLib U} (L : UnknownLaws lib) (S : Schema) (m m' : Msg U) (tag : Nat)
    (h0 : 0 < tag) (ht : tag < 2 ^ 32) (body rest : Bytes)
    (hs : step lib S m tag (body ++ rest) = some (m', rest)) :
    mergeFromBytes lib S m (writeVarint tag ++ body ++ rest) = mergeFromBytes lib S m' rest := by
  unfold mergeFromBytes
  have hne : writeVarint tag ++ body ++ rest ≠ [] := by simp [writeVarint_ne_nil]
  obtain ⟨k, hk⟩ : ∃ k, (writeVarint tag ++ body ++ rest).length = k + 1 :=
    ⟨_, (Nat.succ_pred (by simpa using hne)).symm⟩
  rw [hk, parseLoop, if_neg hne, List.append_assoc, readTag_write ht]
  simp only [Option.bind_some]
  rw [if_neg (by omega), hs]
  simp only [Option.bind_some]
  refine parseLoop_fuel L S _ _ _ _ ?_ le_rfl
  have : 0 < (writeVarint tag).length := List.length_pos_iff.mpr (writeVarint_ne_nil tag)
  simp only [List.length_append] at hk
  omega

theorem merge_unknown {lib : UnknownLib U} (L : UnknownLaws lib) (S : Schema) (us : List U)
    (hu : ∀ u ∈ us, ¬ Interprets S (lib.tag u)) (m : Msg U) (rest : Bytes) :
    mergeFromBytes lib S m (us.flatMap lib.enc ++ rest) =
      mergeFromBytes lib S { m with unknown := m.unknown ++ us } rest := by
  induction us generalizing m with
  | nil => simp
  | cons u us ih =>
    have hun : ∀ rest, uninterpreted lib m (lib.tag u) (lib.body u ++ rest) =
        some ({ m with unknown := m.unknown ++ [u] }, rest) := by
      intro rest
      unfold uninterpreted
      rw [if_neg (L.tag_group u), L.skip_body]
      rfl
    rw [List.flatMap_cons, UnknownLib.enc, List.append_assoc,
      merge_tag L S m { m with unknown := m.unknown ++ [u] } (lib.tag u) (L.tag_pos u) (L.tag_lt u)
        (lib.body u) _ ?_, ih (fun v hv => hu v (List.mem_cons_of_mem _ hv))]
    · simp
    · unfold step
      have h := hu u List.mem_cons_self
      cases hf : S.find? fun f => f.num = lib.tag u / 8 with
      | none => exact hun _
      | some f =>
        have hm := List.mem_of_find?_eq_some hf
        have hn := List.find?_some hf
        simp only [decide_eq_true_eq] at hn
        simp only
        rw [if_neg fun h1 => h ⟨f, hm, hn, .inl h1⟩, if_neg fun h1 => h ⟨f, hm, hn, .inr h1⟩]
        exact hun _

/-- Field numbers differ, are positive and have one byte of tag. -/
def Schema.Good (S : Schema) : Prop := (S.map (·.num)).Nodup ∧ ∀ f ∈ S, 0 < f.num ∧ f.num < 16

instance (S : Schema) : Decidable (Schema.Good S) := by unfold Schema.Good; infer_instance

theorem find_field {S : Schema} (hS : Schema.Good S) {f : Field} (hf : f ∈ S) {n : Nat} (hn : f.num = n) :
    S.find? (fun g => g.num = n) = some f := by
  subst hn
  have hnd := hS.1
  clear hS
  induction S with
  | nil => cases hf
  | cons g S ih =>
    rw [List.find?_cons]
    rcases List.mem_cons.mp hf with rfl | hf'
    · simp
    · rw [List.map_cons, List.nodup_cons] at hnd
      have hne : ¬ g.num = f.num := fun h => hnd.1 (h ▸ List.mem_map_of_mem hf')
      simp only [hne, decide_false]
      exact ih hf' hnd.2

theorem wire_lt (ty : Ty) : ty.wire < 8 := by cases ty <;> simp [Ty.wire]

theorem step_value {lib : UnknownLib U} {S : Schema} (hS : Schema.Good S) {f : Field} (hf : f ∈ S)
    {v : Nat} (hv : Fits f.ty v) (m : Msg U) (rest : Bytes) :
    step lib S m (f.num * 8 + f.ty.wire) (writeVal f.ty v ++ rest) =
      some (if f.rep then m.add f.num [v] else m.set f.num v, rest) := by
  have hw := wire_lt f.ty
  unfold step
  rw [find_field hS hf (by omega)]
  simp only
  rw [if_pos (by omega), readVal_write hv]
  rfl

theorem merge_value {lib : UnknownLib U} (L : UnknownLaws lib) {S : Schema} (hS : Schema.Good S)
    {f : Field} (hf : f ∈ S) {v : Nat} (hv : Fits f.ty v) (m : Msg U) (rest : Bytes) :
    mergeFromBytes lib S m (writeVarint (f.num * 8 + f.ty.wire) ++ writeVal f.ty v ++ rest) =
      mergeFromBytes lib S (if f.rep then m.add f.num [v] else m.set f.num v) rest := by
  have hw := wire_lt f.ty
  have hn := hS.2 f hf
  exact merge_tag L S m _ _ (by omega) (by omega) _ _ (step_value hS hf hv m rest)

theorem add_add (m : Msg U) (n : Nat) (a b : List Nat) : (m.add n a).add n b = m.add n (a ++ b) := by
  unfold Msg.add; simp

theorem add_nil (m : Msg U) (n : Nat) : m.add n [] = m := by
  unfold Msg.add; simp

/-- All values of a field. -/
theorem merge_field {lib : UnknownLib U} (L : UnknownLaws lib) {S : Schema} (hS : Schema.Good S)
    {f : Field} (hf : f ∈ S) (vs : List Nat) (hv : ∀ v ∈ vs, Fits f.ty v) (m : Msg U) (rest : Bytes) :
    mergeFromBytes lib S m (writeField f vs ++ rest) =
      mergeFromBytes lib S (if f.rep then m.add f.num vs else
        match vs.getLast? with | some v => m.set f.num v | none => m) rest := by
  induction vs generalizing m with
  | nil => simp [writeField, add_nil]
  | cons v vs ih =>
    unfold writeField at ih ⊢
    rw [List.flatMap_cons, List.append_assoc, merge_value L hS hf (hv v List.mem_cons_self),
      ih (fun w hw => hv w (List.mem_cons_of_mem _ hw))]
    congr 1
    split_ifs
    · rw [add_add]; rfl
    · rw [List.getLast?_cons]
      cases vs.getLast? <;> simp [Msg.set]

/-- Reading a serialised message into another is merging it. -/
theorem merge_serialize {lib : UnknownLib U} (L : UnknownLaws lib) {S : Schema} (hS : Schema.Good S)
    (m src : Msg U) (hw : WellFormed lib S src) (rest : Bytes) :
    mergeFromBytes lib S m (serialize lib S src ++ rest) =
      mergeFromBytes lib S (mergeFrom S m src) rest := by
  have key : ∀ (T : Schema), (∀ f ∈ T, f ∈ S) → ∀ (m : Msg U) (rest : Bytes),
      mergeFromBytes lib S m (T.flatMap (fun f => writeField f (src.vals f.num)) ++ rest) =
        mergeFromBytes lib S (T.foldl (fun m f => mergeField f m src) m) rest := by
    intro T
    induction T with
    | nil => intro _ m rest; simp
    | cons f T ih =>
      intro hT m rest
      rw [List.flatMap_cons, List.append_assoc, merge_field L hS (hT f List.mem_cons_self) _
        (hw.fits f (hT f List.mem_cons_self)), ih (fun g hg => hT g (List.mem_cons_of_mem _ hg)),
        List.foldl_cons]
      rfl
  unfold serialize
  rw [List.append_assoc, key S (fun f hf => hf), merge_unknown L S _ hw.unknown]
  rfl

theorem mergeField_vals (f : Field) (m src : Msg U) (n : Nat) :
    (mergeField f m src).vals n = if f.num = n then
      (if f.rep then m.vals n ++ src.vals n else
        match (src.vals n).getLast? with | some v => [v] | none => m.vals n) else m.vals n := by
  unfold mergeField
  by_cases h : f.num = n
  · subst h
    rw [if_pos rfl]
    split_ifs
    · simp [Msg.add]
    · cases (src.vals f.num).getLast? <;> simp [Msg.set]
  · rw [if_neg h]
    split_ifs
    · simp [Msg.add, Function.update_of_ne (Ne.symm h)]
    · cases (src.vals f.num).getLast? <;> simp [Msg.set, Function.update_of_ne (Ne.symm h)]

theorem mergeField_unknown (f : Field) (m src : Msg U) : (mergeField f m src).unknown = m.unknown := by
  unfold mergeField
  split_ifs
  · rfl
  · cases (src.vals f.num).getLast? <;> rfl

theorem foldl_vals (S : Schema) (hS : (S.map (·.num)).Nodup) (m src : Msg U) :
    (S.foldl (fun m f => mergeField f m src) m).unknown = m.unknown ∧
    (∀ f ∈ S, (S.foldl (fun m f => mergeField f m src) m).vals f.num =
      if f.rep then m.vals f.num ++ src.vals f.num else
        match (src.vals f.num).getLast? with | some v => [v] | none => m.vals f.num) ∧
    ∀ n, (∀ f ∈ S, f.num ≠ n) → (S.foldl (fun m f => mergeField f m src) m).vals n = m.vals n := by
  induction S generalizing m with
  | nil => simp
  | cons g S ih =>
    rw [List.map_cons, List.nodup_cons] at hS
    obtain ⟨h1, h2, h3⟩ := ih hS.2 (mergeField g m src)
    rw [List.foldl_cons]
    refine ⟨by rw [h1, mergeField_unknown], ?_, ?_⟩
    · intro f hf
      rcases List.mem_cons.mp hf with rfl | hf'
      · rw [h3 f.num fun k hk he => hS.1 (he ▸ List.mem_map_of_mem hk), mergeField_vals, if_pos rfl]
      · have hne : ¬ g.num = f.num := fun h => hS.1 (h ▸ List.mem_map_of_mem hf')
        rw [h2 f hf', mergeField_vals, if_neg hne]
    · intro n hn
      rw [h3 n fun k hk => hn k (List.mem_cons_of_mem _ hk), mergeField_vals,
        if_neg (hn g List.mem_cons_self)]

theorem mergeFrom_vals {S : Schema} (hS : Schema.Good S) (m src : Msg U) :
    (mergeFrom S m src).unknown = m.unknown ++ src.unknown ∧
    (∀ f ∈ S, (mergeFrom S m src).vals f.num =
      if f.rep then m.vals f.num ++ src.vals f.num else
        match (src.vals f.num).getLast? with | some v => [v] | none => m.vals f.num) ∧
    ∀ n, (∀ f ∈ S, f.num ≠ n) → (mergeFrom S m src).vals n = m.vals n := by
  obtain ⟨h1, h2, h3⟩ := foldl_vals S hS.1 m src
  refine ⟨?_, h2, h3⟩
  simp [mergeFrom, h1]

/-- Merging into an empty message copies. -/
theorem mergeFrom_empty {lib : UnknownLib U} {S : Schema} (hS : Schema.Good S) (src : Msg U)
    (hw : WellFormed lib S src) : mergeFrom S .empty src = src := by
  obtain ⟨h1, h2, h3⟩ := mergeFrom_vals hS .empty src
  ext n : 1
  · funext n
    by_cases h : ∀ f ∈ S, f.num ≠ n
    · rw [h3 n h, hw.own n h]; rfl
    · push Not at h
      obtain ⟨f, hf, rfl⟩ := h
      rw [h2 f hf]
      split_ifs with hr
      · simp [Msg.empty]
      · have := hw.single f hf (by simpa using hr)
        match hvs : src.vals f.num, this with
        | [], _ => simp [Msg.empty]
        | [v], _ => simp
        | _ :: _ :: _, h => simp at h
  · rw [h1]; simp [Msg.empty]

theorem mergeFromBytes_nil {lib : UnknownLib U} (S : Schema) (m : Msg U) :
    mergeFromBytes lib S m [] = some m := by simp [mergeFromBytes, parseLoop]

theorem parse_serialize {lib : UnknownLib U} (L : UnknownLaws lib) {S : Schema} (hS : Schema.Good S)
    (m : Msg U) (hw : WellFormed lib S m) (hi : isInitialized S m) :
    parse lib S (serialize lib S m) = some m := by
  have := merge_serialize L hS .empty m hw []
  rw [List.append_nil, mergeFromBytes_nil, mergeFrom_empty hS m hw] at this
  unfold parse
  rw [this]
  simp [hi]

theorem length_writeField {f : Field} (hn : 0 < f.num ∧ f.num < 16) (vs : List Nat)
    (hv : ∀ v ∈ vs, Fits f.ty v) : (writeField f vs).length = fieldSize f vs := by
  have hw := wire_lt f.ty
  induction vs with
  | nil => simp [writeField, fieldSize]
  | cons v vs ih =>
    have := ih fun w hw => hv w (List.mem_cons_of_mem _ hw)
    unfold writeField fieldSize at this ⊢
    rw [List.flatMap_cons, List.length_append, List.length_append, this,
      writeVarint_small (by omega), ← valSize_eq (hv v List.mem_cons_self)]
    simp
    omega

/-! ## Cut input -/

theorem readVarintLoop_cut (f n k : Nat) (hk : k < (writeVarint n).length) :
    readVarintLoop f ((writeVarint n).take k) = none := by
  induction f generalizing n k with
  | zero => rfl
  | succ f ih =>
    cases k with
    | zero => rfl
    | succ k =>
      by_cases hn : n < 128
      · rw [writeVarint_small hn] at hk; simp at hk
      · rw [writeVarint_big (by omega)] at hk ⊢
        have hm : n % 128 + 128 < 256 := by have := Nat.mod_lt n (show 128 > 0 by norm_num); omega
        rw [List.take_succ_cons, readVarintLoop, toNat_ofNat hm, if_neg (by omega),
          ih (n / 128) k (by simpa using hk)]
        rfl

theorem readVal_cut {ty : Ty} {v k : Nat} (hk : k < (writeVal ty v).length) :
    readVal ty ((writeVal ty v).take k) = none := by
  cases ty
  · simp only [writeVal, writeFixed32, List.length_cons, List.length_nil] at hk
    have : k = 0 ∨ k = 1 ∨ k = 2 ∨ k = 3 := by omega
    rcases this with rfl | rfl | rfl | rfl <;> rfl
  all_goals
    simp only [readVal, writeVal, readVarint] at hk ⊢
    rw [readVarintLoop_cut _ _ _ hk]
    rfl

/-- A field cut inside a value cannot be read. -/
theorem merge_cut {lib : UnknownLib U} {S : Schema} (hS : Schema.Good S)
    {f : Field} (hf : f ∈ S) (v k : Nat) (h0 : 0 < k)
    (hk : k < (writeVarint (f.num * 8 + f.ty.wire) ++ writeVal f.ty v).length) (m : Msg U) :
    mergeFromBytes lib S m ((writeVarint (f.num * 8 + f.ty.wire) ++ writeVal f.ty v).take k) =
      none := by
  have hw := wire_lt f.ty
  have hn := hS.2 f hf
  obtain ⟨k, rfl⟩ : ∃ j, k = j + 1 := ⟨k - 1, by omega⟩
  have ht := readTag_write (n := f.num * 8 + f.ty.wire) (by omega) ((writeVal f.ty v).take k)
  rw [writeVarint_small (by omega), List.cons_append, List.nil_append, List.length_cons] at hk
  rw [writeVarint_small (by omega), List.cons_append, List.nil_append] at ht ⊢
  rw [List.take_succ_cons]
  unfold mergeFromBytes
  rw [List.length_cons, parseLoop, if_neg (by simp), ht]
  simp only [Option.bind_some]
  rw [if_neg (by omega)]
  have : step lib S m (f.num * 8 + f.ty.wire) ((writeVal f.ty v).take k) = none := by
    unfold step
    rw [find_field hS hf (by omega)]
    simp only
    rw [if_pos (by omega), readVal_cut (by omega)]
    rfl
  rw [this]
  rfl

/-- A prefix of the values of a field is either unreadable or ends after some of the values. -/
theorem field_cut {lib : UnknownLib U} (L : UnknownLaws lib) {S : Schema} (hS : Schema.Good S)
    {f : Field} (hf : f ∈ S) (vs : List Nat) (hv : ∀ v ∈ vs, Fits f.ty v) (k : Nat) :
    (∀ m : Msg U, mergeFromBytes lib S m ((writeField f vs).take k) = none) ∨
      ∃ j, (writeField f vs).take k = writeField f (vs.take j) := by
  induction vs generalizing k with
  | nil => exact .inr ⟨0, by simp [writeField]⟩
  | cons v vs ih =>
    have e : writeField f (v :: vs) =
        (writeVarint (f.num * 8 + f.ty.wire) ++ writeVal f.ty v) ++ writeField f vs := by
      simp [writeField]
    rcases Nat.eq_zero_or_pos k with rfl | h0
    · exact .inr ⟨0, by simp [writeField]⟩
    · rw [e]
      by_cases hk : k < (writeVarint (f.num * 8 + f.ty.wire) ++ writeVal f.ty v).length
      · left
        intro m
        rw [List.take_append_of_le_length hk.le]
        exact merge_cut hS hf v k h0 hk m
      · obtain ⟨j, hj⟩ : ∃ j, k = (writeVarint (f.num * 8 + f.ty.wire) ++ writeVal f.ty v).length + j :=
          ⟨_, (Nat.add_sub_cancel' (by omega)).symm⟩
        rw [hj, List.take_length_add_append]
        rcases ih (fun w hw => hv w (List.mem_cons_of_mem _ hw)) j with h | ⟨i, hi⟩
        · left
          intro m
          rw [merge_value L hS hf (hv v List.mem_cons_self)]
          exact h _
        · right
          refine ⟨i + 1, ?_⟩
          rw [hi, List.take_succ_cons]
          simp [writeField]

/-- A prefix of a serialised message is either unreadable or the serialisation of a message holding, in
each field, the first of the values. -/
theorem fields_cut {lib : UnknownLib U} (L : UnknownLaws lib) {S : Schema} (hS : Schema.Good S)
    (T : Schema) (hT : ∀ f ∈ T, f ∈ S) (hnd : (T.map (·.num)).Nodup) (vals : Nat → List Nat)
    (hv : ∀ f ∈ S, ∀ v ∈ vals f.num, Fits f.ty v) (k : Nat) :
    (∀ m : Msg U, mergeFromBytes lib S m
        ((T.flatMap fun f => writeField f (vals f.num)).take k) = none) ∨
      ∃ vals' : Nat → List Nat, (∀ n, vals' n <+: vals n) ∧
        (T.flatMap fun f => writeField f (vals f.num)).take k =
          T.flatMap fun f => writeField f (vals' f.num) := by
  induction T generalizing k with
  | nil => exact .inr ⟨vals, fun n => List.prefix_rfl, by simp⟩
  | cons f T ih =>
    rw [List.map_cons, List.nodup_cons] at hnd
    have hf := hT f List.mem_cons_self
    rw [List.flatMap_cons]
    by_cases hk : k ≤ (writeField f (vals f.num)).length
    · rw [List.take_append_of_le_length hk]
      rcases field_cut (lib := lib) L hS hf (vals f.num) (hv f hf) k with h | ⟨j, hj⟩
      · exact .inl h
      · right
        refine ⟨Function.update (fun _ => []) f.num ((vals f.num).take j), fun n => ?_, ?_⟩
        · by_cases h : n = f.num
          · subst h; simp [List.take_prefix]
          · simp [Function.update_of_ne h]
        · rw [hj, List.flatMap_cons, Function.update_self]
          have : (T.flatMap fun g => writeField g
              (Function.update (fun _ => []) f.num ((vals f.num).take j) g.num)) = [] := by
            rw [List.flatMap_eq_nil_iff]
            intro g hg
            have hne : g.num ≠ f.num := fun h => hnd.1 (h ▸ List.mem_map_of_mem hg)
            simp [Function.update_of_ne hne, writeField]
          rw [this, List.append_nil]
    · obtain ⟨j, hj⟩ : ∃ j, k = (writeField f (vals f.num)).length + j :=
        ⟨_, (Nat.add_sub_cancel' (by omega)).symm⟩
      rw [hj, List.take_length_add_append]
      rcases ih (fun g hg => hT g (List.mem_cons_of_mem _ hg)) hnd.2 j with h | ⟨vals', h1, h2⟩
      · left
        intro m
        rw [merge_field L hS hf _ (hv f hf)]
        exact h _
      · right
        refine ⟨Function.update vals' f.num (vals f.num), fun n => ?_, ?_⟩
        · by_cases h : n = f.num
          · subst h; simp
          · simpa [Function.update_of_ne h] using h1 n
        · rw [h2, List.flatMap_cons, Function.update_self]
          congr 1
          rw [List.flatMap_def, List.flatMap_def]
          congr 1
          apply List.map_congr_left
          intro g hg
          have hne : g.num ≠ f.num := fun h => hnd.1 (h ▸ List.mem_map_of_mem hg)
          rw [Function.update_of_ne hne]

/-! ## Accessors -/

theorem wellFormed_ofLists {lib : UnknownLib U} {S : Schema} {ls : List (List Nat)}
    (hnums : S.map (·.num) = List.range' 1 S.length)
    (h : List.Forall₂ (fun f vs => (∀ v ∈ vs, Fits f.ty v) ∧ (f.rep = false → vs.length = 1)) S ls) :
    WellFormed lib S (ofLists ls) ∧ isInitialized S (ofLists ls : Msg U) := by
  have hlen := h.length_eq
  have hnum : ∀ i, ∀ f, S[i]? = some f → f.num = i + 1 := by
    intro i f hf
    have hi := (List.getElem?_eq_some_iff.mp hf).1
    have h1 : (S.map (·.num))[i]? = some f.num := by rw [List.getElem?_map, hf]; rfl
    rw [hnums, List.getElem?_range' (by omega)] at h1
    simp at h1
    omega
  have hget : ∀ f ∈ S, ∃ vs, (ofLists ls : Msg U).vals f.num = vs ∧ (∀ v ∈ vs, Fits f.ty v) ∧
      (f.rep = false → vs.length = 1) := by
    intro f hf
    obtain ⟨i, hi, rfl⟩ := List.mem_iff_getElem.mp hf
    have hn := hnum i S[i] (by simp [hi])
    refine ⟨ls[i]'(by omega), ?_, (List.forall₂_iff_get.mp h).2 i hi (by omega)⟩
    simp only [ofLists, hn]
    rw [if_neg (by omega)]
    simp [show i < ls.length by omega]
  refine ⟨⟨?_, ?_, ?_, by simp [ofLists]⟩, ?_⟩
  · intro n hn
    simp only [ofLists]
    split_ifs with h0
    · rfl
    · rw [List.getElem?_eq_none]
      · rfl
      · by_contra hlt
        push Not at hlt
        have hi : n - 1 < S.length := by omega
        have := hnum (n - 1) S[n - 1] (by simp [hi])
        exact hn S[n - 1] (List.getElem_mem hi) (by omega)
  · intro f hf
    obtain ⟨vs, h1, h2, -⟩ := hget f hf
    rw [h1]; exact h2
  · intro f hf hr
    obtain ⟨vs, h1, -, h3⟩ := hget f hf
    rw [h1, h3 hr]
  · intro f hf hr
    obtain ⟨vs, h1, -, h3⟩ := hget f hf
    rw [h1]
    intro h
    have := h3 hr
    rw [h] at this
    simp at this

/-! ## `Clustering` -/

theorem readMessage_le {lib : UnknownLib U} {S : Schema} {m : Option (Msg U)} {x : Msg U}
    {bs rest : Bytes} (h : readMessage lib S m bs = some (x, rest)) : rest.length ≤ bs.length := by
  unfold readMessage at h
  cases hr : readVarint bs with
  | none => rw [hr] at h; simp at h
  | some q =>
    obtain ⟨n, r⟩ := q
    rw [hr] at h
    simp only [Option.bind_some] at h
    split_ifs at h with hl
    have h1 := readVarint_lt hr
    obtain ⟨y, -, hy⟩ := Option.map_eq_some_iff.mp h
    have : rest = r.drop (n % 2 ^ 32) := by
      have := congrArg Prod.snd hy
      exact this.symm
    rw [this, List.length_drop]
    exact (Nat.sub_le _ _).trans h1.le

theorem clusteringStep_le {lib : UnknownLib U} (L : UnknownLaws lib) {m m' : ClusteringMsg U} {tag : Nat}
    {bs rest : Bytes} (h : clusteringStep lib m tag bs = some (m', rest)) :
    rest.length ≤ bs.length := by
  unfold clusteringStep at h
  split_ifs at h
  · obtain ⟨⟨x, r⟩, hx, e⟩ := Option.map_eq_some_iff.mp h
    simp only [Prod.mk.injEq] at e
    rw [← e.2]; exact readMessage_le hx
  · obtain ⟨⟨x, r⟩, hx, e⟩ := Option.map_eq_some_iff.mp h
    simp only [Prod.mk.injEq] at e
    rw [← e.2]; exact readMessage_le hx
  · obtain ⟨⟨x, r⟩, hx, e⟩ := Option.map_eq_some_iff.mp h
    simp only [Prod.mk.injEq] at e
    rw [← e.2]; exact L.skip_le _ _ _ _ hx

theorem clusteringLoop_fuel {lib : UnknownLib U} (L : UnknownLaws lib) (f g : Nat) (m : ClusteringMsg U)
    (bs : Bytes) (hf : bs.length ≤ f) (hg : bs.length ≤ g) :
    clusteringLoop lib f m bs = clusteringLoop lib g m bs := by
  induction f generalizing g m bs with
  | zero =>
    have : bs = [] := List.length_eq_zero_iff.mp (by omega)
    subst this
    cases g <;> simp [clusteringLoop]
  | succ f ih =>
    cases g with
    | zero =>
      have : bs = [] := List.length_eq_zero_iff.mp (by omega)
      subst this
      simp [clusteringLoop]
    | succ g =>
      rw [clusteringLoop, clusteringLoop]
      split_ifs with hbs
      · rfl
      · cases hr : readTag bs with
        | none => rfl
        | some q =>
          obtain ⟨tag, r⟩ := q
          simp only [Option.bind_some]
          split_ifs with h0
          · rfl
          · cases hs : clusteringStep lib m tag r with
            | none => rfl
            | some q =>
              obtain ⟨m', r'⟩ := q
              simp only [Option.bind_some]
              have h1 := readTag_lt hr
              have h2 := clusteringStep_le L hs
              exact ih g m' r' (by omega) (by omega)

theorem clustering_tag {lib : UnknownLib U} (L : UnknownLaws lib) (m m' : ClusteringMsg U) (tag : Nat)
    (h0 : 0 < tag) (ht : tag < 2 ^ 32) (body rest : Bytes)
    (hs : clusteringStep lib m tag (body ++ rest) = some (m', rest)) :
    clusteringLoop lib (writeVarint tag ++ body ++ rest).length m (writeVarint tag ++ body ++ rest) =
      clusteringLoop lib rest.length m' rest := by
  have hne : writeVarint tag ++ body ++ rest ≠ [] := by simp [writeVarint_ne_nil]
  obtain ⟨k, hk⟩ : ∃ k, (writeVarint tag ++ body ++ rest).length = k + 1 :=
    ⟨_, (Nat.succ_pred (by simpa using hne)).symm⟩
  rw [hk, clusteringLoop, if_neg hne, List.append_assoc, readTag_write ht]
  simp only [Option.bind_some]
  rw [if_neg (by omega), hs]
  simp only [Option.bind_some]
  refine clusteringLoop_fuel L _ _ _ _ ?_ le_rfl
  have : 0 < (writeVarint tag).length := List.length_pos_iff.mpr (writeVarint_ne_nil tag)
  simp only [List.length_append] at hk
  omega

theorem readMessage_write {lib : UnknownLib U} (L : UnknownLaws lib) {S : Schema} (hS : Schema.Good S)
    (x : Msg U) (hw : WellFormed lib S x) (hl : (serialize lib S x).length < 2 ^ 32) (rest : Bytes) :
    readMessage lib S none
      (writeVarint (serialize lib S x).length ++ serialize lib S x ++ rest) = some (x, rest) := by
  unfold readMessage
  rw [List.append_assoc, readVarint_write (lt_trans hl (by norm_num))]
  simp only [Option.bind_some, Nat.mod_eq_of_lt hl]
  rw [if_pos (by simp), List.take_left, List.drop_left]
  have := merge_serialize L hS .empty x hw []
  rw [List.append_nil, mergeFromBytes_nil, mergeFrom_empty hS x hw] at this
  simp only [Option.getD_none]
  rw [this]
  rfl

theorem clustering_unknown {lib : UnknownLib U} (L : UnknownLaws lib) (us : List U)
    (hu : ∀ u ∈ us, lib.tag u ≠ 10 ∧ lib.tag u ≠ 18) (m : ClusteringMsg U) :
    clusteringLoop lib (us.flatMap lib.enc).length m (us.flatMap lib.enc) =
      some { m with unknown := m.unknown ++ us } := by
  induction us generalizing m with
  | nil => simp [clusteringLoop]
  | cons u us ih =>
    have h := hu u List.mem_cons_self
    rw [List.flatMap_cons, UnknownLib.enc,
      clustering_tag L m { m with unknown := m.unknown ++ [u] } (lib.tag u) (L.tag_pos u) (L.tag_lt u)
        (lib.body u) _ ?_, ih fun v hv => hu v (List.mem_cons_of_mem _ hv)]
    · simp
    · unfold clusteringStep
      rw [if_neg h.1, if_neg h.2, if_neg (L.tag_group u), L.skip_body]
      rfl

theorem plain_laws : UnknownLaws plainLib where
  tag_pos u := by have := u.pos; simp only [plainLib]; omega
  tag_lt u := by
    have := u.lt
    simp only [plainLib]
    cases h : u.data <;> simp only [Data.wire] <;> omega
  tag_group u := by
    simp only [plainLib]
    cases h : u.data <;> simp only [Data.wire] <;> omega
  skip_body u rest := by
    obtain ⟨num, pos, lt, data⟩ := u
    have h8 : ∀ w, w < 8 → (num * 8 + w) / 8 = num := fun w hw => by omega
    have m8 : ∀ w, w < 8 → (num * 8 + w) % 8 = w := fun w hw => by omega
    cases data with
    | varint n =>
      simp only [plainLib, Data.wire, h8 0 (by norm_num), m8 0 (by norm_num)]
      rw [dif_pos ⟨pos, lt⟩, if_pos trivial, readVarint_write n.isLt]
      simp only [Option.map_some, Nat.mod_eq_of_lt n.isLt, Fin.eta]
    | fixed64 b =>
      obtain ⟨b, hb⟩ := b
      simp only [plainLib, Data.wire, h8 1 (by norm_num), m8 1 (by norm_num)]
      rw [dif_pos ⟨pos, lt⟩, if_neg (by norm_num), if_pos trivial, dif_pos (by simp [hb])]
      simp [List.take_left' hb, List.drop_left' hb]
    | bytes b =>
      obtain ⟨b, hb⟩ := b
      simp only [plainLib, Data.wire, h8 2 (by norm_num), m8 2 (by norm_num)]
      rw [dif_pos ⟨pos, lt⟩, if_neg (by norm_num), if_neg (by norm_num), if_pos trivial,
        List.append_assoc, readVarint_write (lt_trans hb (by norm_num))]
      simp only [Option.bind_some, Nat.mod_eq_of_lt hb]
      rw [if_pos (by simp)]
      simp
    | fixed32 b =>
      obtain ⟨b, hb⟩ := b
      simp only [plainLib, Data.wire, h8 5 (by norm_num), m8 5 (by norm_num)]
      rw [dif_pos ⟨pos, lt⟩, if_neg (by norm_num), if_neg (by norm_num), if_neg (by norm_num),
        if_pos trivial, dif_pos (by simp [hb])]
      simp [List.take_left' hb, List.drop_left' hb]
  skip_le t bs u rest h := by
    simp only [plainLib] at h
    split_ifs at h
    · obtain ⟨⟨n, r⟩, hr, e⟩ := Option.map_eq_some_iff.mp h
      have := readVarint_lt hr
      simp only [Prod.mk.injEq] at e
      rw [← e.2]; omega
    · simp only [Option.some.injEq, Prod.mk.injEq] at h
      rw [← h.2]; simp
    · obtain ⟨⟨n, r⟩, hr, e⟩ := Option.bind_eq_some_iff.mp h
      have := readVarint_lt hr
      simp only at e
      split_ifs at e
      simp only [Option.some.injEq, Prod.mk.injEq] at e
      rw [← e.2, List.length_drop]
      exact (Nat.sub_le _ _).trans this.le
    · simp only [Option.some.injEq, Prod.mk.injEq] at h
      rw [← h.2]; simp

end Dist.Wire
