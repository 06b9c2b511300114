import Verif.Props.Wire

/-!
# C64: packed fields

The classes write a tag before every value of a repeated field, and also read fields in which one
tag and a length come before all values.
-/

namespace Dist.Wire

open Spec
open Stream (Bytes)

variable {U : Type} {lib : UnknownLib U} {S : Schema}

/-- The values of a field one after the other. -/
def packedValues (f : Field) (vs : List Nat) : Bytes := vs.flatMap (writeVal f.ty)

/-- A packed field, as other writers of protobuf messages encode it: a length-delimited tag, the number
of bytes, the values. -/
def packed (f : Field) (vs : List Nat) : Bytes :=
  writeVarint (f.num * 8 + 2) ++ (writeVarint (packedValues f vs).length ++ packedValues f vs)

theorem writeVal_ne_nil (ty : Ty) (v : Nat) : writeVal ty v ≠ [] := by
  cases ty <;> simp [writeVal, writeVarint_ne_nil, writeFixed32]

theorem readRun_write {f : Field} (vs : List Nat) (hv : ∀ v ∈ vs, Fits f.ty v) (n : Nat)
    (hn : (packedValues f vs).length ≤ n) : readRun f.ty n (packedValues f vs) = some vs := by
  induction vs generalizing n with
  | nil => cases n <;> simp [packedValues, readRun]
  | cons v vs ih =>
    have hne : packedValues f (v :: vs) ≠ [] := by
      simp [packedValues, writeVal_ne_nil]
    have hlen : 0 < (writeVal f.ty v).length := List.length_pos_iff.mpr (writeVal_ne_nil _ _)
    have hl : (packedValues f (v :: vs)).length = (writeVal f.ty v).length + (packedValues f vs).length := by
      simp [packedValues]
    cases n with
    | zero => omega
    | succ n =>
      rw [readRun, if_neg hne]
      rw [show packedValues f (v :: vs) = writeVal f.ty v ++ packedValues f vs by simp [packedValues],
        readVal_write (hv v List.mem_cons_self)]
      simp only [Option.bind_some]
      rw [ih (fun w hw => hv w (List.mem_cons_of_mem _ hw)) n (by omega)]
      rfl

theorem wire_ne_two (ty : Ty) : ty.wire ≠ 2 := by cases ty <;> simp [Ty.wire]

theorem step_packed (hS : Schema.Good S) {f : Field} (hf : f ∈ S) (hr : f.rep = true) (m : Msg U)
    (bs : Bytes) :
    step lib S m (f.num * 8 + 2) bs =
      (readPacked f.ty bs).map fun (vs, r) => (m.add f.num vs, r) := by
  unfold step
  rw [find_field hS hf (by omega)]
  simp only
  rw [if_neg (by have := wire_ne_two f.ty; omega), if_pos ⟨hr, by omega⟩]

/-- **C64 (packed fields).** A repeated field in packed form is read as the same values with a tag
each, wherever it stands in the input and whatever the message holds. -/
theorem C64_packed (L : UnknownLaws lib) (h : S ∈ schemas) {f : Field} (hf : f ∈ S)
    (hr : f.rep = true) (vs : List Nat) (hv : ∀ v ∈ vs, Fits f.ty v)
    (hl : (packedValues f vs).length < 2 ^ 32) (m : Msg U) (rest : Bytes) :
    mergeFromBytes lib S m (packed f vs ++ rest) =
      mergeFromBytes lib S m (writeField f vs ++ rest) := by
  have hS := good_of_mem h
  rw [merge_field L hS hf vs hv, if_pos hr]
  have hn := hS.2 f hf
  refine merge_tag L S m _ _ (by omega) (by omega) _ _ ?_
  rw [step_packed hS hf hr, readPacked, List.append_assoc,
    readVarint_write (lt_trans hl (by norm_num))]
  simp only [Option.bind_some, Nat.mod_eq_of_lt hl]
  rw [if_pos (by simp), List.take_left, List.drop_left, readRun_write vs hv _ le_rfl]
  rfl

/-- **C64 (packed fields, cut).** A packed field whose values are cut short is not accepted. -/
theorem C64_packed_cut (h : S ∈ schemas) {f : Field} (hf : f ∈ S) (hr : f.rep = true)
    (n : Nat) (hn : n < 2 ^ 32) (values : Bytes) (hl : values.length < n) (m : Msg U) :
    mergeFromBytes lib S m (writeVarint (f.num * 8 + 2) ++ (writeVarint n ++ values)) = none := by
  have hS := good_of_mem h
  have hnum := hS.2 f hf
  unfold mergeFromBytes
  have hne : writeVarint (f.num * 8 + 2) ++ (writeVarint n ++ values) ≠ [] := by
    simp [writeVarint_ne_nil]
  obtain ⟨k, hk⟩ : ∃ k, (writeVarint (f.num * 8 + 2) ++ (writeVarint n ++ values)).length = k + 1 :=
    ⟨_, (Nat.succ_pred (by simpa using hne)).symm⟩
  rw [hk, parseLoop, if_neg hne, readTag_write (by omega)]
  simp only [Option.bind_some]
  rw [if_neg (by omega), step_packed hS hf hr, readPacked, readVarint_write (lt_trans hn (by norm_num))]
  simp only [Option.bind_some, Nat.mod_eq_of_lt hn]
  rw [if_neg (by omega)]
  rfl

/-- Counts 1, 300 and 2 of a Dirichlet-Discrete group, packed and with tags. -/
example : ∃ f ∈ ddGroup, f.rep = true ∧ packed f [1, 300, 2] = [10, 4, 1, 172, 2, 2] ∧
    writeField f [1, 300, 2] = [8, 1, 8, 172, 2, 8, 2] ∧ ddGroup ∈ schemas :=
  ⟨⟨1, .u64, true⟩, by decide, rfl, by
    simp [packed, packedValues, writeVal, writeVarint_small, writeVarint_big], by
    simp [writeField, Ty.wire, writeVal, writeVarint_small, writeVarint_big], by decide⟩

end Dist.Wire
