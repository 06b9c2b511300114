import Verif.Model.DbgRandom
import Verif.Model.PyIo

/-! # Parameters and messages of the reference Dirichlet-process model

`Shared` and the input and output of `Group` in distributions/dbg/models/dpd.py.  A Python
dictionary is an `FMap` with integer keys; loops over one take its iteration order as the list
`ks` of its keys.  A raw dictionary that is loaded is the list of its entries in iteration order
with the keys already converted by `int`, so a key may be repeated (`7` and `'7'`).  A missing
entry of the outer dictionary is not modelled.  A Python exception is a failure that leaves the
object as the statements before it left it. -/

namespace Dist.DbgDPD

open FloatOps FloatNotation
open Dist.Py (Conv asField)

/-- `OTHER` (distributions/dbg/models/dpd.py:70). -/
def other : Int := 0xFFFFFFFF

/-- `Shared` (distributions/dbg/models/dpd.py:75-80). -/
structure Shared (F : Type) where
  gamma : F
  alpha : F
  beta0 : F
  betas : FMap Int F
  counts : FMap Int Int

/-- The dictionary of a `Shared` (distributions/dbg/models/dpd.py:106-111). -/
structure Raw (F : Type) where
  gamma : F
  alpha : F
  betas : List (Int × F)
  counts : List (Int × Int)

/-- `{int(k): v for k, v in entries}`: a later entry overrides an earlier one with its key. -/
def dict {V : Type} (entries : List (Int × V)) : FMap Int V :=
  entries.foldl (fun m e => m.set e.1 e.2) .empty

variable {F G σ : Type} [FloatOps F]

/-- Python's `max(a, b)`. -/
def pyMax (a b : F) : F := if lt a b then b else a

/-- Python's `min` of a nonempty iterable. -/
def minOf : F → List F → F
  | m, [] => m
  | m, x :: xs => minOf (if lt x m then x else m) xs

/-- Python's `max` of a nonempty iterable. -/
def maxOf : F → List F → F
  | m, [] => m
  | m, x :: xs => maxOf (if lt m x then x else m) xs

/-- The checks of `_load_beta0` (distributions/dbg/models/dpd.py:84-90). -/
def betasOk (beta0 : F) : List F → Bool
  | [] => le beta0 (ofInt 1)
  | b :: bs => le beta0 (ofInt 1) && (le (ofInt 0) (minOf b bs) && le (maxOf b bs) (ofInt 1))

/-- `_load_beta0` (distributions/dbg/models/dpd.py:82-90); `ks` is the iteration order of
`betas`. -/
def loadBeta0 (ks : List Int) : Act (Shared F) Unit := do
  let s ← Act.get
  let bs := (s.betas.entries ks).map (·.2)
  let beta0 := pyMax (lit 0 1) (lit 1 1 - bs.foldl (· + ·) (ofInt 0))
  Act.modify fun s => { s with beta0 := beta0 }
  Act.lift (if betasOk beta0 bs then .ok () else .fail)

/-- `load` (distributions/dbg/models/dpd.py:92-103). -/
def load (ks : List Int) (raw : Raw F) : Act (Shared F) Unit := do
  Act.modify fun s => { s with gamma := raw.gamma }
  Act.modify fun s => { s with alpha := raw.alpha }
  Act.modify fun s => { s with betas := dict raw.betas }
  Act.modify fun s => { s with counts := dict raw.counts }
  loadBeta0 ks

/-- `dump` (distributions/dbg/models/dpd.py:105-111); the copies iterate in the orders `kb` and
`kc`. -/
def dump (kb kc : List Int) (s : Shared F) : Raw F :=
  ⟨s.gamma, s.alpha, s.betas.entries kb, s.counts.entries kc⟩

/-- `protobuf_load` (distributions/dbg/models/dpd.py:113-126). -/
def pbLoad (c : Conv F G) (ks : List Int) (msg : Proto.DPDSharedMsg G) : Act (Shared F) Unit := do
  Act.lift (if msg.betas.length = msg.values.length then .ok () else .fail)
  Act.lift (if msg.counts.length = msg.values.length then .ok () else .fail)
  Act.modify fun s => { s with gamma := c.widen msg.gamma }
  Act.modify fun s => { s with alpha := c.widen msg.alpha }
  let keys := msg.values.map fun v => (v.toNat : Int)
  Act.modify fun s => { s with betas := dict (keys.zip (msg.betas.map c.widen)) }
  Act.modify fun s => { s with counts := dict (keys.zip (msg.counts.map fun n => (n.toNat : Int))) }
  loadBeta0 ks

/-- The loop of `protobuf_dump` (distributions/dbg/models/dpd.py:132-135): `KeyError` when a
value has no count. -/
def pbDumpLoop (c : Conv F G) (counts : FMap Int Int) :
    List (Int × F) → Proto.DPDSharedMsg G → Res (Proto.DPDSharedMsg G)
  | [], msg => .ok msg
  | (value, beta) :: es, msg => do
    let v ← asField 32 value
    match counts.lookup value with
    | none => .fail
    | some n =>
      let n ← asField 64 n
      pbDumpLoop c counts es { msg with
        values := msg.values ++ [UInt32.ofNat v],
        betas := msg.betas ++ [c.narrow beta],
        counts := msg.counts ++ [UInt64.ofNat n] }

/-- `protobuf_dump` (distributions/dbg/models/dpd.py:128-135); the message is cleared first. -/
def pbDump (c : Conv F G) (ks : List Int) (s : Shared F) (_msg : Proto.DPDSharedMsg G) :
    Res (Proto.DPDSharedMsg G) :=
  pbDumpLoop c s.counts (s.betas.entries ks) ⟨c.narrow s.gamma, c.narrow s.alpha, [], [], []⟩

/-- `add_value` (distributions/dbg/models/dpd.py:137-144); the state of numpy's generator goes
with the object. -/
def addValue (np : Dbg.Numpy F σ) (value : Int) : Act (Shared F × σ) Unit := fun (s, g) =>
  if value = other then .fail (s, g)
  else
    let count := (s.counts.lookup value).getD 0 + 1
    let counts := s.counts.set value count
    if count = 1 then
      let (p, g) := np.beta g (lit 1 1) s.gamma
      let beta := s.beta0 * p
      .ok (⟨s.gamma, s.alpha, pyMax (lit 0 1) (s.beta0 - beta), s.betas.set value beta, counts⟩, g) ()
    else .ok ({ s with counts := counts }, g) ()

/-- `remove_value` (distributions/dbg/models/dpd.py:146-153). -/
def removeValue (value : Int) : Act (Shared F × σ) Unit := fun (s, g) =>
  if value = other then .fail (s, g)
  else match s.counts.lookup value with
    | none => .fail (s, g)
    | some n =>
      let count := n - 1
      if count ≠ 0 then .ok ({ s with counts := s.counts.set value count }, g) ()
      else
        let counts := s.counts.erase value
        match s.betas.lookup value with
        | none => .fail ({ s with counts := counts }, g)
        | some b => .ok (⟨s.gamma, s.alpha, s.beta0 + b, s.betas.erase value, counts⟩, g) ()

/-- `1 + max(self.betas.iterkeys()) if self.betas else 0` (distributions/dbg/models/dpd.py:158). -/
def firstNew : List Int → Int
  | [] => 0
  | k :: ks => 1 + ks.foldl max k

/-- The `while` loop of `realize` (distributions/dbg/models/dpd.py:159-161), run for at most
`fuel` rounds; `none` means it is still running. -/
def realizeLoop (np : Dbg.Numpy F σ) : Nat → Int → Shared F × σ → Option (Out (Shared F × σ) Int)
  | fuel, newValue, s =>
    if s.1.betas.size < 10000 - 1 ∧ lt (lit 1 10000) s.1.beta0 = true then
      match fuel with
      | 0 => none
      | fuel + 1 =>
        match addValue np newValue s with
        | .ok s _ => realizeLoop np fuel (newValue + 1) s
        | .fail s => some (.fail s)
        | .ub => some .ub
    else some (.ok s newValue)

/-- The end of `realize` (distributions/dbg/models/dpd.py:162-165). -/
def realizeLast (np : Dbg.Numpy F σ) (newValue : Int) : Act (Shared F × σ) Unit := fun s =>
  if lt (ofInt 0) s.1.beta0 = true then
    match addValue np newValue s with
    | .fail s => .fail s
    | .ub => .ub
    | .ok (s, g) _ =>
      match s.betas.lookup newValue with
      | none => .fail (s, g)
      | some b => .ok ({ s with betas := s.betas.set newValue (b + s.beta0), beta0 := ofInt 0 }, g) ()
  else .ok s ()

/-- `realize` (distributions/dbg/models/dpd.py:155-165) with at most `fuel` rounds of its loop;
`ks` is the iteration order of `betas`. -/
def realize (np : Dbg.Numpy F σ) (fuel : Nat) (ks : List Int) (s : Shared F × σ) :
    Option (Out (Shared F × σ) Unit) :=
  match realizeLoop np fuel (firstNew ks) s with
  | none => none
  | some (.ok s newValue) => some (realizeLast np newValue s)
  | some (.fail s) => some (.fail s)
  | some .ub => some .ub

/-! ## Group -/

/-- `Group` (distributions/dbg/models/dpd.py:168-171). -/
structure Group where
  counts : FMap Int Int
  total : Int

/-- The loops of `load` and `protobuf_load` of a group
(distributions/dbg/models/dpd.py:237-240, 253-256). -/
def loadGroupLoop : List (Int × Int) → Group → Group
  | [], g => g
  | (i, count) :: es, g =>
    if count ≠ 0 then loadGroupLoop es ⟨g.counts.set i count, g.total + count⟩
    else loadGroupLoop es g

/-- `Group.load` (distributions/dbg/models/dpd.py:234-240). -/
def loadGroup (raw : List (Int × Int)) : Group := loadGroupLoop raw ⟨.empty, 0⟩

/-- `Group.dump` (distributions/dbg/models/dpd.py:242-248). -/
def dumpGroup (ks : List Int) (g : Group) : List (Int × Int) :=
  (g.counts.entries ks).filter fun e => e.2 ≠ 0

/-- `Group.protobuf_load` (distributions/dbg/models/dpd.py:250-256); `izip` stops at the end of
the shorter list. -/
def pbLoadGroup (msg : Proto.DPDGroupMsg) : Group :=
  loadGroupLoop ((msg.keys.map fun k => (k.toNat : Int)).zip
    (msg.values.map fun n => (n.toNat : Int))) ⟨.empty, 0⟩

/-- The loop of `Group.protobuf_dump` (distributions/dbg/models/dpd.py:260-263). -/
def pbDumpGroupLoop : List (Int × Int) → Proto.DPDGroupMsg → Res Proto.DPDGroupMsg
  | [], msg => .ok msg
  | (i, count) :: es, msg =>
    if count ≠ 0 then do
      let k ← asField 32 i
      let n ← asField 64 count
      pbDumpGroupLoop es ⟨msg.keys ++ [UInt32.ofNat k], msg.values ++ [UInt64.ofNat n]⟩
    else pbDumpGroupLoop es msg

/-- `Group.protobuf_dump` (distributions/dbg/models/dpd.py:258-263). -/
def pbDumpGroup (ks : List Int) (g : Group) (_msg : Proto.DPDGroupMsg) : Res Proto.DPDGroupMsg :=
  pbDumpGroupLoop (g.counts.entries ks) ⟨[], []⟩

end Dist.DbgDPD
