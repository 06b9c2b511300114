import Verif.Base.Res
import Verif.Model.Stream

/-!
# Serialised messages (src/io/schema.pb.cc)

The classes generated from distributions/io/schema.proto.  All of them but `Clustering` have scalar
fields only, and their methods differ in the list of fields alone: a class is its `Schema`, and each
method is written once for all schemas.  The reading and writing of single values belongs to the
protobuf library, and follows its documented encoding: base-128 varints, little-endian `fixed32`,
length-delimited packed values and messages.  Fields unknown to a class are read and written by the
library too (`UnknownLib`).

A value is held by its bits: a `float` and a `uint32` below `2^32`, a `uint64` below `2^64`, an `int32`
as its two's complement below `2^32`.
-/

namespace Dist.Wire

open Stream (Bytes)

/-! ## Values -/

/-- Types of fields in the schema. -/
inductive Ty
  | float | u32 | u64 | i32
  deriving DecidableEq, Repr

/-- `WIRETYPE_FIXED32` for `float`, `WIRETYPE_VARINT` for integers. -/
def Ty.wire : Ty → Nat
  | .float => 5
  | _ => 0

/-- Values the type can hold. -/
def Ty.bound : Ty → Nat
  | .u64 => 2 ^ 64
  | _ => 2 ^ 32

/-- A varint: seven bits per byte, lowest first, the high bit set on all bytes but the last. -/
def writeVarint (n : Nat) : Bytes :=
  if n < 128 then [UInt8.ofNat n] else UInt8.ofNat (n % 128 + 128) :: writeVarint (n / 128)
termination_by n

/-- Reads a varint of at most `fuel` bytes. -/
def readVarintLoop : Nat → Bytes → Option (Nat × Bytes)
  | 0, _ => none
  | _ + 1, [] => none
  | f + 1, b :: bs =>
    if b.toNat < 128 then some (b.toNat, bs)
    else (readVarintLoop f bs).map fun (n, r) => (b.toNat - 128 + 128 * n, r)

/-- Reads a varint: at most ten bytes; bits beyond 64 are dropped. -/
def readVarint (bs : Bytes) : Option (Nat × Bytes) :=
  (readVarintLoop 10 bs).map fun (n, r) => (n % 2 ^ 64, r)

/-- Four bytes, lowest first. -/
def writeFixed32 (n : Nat) : Bytes :=
  [UInt8.ofNat (n % 256), UInt8.ofNat (n / 256 % 256), UInt8.ofNat (n / 65536 % 256),
    UInt8.ofNat (n / 16777216)]

def readFixed32 : Bytes → Option (Nat × Bytes)
  | a :: b :: c :: d :: rest => some (Stream.unpack32 a b c d, rest)
  | _ => none

/-- Negative `int32` values are sign-extended to 64 bits before they are written. -/
def signExtend (v : Nat) : Nat := if v < 2 ^ 31 then v else v + (2 ^ 64 - 2 ^ 32)

/-- `WriteFloat`, `WriteUInt32`, `WriteUInt64`, `WriteInt32` without the tag. -/
def writeVal : Ty → Nat → Bytes
  | .float, v => writeFixed32 v
  | .i32, v => writeVarint (signExtend v)
  | _, v => writeVarint v

/-- `ReadPrimitive`: 32-bit types keep the low bits of what is read. -/
def readVal : Ty → Bytes → Option (Nat × Bytes)
  | .float, bs => readFixed32 bs
  | .u64, bs => readVarint bs
  | _, bs => (readVarint bs).map fun (n, r) => (n % 2 ^ 32, r)

/-- Bytes of a varint: `VarintSize32`, `VarintSize64`. -/
def varintSize (n : Nat) : Nat :=
  if n < 2 ^ 7 then 1 else if n < 2 ^ 14 then 2 else if n < 2 ^ 21 then 3 else if n < 2 ^ 28 then 4
  else if n < 2 ^ 35 then 5 else if n < 2 ^ 42 then 6 else if n < 2 ^ 49 then 7
  else if n < 2 ^ 56 then 8 else if n < 2 ^ 63 then 9 else 10

/-- `UInt32Size`, `UInt64Size`, `Int32Size` (ten bytes if negative); 4 for a `float`. -/
def valSize : Ty → Nat → Nat
  | .float, _ => 4
  | .i32, v => if v < 2 ^ 31 then varintSize v else 10
  | _, v => varintSize v

/-- `ReadPackedPrimitive`, the values in a run of bytes. -/
def readRun (ty : Ty) : Nat → Bytes → Option (List Nat)
  | 0, bs => if bs = [] then some [] else none
  | f + 1, bs =>
    if bs = [] then some []
    else (readVal ty bs).bind fun (v, r) => (readRun ty f r).map fun vs => v :: vs

/-- `ReadPackedPrimitive`: a length, then that many bytes of values. -/
def readPacked (ty : Ty) (bs : Bytes) : Option (List Nat × Bytes) :=
  (readVarint bs).bind fun (n, r) =>
    let len := n % 2 ^ 32
    if len ≤ r.length then (readRun ty len (r.take len)).map fun vs => (vs, r.drop len) else none

/-! ## Classes with scalar fields -/

/-- A field: number, type, and whether it is `repeated`; a field that is not is `required`. -/
structure Field where
  num : Nat
  ty : Ty
  rep : Bool
  deriving DecidableEq, Repr

abbrev Schema := List Field

/-- What the library does with a field unknown to the class: `tag` and `body` are the bytes
`SerializeUnknownFields` writes for it, `skip` is `SkipField`. -/
structure UnknownLib (U : Type) where
  tag : U → Nat
  body : U → Bytes
  skip : Nat → Bytes → Option (U × Bytes)

def UnknownLib.enc {U : Type} (lib : UnknownLib U) (u : U) : Bytes := writeVarint (lib.tag u) ++ lib.body u

/-- A message: the values of each field number (none or one unless `repeated`), and unknown fields. -/
@[ext] structure Msg (U : Type) where
  vals : Nat → List Nat
  unknown : List U

variable {U : Type}

/-- `Clear` (for example schema.pb.cc:2764-2774). -/
def Msg.empty : Msg U := ⟨fun _ => [], []⟩

/-- `set_x`, with the `has` bit. -/
def Msg.set (m : Msg U) (n v : Nat) : Msg U := { m with vals := Function.update m.vals n [v] }

/-- `add_x` for each value. -/
def Msg.add (m : Msg U) (n : Nat) (vs : List Nat) : Msg U :=
  { m with vals := Function.update m.vals n (m.vals n ++ vs) }

/-- `handle_uninterpreted` (for example schema.pb.cc:2877-2886).  An end-group tag ends the message,
which is then not at the end of its input: `ParseFromString` fails. -/
def uninterpreted (lib : UnknownLib U) (m : Msg U) (tag : Nat) (bs : Bytes) : Option (Msg U × Bytes) :=
  if tag % 8 = 4 then none
  else (lib.skip tag bs).map fun (u, r) => ({ m with unknown := m.unknown ++ [u] }, r)

/-- One round of `MergePartialFromCodedStream` (for example schema.pb.cc:2780-2888): the `switch` on
the field number, and the test of the wire type.  The jumps to the case expected next are the same
rounds without going through `ReadTag`. -/
def step (lib : UnknownLib U) (S : Schema) (m : Msg U) (tag : Nat) (bs : Bytes) :
    Option (Msg U × Bytes) :=
  match S.find? fun f => f.num = tag / 8 with
  | some f =>
    if tag % 8 = f.ty.wire then
      (readVal f.ty bs).map fun (v, r) => (if f.rep then m.add f.num [v] else m.set f.num v, r)
    else if f.rep ∧ tag % 8 = 2 then
      (readPacked f.ty bs).map fun (vs, r) => (m.add f.num vs, r)
    else uninterpreted lib m tag bs
  | none => uninterpreted lib m tag bs

/-- `ReadTag`: 32 bits of a varint. -/
def readTag (bs : Bytes) : Option (Nat × Bytes) := (readVarint bs).map fun (n, r) => (n % 2 ^ 32, r)

/-- The loop of `MergePartialFromCodedStream` (for example schema.pb.cc:2776-2893) up to the end of the
input; a zero tag before the end ends the loop, and `ParseFromString` fails.  `fuel` bounds the rounds:
each takes a byte. -/
def parseLoop (lib : UnknownLib U) (S : Schema) : Nat → Msg U → Bytes → Option (Msg U)
  | 0, m, bs => if bs = [] then some m else none
  | f + 1, m, bs =>
    if bs = [] then some m
    else (readTag bs).bind fun (tag, r) =>
      if tag = 0 then none
      else (step lib S m tag r).bind fun (m', r') => parseLoop lib S f m' r'

/-- `MergePartialFromCodedStream` on a whole input. -/
def mergeFromBytes (lib : UnknownLib U) (S : Schema) (m : Msg U) (bs : Bytes) : Option (Msg U) :=
  parseLoop lib S bs.length m bs

/-- `IsInitialized` (for example schema.pb.cc:3061-3065): every required field is set. -/
def isInitialized (S : Schema) (m : Msg U) : Prop := ∀ f ∈ S, f.rep = false → m.vals f.num ≠ []

instance (S : Schema) (m : Msg U) : Decidable (isInitialized S m) := by
  unfold isInitialized; infer_instance

/-- `ParseFromString`: clear, merge, and check that required fields are set. -/
def parse (lib : UnknownLib U) (S : Schema) (bs : Bytes) : Option (Msg U) :=
  (mergeFromBytes lib S .empty bs).bind fun m => if isInitialized S m then some m else none

/-- One field in `SerializeWithCachedSizes`: a tag before every value. -/
def writeField (f : Field) (vs : List Nat) : Bytes :=
  vs.flatMap fun v => writeVarint (f.num * 8 + f.ty.wire) ++ writeVal f.ty v

/-- `SerializeWithCachedSizes` (for example schema.pb.cc:2895-2928). -/
def serialize (lib : UnknownLib U) (S : Schema) (m : Msg U) : Bytes :=
  S.flatMap (fun f => writeField f (m.vals f.num)) ++ m.unknown.flatMap lib.enc

/-- One field in `ByteSize`: a byte of tag for every value. -/
def fieldSize (f : Field) (vs : List Nat) : Nat := 1 * vs.length + (vs.map (valSize f.ty)).sum

/-- `ByteSize` (for example schema.pb.cc:2968-3019), in `int`. -/
def byteSize (lib : UnknownLib U) (S : Schema) (m : Msg U) : Res Int := do
  let total ← S.foldlM (fun (t : Int) f => i32 (t + fieldSize f (m.vals f.num))) 0
  i32 (total + (m.unknown.map fun u => (lib.enc u).length).sum)

/-- One field in `MergeFrom`. -/
def mergeField (f : Field) (m src : Msg U) : Msg U :=
  if f.rep then m.add f.num (src.vals f.num)
  else match (src.vals f.num).getLast? with
    | some v => m.set f.num v
    | none => m

/-- `MergeFrom` (for example schema.pb.cc:3033-3047); the fields are independent. -/
def mergeFrom (S : Schema) (m src : Msg U) : Msg U :=
  let m' := S.foldl (fun m f => mergeField f m src) m
  { m' with unknown := m'.unknown ++ src.unknown }

/-- `CopyFrom` (for example schema.pb.cc:3055-3059). -/
def copyFrom (S : Schema) (src : Msg U) : Msg U := mergeFrom S .empty src

/-- `operator==` on messages (protobuf.hpp:81-89): equal serialisations. -/
def msgEq (lib : UnknownLib U) (S : Schema) (x y : Msg U) : Bool :=
  serialize lib S x == serialize lib S y

/-! ## Unknown fields -/

/-- What an unknown field holds, groups excepted. -/
inductive Data
  | varint (n : Fin (2 ^ 64))
  | fixed64 (b : {l : Bytes // l.length = 8})
  | bytes (b : {l : Bytes // l.length < 2 ^ 32})
  | fixed32 (b : {l : Bytes // l.length = 4})

def Data.wire : Data → Nat
  | .varint _ => 0
  | .fixed64 _ => 1
  | .bytes _ => 2
  | .fixed32 _ => 5

/-- An unknown field: number and data. -/
structure Plain where
  num : Nat
  pos : 0 < num
  lt : num < 2 ^ 29
  data : Data

/-- `UnknownFieldSet` with `WireFormat::SkipField` and `SerializeUnknownFields`, but that groups are
rejected. -/
def plainLib : UnknownLib Plain where
  tag u := u.num * 8 + u.data.wire
  body u := match u.data with
    | .varint n => writeVarint n
    | .fixed64 b => b
    | .bytes b => writeVarint b.1.length ++ b
    | .fixed32 b => b
  skip tag bs :=
    if h : 0 < tag / 8 ∧ tag / 8 < 2 ^ 29 then
      if tag % 8 = 0 then
        (readVarint bs).map fun (n, r) =>
          (⟨tag / 8, h.1, h.2, .varint ⟨n % 2 ^ 64, Nat.mod_lt _ (Nat.two_pow_pos 64)⟩⟩, r)
      else if tag % 8 = 1 then
        if hl : 8 ≤ bs.length then
          some (⟨tag / 8, h.1, h.2, .fixed64 ⟨bs.take 8, by simp [hl]⟩⟩, bs.drop 8)
        else none
      else if tag % 8 = 2 then
        (readVarint bs).bind fun (n, r) =>
          if n % 2 ^ 32 ≤ r.length then
            some (⟨tag / 8, h.1, h.2, .bytes ⟨r.take (n % 2 ^ 32),
              Nat.lt_of_le_of_lt (List.length_take_le _ _) (Nat.mod_lt _ (Nat.two_pow_pos 32))⟩⟩,
              r.drop (n % 2 ^ 32))
          else none
      else if tag % 8 = 5 then
        if hl : 4 ≤ bs.length then
          some (⟨tag / 8, h.1, h.2, .fixed32 ⟨bs.take 4, by simp [hl]⟩⟩, bs.drop 4)
        else none
      else none
    else none

/-! ## The classes -/

/-- `Clustering_PitmanYor` (schema.pb.cc:836-993). -/
def pitmanYor : Schema := [⟨1, .float, false⟩, ⟨2, .float, false⟩]

/-- `Clustering_LowEntropy` (schema.pb.cc:1077-1202). -/
def lowEntropy : Schema := [⟨1, .u64, false⟩]

/-- `BetaBernoulli_Shared` (schema.pb.cc:1551-1708). -/
def bbShared : Schema := [⟨1, .float, false⟩, ⟨2, .float, false⟩]

/-- `BetaBernoulli_Group` (schema.pb.cc:1795-1956). -/
def bbGroup : Schema := [⟨1, .u64, false⟩, ⟨2, .u64, false⟩]

/-- `DirichletDiscrete_Shared` (schema.pb.cc:2192-2319). -/
def ddShared : Schema := [⟨1, .float, true⟩]

/-- `DirichletDiscrete_Group` (schema.pb.cc:2399-2529). -/
def ddGroup : Schema := [⟨1, .u64, true⟩]

/-- `DirichletProcessDiscrete_Shared` (schema.pb.cc:2776-3065). -/
def dpdShared : Schema :=
  [⟨1, .float, false⟩, ⟨2, .float, false⟩, ⟨3, .u32, true⟩, ⟨4, .float, true⟩, ⟨5, .u64, true⟩]

/-- `DirichletProcessDiscrete_Group` (schema.pb.cc:3151-3326). -/
def dpdGroup : Schema := [⟨1, .u32, true⟩, ⟨2, .u64, true⟩]

/-- `PitmanYorProcessDiscrete_Shared` (schema.pb.cc:3569-3779). -/
def pypdShared : Schema := [⟨1, .float, false⟩, ⟨2, .float, true⟩, ⟨3, .u64, true⟩]

/-- `PitmanYorProcessDiscrete_Group` (schema.pb.cc:3863-4038). -/
def pypdGroup : Schema := [⟨1, .u32, true⟩, ⟨2, .u64, true⟩]

/-- `GammaPoisson_Shared` (schema.pb.cc:4280-4437). -/
def gpShared : Schema := [⟨1, .float, false⟩, ⟨2, .float, false⟩]

/-- `GammaPoisson_Group` (schema.pb.cc:4527-4722). -/
def gpGroup : Schema := [⟨1, .u64, false⟩, ⟨2, .u64, false⟩, ⟨3, .float, false⟩]

/-- `BetaNegativeBinomial_Shared` (schema.pb.cc:4968-5161). -/
def bnbShared : Schema := [⟨1, .float, false⟩, ⟨2, .float, false⟩, ⟨3, .u64, false⟩]

/-- `BetaNegativeBinomial_Group` (schema.pb.cc:5249-5410). -/
def bnbGroup : Schema := [⟨1, .u64, false⟩, ⟨2, .u64, false⟩]

/-- `NormalInverseChiSq_Shared` (schema.pb.cc:5658-5883). -/
def nichShared : Schema :=
  [⟨1, .float, false⟩, ⟨2, .float, false⟩, ⟨3, .float, false⟩, ⟨4, .float, false⟩]

/-- `NormalInverseChiSq_Group` (schema.pb.cc:5975-6168). -/
def nichGroup : Schema := [⟨1, .u64, false⟩, ⟨2, .float, false⟩, ⟨3, .float, false⟩]

/-- `NormalInverseWishart_Shared` (schema.pb.cc:6415-6657). -/
def niwShared : Schema :=
  [⟨1, .float, true⟩, ⟨2, .float, false⟩, ⟨3, .float, true⟩, ⟨4, .float, false⟩]

/-- `NormalInverseWishart_Group` (schema.pb.cc:6747-6956). -/
def niwGroup : Schema := [⟨1, .i32, false⟩, ⟨2, .float, true⟩, ⟨3, .float, true⟩]

/-- The outer classes `BetaBernoulli`, `DirichletDiscrete`, … have no fields of their own (for example
schema.pb.cc:2035-2114). -/
def outer : Schema := []

/-- All classes with scalar fields. -/
def schemas : List Schema :=
  [pitmanYor, lowEntropy, bbShared, bbGroup, ddShared, ddGroup, dpdShared, dpdGroup, pypdShared,
    pypdGroup, gpShared, gpGroup, bnbShared, bnbGroup, nichShared, nichGroup, niwShared, niwGroup, outer]

/-! ## `Clustering` -/

/-- The message `Clustering`: two optional messages. -/
@[ext] structure ClusteringMsg (U : Type) where
  py : Option (Msg U)
  le : Option (Msg U)
  unknown : List U

def ClusteringMsg.empty : ClusteringMsg U := ⟨none, none, []⟩

/-- `ReadMessageNoVirtual`: a length, then that many bytes merged into the message. -/
def readMessage (lib : UnknownLib U) (S : Schema) (m : Option (Msg U)) (bs : Bytes) :
    Option (Msg U × Bytes) :=
  (readVarint bs).bind fun (n, r) =>
    let len := n % 2 ^ 32
    if len ≤ r.length then
      (mergeFromBytes lib S (m.getD .empty) (r.take len)).map fun m' => (m', r.drop len)
    else none

/-- One round of `Clustering::MergePartialFromCodedStream` (schema.pb.cc:1300-1340). -/
def clusteringStep (lib : UnknownLib U) (m : ClusteringMsg U) (tag : Nat) (bs : Bytes) :
    Option (ClusteringMsg U × Bytes) :=
  if tag = 10 then (readMessage lib pitmanYor m.py bs).map fun (x, r) => ({ m with py := some x }, r)
  else if tag = 18 then
    (readMessage lib lowEntropy m.le bs).map fun (x, r) => ({ m with le := some x }, r)
  else if tag % 8 = 4 then none
  else (lib.skip tag bs).map fun (u, r) => ({ m with unknown := m.unknown ++ [u] }, r)

/-- `Clustering::MergePartialFromCodedStream` (schema.pb.cc:1296-1343). -/
def clusteringLoop (lib : UnknownLib U) : Nat → ClusteringMsg U → Bytes → Option (ClusteringMsg U)
  | 0, m, bs => if bs = [] then some m else none
  | f + 1, m, bs =>
    if bs = [] then some m
    else (readTag bs).bind fun (tag, r) =>
      if tag = 0 then none
      else (clusteringStep lib m tag r).bind fun (m', r') => clusteringLoop lib f m' r'

/-- `Clustering::IsInitialized` (schema.pb.cc:1455-1464). -/
def ClusteringMsg.isInitialized (m : ClusteringMsg U) : Bool :=
  (m.py.all fun x => decide (Wire.isInitialized pitmanYor x)) &&
    m.le.all fun x => decide (Wire.isInitialized lowEntropy x)

/-- `ParseFromString` for `Clustering`. -/
def clusteringParse (lib : UnknownLib U) (bs : Bytes) : Option (ClusteringMsg U) :=
  (clusteringLoop lib bs.length .empty bs).bind fun m => if m.isInitialized then some m else none

/-- `WriteMessage`: tag, length, bytes. -/
def writeMessage (lib : UnknownLib U) (S : Schema) (num : Nat) (m : Option (Msg U)) : Bytes :=
  match m with
  | none => []
  | some m =>
    let b := serialize lib S m
    writeVarint (num * 8 + 2) ++ writeVarint b.length ++ b

/-- `Clustering::SerializeWithCachedSizes` (schema.pb.cc:1345-1363). -/
def clusteringSerialize (lib : UnknownLib U) (m : ClusteringMsg U) : Bytes :=
  writeMessage lib pitmanYor 1 m.py ++ writeMessage lib lowEntropy 2 m.le ++ m.unknown.flatMap lib.enc

end Dist.Wire
