import Verif.Base.Res

/-!
# Item streams (distributions/io/stream.py)

A file is the list of its bytes; compression (`open_compressed`) is transparent.  An item of
a protobuf stream is a byte string, an item of a JSON stream is the text `simplejson` writes
for it.
-/

namespace Dist.Stream

abbrev Bytes := List UInt8

/-! ## Length-prefixed items -/

/-- `struct.pack('<I', n)`: little endian, raises `struct.error` beyond 32 bits. -/
def pack32 (n : Nat) : Res Bytes :=
  if n < 2 ^ 32 then
    .ok [UInt8.ofNat (n % 256), UInt8.ofNat (n / 256 % 256), UInt8.ofNat (n / 65536 % 256),
      UInt8.ofNat (n / 16777216)]
  else .fail

/-- `struct.unpack('<I', s)[0]` on four bytes. -/
def unpack32 (a b c d : UInt8) : Nat :=
  a.toNat + 256 * b.toNat + 65536 * c.toNat + 16777216 * d.toNat

/-- `protobuf_stream_write` (stream.py:141-144): appends to what was written before. -/
def write (fd : Bytes) (item : Bytes) : Res Bytes := do
  let header ← pack32 item.length
  return fd ++ header ++ item

/-- `protobuf_stream_dump` (stream.py:155-158). -/
def dump (items : List Bytes) : Res Bytes := items.foldlM write []

/-- `protobuf_stream_read` (stream.py:147-152): `none` is `StopIteration`.  `fd.read(size)`
returns what is left if that is less than `size`. -/
def read (fd : Bytes) : Option (Bytes × Bytes) :=
  match fd with
  | a :: b :: c :: d :: rest =>
    let size := unpack32 a b c d
    some (rest.take size, rest.drop size)
  | _ => none

/-- Iterating over `protobuf_stream_load` (stream.py:161-172) to the end. -/
def load (fd : Bytes) : List Bytes :=
  match h : read fd with
  | none => []
  | some (item, rest) => item :: load rest
termination_by fd.length
decreasing_by
  unfold read at h
  split at h
  · injection h with h
    injection h with h1 h2
    subst h2
    simp only [List.length_drop, List.length_cons]
    omega
  · cases h

/-! ## JSON streams -/

/-- `json_stream_dump` (stream.py:68-82), and `json_costream_dump` (stream.py:85-99), which
writes the same text. -/
def jsonDump (items : List (List Char)) : List Char :=
  match items with
  | [] => ['[', '\n', ']']
  | item :: rest =>
    '[' :: '\n' :: item ++ (rest.flatMap fun i => ',' :: '\n' :: i) ++ ['\n', ']']

/-- `fd.readline()`: up to and including the next newline. -/
def readLine : List Char → List Char × List Char
  | [] => ([], [])
  | c :: cs => if c = '\n' then ([c], cs) else
      let (line, rest) := readLine cs
      (c :: line, rest)

/-- `str.rstrip(',\n')`. -/
def rstrip (s : List Char) : List Char :=
  (s.reverse.dropWhile fun c => c = ',' ∨ c = '\n').reverse

theorem readLine_length (c : Char) (cs : List Char) :
    (readLine (c :: cs)).2.length < (c :: cs).length := by
  induction cs generalizing c with
  | nil => unfold readLine; split_ifs <;> simp [readLine]
  | cons d ds ih =>
    rw [readLine]
    split_ifs
    · simp
    · have := ih d
      simp only [List.length_cons] at *
      omega

/-- `json_stream_load.next` until `StopIteration` (stream.py:129-135): the text of each item.
At the end of the file without a closing bracket `simplejson.loads('')` raises. -/
def jsonItems (fd : List Char) : Res (List (List Char)) :=
  match fd with
  | [] => .fail
  | c :: cs =>
    let line := rstrip (readLine (c :: cs)).1
    if line = [']'] then .ok []
    else do
      let rest ← jsonItems (readLine (c :: cs)).2
      return line :: rest
termination_by fd.length
decreasing_by exact readLine_length c cs

/-- `json_stream_load(filename)` (stream.py:102-138): the constructor checks the first line
with `readline(2)`. -/
def jsonLoad (fd : List Char) : Res (List (List Char)) :=
  match fd with
  | '[' :: '\n' :: rest => jsonItems rest
  | _ => .fail

end Dist.Stream
