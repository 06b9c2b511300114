import Verif.Base.Res
import Mathlib.Data.List.DropRight
import Mathlib.Logic.Function.Basic

/-!
# The licence tool (update_license.py)

Files are lists of characters.  Reading gives lines that end after a newline; Python's `rstrip` removes the
six ASCII white-space characters.  The directory walk is a list of directories, each with the components of its path
and the names of its files.
-/

namespace Dist.License

abbrev Text := List Char

/-- `SYMBOLS` (update_license.py:34-38). -/
def symbols : List (Text × List Text) :=
  [("//".toList, [".c", ".cc", ".cpp", ".h", ".hpp", ".proto"].map String.toList),
   ("#".toList, [".py", ".pxd", ".pyx"].map String.toList),
   ("%".toList, [".tex"].map String.toList)]

/-- `extensions` (update_license.py:39). -/
def extensions : List Text := symbols.flatMap Prod.snd

/-- `SYMBOL_OF` (update_license.py:40-44). -/
def symbolOf : List (Text × Text) := symbols.flatMap fun p => p.2.map fun e => (e, p.1)

/-- `dir_blacklist` (update_license.py:46-50). -/
def dirBlacklist : List Text := [".git", "vendor", "doc"].map String.toList

/-- `file_blacklist` (update_license.py:52-57): the patterns are endings, the last one is a name. -/
def blacklisted (name : Text) : Bool :=
  ([".pb.h", ".pb.cc", "_pb2.py"].map String.toList).any (fun p => p.isSuffixOf name) ||
    name == "test_headers.cc".toList

/-- `os.path.join(root, filename)`, with `root` the components joined by slashes. -/
def path (root : List Text) (name : Text) : Text := (root.flatMap fun d => d ++ ['/']) ++ name

/-- `FILES` (update_license.py:59-66) before `sorted`. -/
def files (walk : List (List Text × List Text)) : List Text :=
  walk.flatMap fun p =>
    if dirBlacklist.any fun d => p.1.contains d then []
    else extensions.flatMap fun e =>
      ((p.2.filter fun name => e.isSuffixOf name).filter fun name => !blacklisted name).map (path p.1)

/-- `str.rstrip()`. -/
def isSpace (c : Char) : Bool := [' ', '\t', '\n', '\r', '\x0b', '\x0c'].contains c

def rstrip (l : Text) : Text := l.rdropWhile isSpace

/-- `for line in f`. -/
def linesOf : Text → List Text
  | [] => []
  | c :: cs =>
    if c = '\n' then [c] :: linesOf cs
    else match linesOf cs with
      | [] => [[c]]
      | l :: ls => (c :: l) :: ls

/-- `LICENSE` (update_license.py:68-71). -/
def license (text : Text) : List Text := (linesOf text).map rstrip

/-- `HEADERS[symbol]` (update_license.py:73-76). -/
def header (license : List Text) (symbol : Text) : List Text :=
  license.map fun line => if line ≠ [] then symbol ++ ' ' :: line else symbol

/-- `re.search('\.[^.]*$', filename).group()` (update_license.py:89): from the last dot on; without a dot the
result of `search` has no `group`. -/
def extension (name : Text) : Res Text :=
  if '.' ∈ name then .ok ('.' :: name.rtakeWhile fun c => c ≠ '.') else .fail

/-- `SYMBOL_OF[extension]` (update_license.py:90, 126). -/
def symbolFor (ext : Text) : Res Text :=
  match symbolOf.lookup ext with
  | some s => .ok s
  | none => .fail

/-- The loop of `read_and_strip_lines` (update_license.py:94-99), with its variable `writing`. -/
def stripLoop (symbol : Text) : Bool → List Text → List Text
  | _, [] => []
  | writing, line :: lines =>
    let line := rstrip line
    let writing := if !writing && line ≠ [] && !symbol.isPrefixOf line then true else writing
    if writing then line :: stripLoop symbol writing lines else stripLoop symbol writing lines

/-- `read_and_strip_lines` (update_license.py:88-100). -/
def readAndStripLines (name content : Text) : Res (List Text) := do
  let ext ← extension name
  let symbol ← symbolFor ext
  return stripLoop symbol false (linesOf content)

/-- `write_lines` (update_license.py:103-106). -/
def writeLines (lines : List Text) : Text := lines.flatMap fun l => l ++ ['\n']

/-- The body of the loop of `strip` (update_license.py:114-116): the new content of a file. -/
def stripFile (name content : Text) : Res Text := do
  let lines ← readAndStripLines name content
  return writeLines lines

/-- The body of the loop of `update` (update_license.py:124-131); a file that is not written keeps its content. -/
def updateFile (license : List Text) (name content : Text) : Res Text := do
  let ext ← extension name
  let symbol ← symbolFor ext
  let lines ← readAndStripLines name content
  match lines with
  | [] => return content
  | first :: _ =>
    if first ≠ [] then
      let lines := if ext = ".py".toList ∧ "class ".toList.isPrefixOf first then [] :: lines else lines
      return writeLines (header license symbol ++ [[]] ++ lines)
    else return content

/-- The loops over `FILES` (update_license.py:114, 124) on the contents of the files. -/
def overFiles (f : Text → Text → Res Text) : List Text → (Text → Text) → Res (Text → Text)
  | [], fs => .ok fs
  | name :: names, fs => do
    let content ← f name (fs name)
    overFiles f names (Function.update fs name content)

end Dist.License
