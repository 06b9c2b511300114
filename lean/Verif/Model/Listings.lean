import Verif.Base.Res

/-! # Generated text and listings (derivations/clustering.py, distributions/__main__.py)

Text is a list of characters.  What `'%0.8f' % number` writes is a parameter. -/

namespace Dist.Listings

variable {α : Type}

/-- The loop of `number_table` (derivations/clustering.py:662-668) from number `i` on: `lines` and
`line` after it.  A `width` of zero is a `ZeroDivisionError`. -/
def numberLoop (fmt : α → List Char) (width : Nat) :
    Nat → List α → List (List Char) → List Char → Res (List (List Char) × List Char)
  | _, [], lines, line => .ok (lines, line)
  | i, x :: xs, lines, line =>
    if width = 0 then .fail
    else if i % width = 0 then
      let lines := if line ≠ [] then lines ++ [line ++ [',']] else lines
      numberLoop fmt width (i + 1) xs lines ([' ', ' ', ' ', ' '] ++ fmt x)
    else numberLoop fmt width (i + 1) xs lines (line ++ ([',', ' '] ++ fmt x))

/-- `number_table` (derivations/clustering.py:659-671). -/
def numberTable (fmt : α → List Char) (numbers : List α) (width : Nat) : Res (List Char) := do
  let (lines, line) ← numberLoop fmt width 0 numbers [] []
  let lines := if line ≠ [] then lines ++ [line] else lines
  return ['\n'].intercalate lines

/-- A model that can be imported, as `list_models` gives it (distributions/tests/util.py:68-74). -/
structure Entry where
  flavor : String
  name : String
  deriving DecidableEq

/-- `table[key].append(value)` on a `defaultdict` of lists. -/
def push (table : List (String × List String)) (key value : String) : List (String × List String) :=
  match table with
  | [] => [(key, [value])]
  | (k, vs) :: rest => if k = key then (k, vs ++ [value]) :: rest else (k, vs) :: push rest key value

/-- `sorted` on strings. -/
def sort (l : List String) : List String := l.mergeSort (· ≤ ·)

/-- The entry of a dictionary. -/
def lookup (table : List (String × List String)) (key : String) : List String :=
  match table with
  | [] => []
  | (k, vs) :: rest => if k = key then vs else lookup rest key

/-- The lines printed from the dictionary. -/
def rows (table : List (String × List String)) : List (String × List String) :=
  (sort (table.map (·.1))).map fun k => (k, sort (lookup table k))

/-- `flavors_by_model` (distributions/__main__.py:33-42): the models and their flavors, as printed. -/
def flavorsByModel (models : List Entry) : List (String × List String) :=
  rows (models.foldl (fun t e => push t e.name e.flavor) [])

/-- `models_by_flavor` (distributions/__main__.py:45-54). -/
def modelsByFlavor (models : List Entry) : List (String × List String) :=
  rows (models.foldl (fun t e => push t e.flavor e.name) [])

end Dist.Listings
