import Verif.Base.Act

/-! # Directories (distributions/fileutil.py, examples/mixture/main.py)

The file system is a map from absolute paths to nodes.  A directory is known by its path, so that a
removed and recreated directory is the same one; links and permissions are not modelled, and printing
succeeds. -/

namespace Dist.FileUtil

/-- An absolute path: the names from the root on. -/
abbrev Path := List String

/-- What is at a path. -/
inductive Node
  | dir
  | file (content : List UInt8)
  deriving DecidableEq

/-- The file system and the working directory of the process. -/
structure World where
  node : Path → Option Node
  cwd : Path

/-- A path as it is given to `os.chdir`. -/
inductive Target
  | abs (p : Path)
  | rel (p : Path)

/-- The path meant in a working directory. -/
def Target.resolve (cwd : Path) : Target → Path
  | .abs p => p
  | .rel p => cwd ++ p

/-- `os.getcwd()`: `OSError` once the directory is gone. -/
def getcwd : Act World Path := fun w =>
  if w.node w.cwd = some .dir then .ok w w.cwd else .fail w

/-- `os.chdir(t)`: `OSError` unless it is a directory. -/
def osChdir (t : Target) : Act World Unit := fun w =>
  if w.node (t.resolve w.cwd) = some .dir then .ok { w with cwd := t.resolve w.cwd } () else .fail w

/-- `shutil.rmtree(p)`: `OSError` unless it is a directory. -/
def rmtree (p : Path) : Act World Unit := fun w =>
  if w.node p = some .dir then .ok { w with node := fun q => if p <+: q then none else w.node q } ()
  else .fail w

/-- `tempfile.mkdtemp()`: makes the directory named by `fresh`, or raises when it finds no name. -/
def mkdtemp (fresh : World → Option Path) : Act World Path := fun w =>
  match fresh w with
  | some p => .ok { w with node := Function.update w.node p (some .dir) } p
  | none => .fail w

/-- `try: x finally: f`; `f` is told whether `x` completed.  An exception in `f` replaces that of
`x`. -/
def withFinally {σ α : Type} (x : Act σ α) (f : Bool → Act σ Unit) : Act σ α := fun s =>
  match x s with
  | .ok s a =>
    match f true s with
    | .ok s () => .ok s a
    | .fail s => .fail s
    | .ub => .ub
  | .fail s =>
    match f false s with
    | .ok s () => .fail s
    | .fail s => .fail s
    | .ub => .ub
  | .ub => .ub

variable {α : Type}

/-- `with chdir(wd): body` (distributions/fileutil.py:34-43). -/
def chdir (wd : Target) (body : Act World α) : Act World α := do
  let oldwd ← getcwd
  withFinally (do osChdir wd; body) fun _ => osChdir (.abs oldwd)

/-- `with tempdir(cleanup_on_error) as wd: body` (distributions/fileutil.py:46-59): the variable is
`True` in the `finally` block if the body completed. -/
def tempdir (fresh : World → Option Path) (cleanupOnError : Bool) (body : Path → Act World α) :
    Act World α := do
  let oldwd ← getcwd
  let wd ← mkdtemp fresh
  withFinally (do osChdir (.abs wd); body wd) fun completed => do
    osChdir (.abs oldwd)
    if cleanupOnError || completed then rmtree wd

/-! ## The directories of the example -/

/-- `os.makedirs(p)`: makes the missing directories on the way; `OSError` if something is at `p`, or if
a file is on the way. -/
def makedirs (p : Path) : Act World Unit := fun w =>
  if w.node p ≠ none ∨ ∃ q ∈ p.inits, w.node q ≠ none ∧ w.node q ≠ some .dir then .fail w
  else .ok { w with node := fun q => if q <+: p then some .dir else w.node q } ()

/-- The loop run at import (examples/mixture/main.py:54-56). -/
def setup : List Path → Act World Unit
  | [] => return ()
  | p :: ps => do
    let w ← Act.get
    if w.node p = none then makedirs p
    setup ps

/-- `clean()` (examples/mixture/main.py:348-354). -/
def clean : List Path → Act World Unit
  | [] => return ()
  | p :: ps => do
    let w ← Act.get
    if w.node p = none then rmtree p
    clean ps

end Dist.FileUtil
