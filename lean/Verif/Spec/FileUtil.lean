import Verif.Model.FileUtil

/-! # What is asked of the context managers -/

namespace Dist.Spec.FileUtil

open Dist.FileUtil

/-- There is a directory at `p`. -/
def IsDir (w : World) (p : Path) : Prop := w.node p = some .dir

/-- The names given for temporary directories are new: nothing is there or below. -/
def Fresh (fresh : World → Option Path) : Prop :=
  ∀ w p, fresh w = some p → ∀ q, w.node (p ++ q) = none

/-- The file system without `p` and what is below. -/
def without (p : Path) (w : World) : Path → Option Node := fun q => if p <+: q then none else w.node q

/-- Programs that write files and use both context managers, nested at will. -/
inductive Script
  | done
  | raise
  | write (name : Path) (content : List UInt8) (next : Script)
  | chdir (t : Target) (body next : Script)
  | tempdir (cleanupOnError : Bool) (body next : Script)

/-- `open(name, 'w')` and writing: the directory must be there, and the name not that of a
directory. -/
def write (name : Path) (content : List UInt8) : Act World Unit := fun w =>
  let p := w.cwd ++ name
  if w.node p.dropLast = some .dir ∧ w.node p ≠ some .dir then
    .ok { w with node := Function.update w.node p (some (.file content)) } ()
  else .fail w

/-- Run a program. -/
def Script.run (fresh : World → Option Path) : Script → Act World Unit
  | .done => return ()
  | .raise => fun w => .fail w
  | .write name content next => do FileUtil.write name content; next.run fresh
  | .chdir t body next => do Dist.FileUtil.chdir t (body.run fresh); next.run fresh
  | .tempdir c body next => do
    Dist.FileUtil.tempdir fresh c fun _ => body.run fresh
    next.run fresh

/-- All temporary directories of the program are removed also after an exception. -/
def Script.Cleans : Script → Prop
  | .done => True
  | .raise => True
  | .write _ _ next => next.Cleans
  | .chdir _ body next => body.Cleans ∧ next.Cleans
  | .tempdir c body next => c = true ∧ body.Cleans ∧ next.Cleans

end Dist.Spec.FileUtil
