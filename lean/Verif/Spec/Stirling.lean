import Verif.Model.Stirling

/-! # Call histories of the Stirling table -/

namespace Dist.Stirling

/-- A sequence of calls `get_log_stirling1_row(n, result)`; each with the former content of its
result vector.  Gives the final cache. -/
def calls {F : Type} [FloatOps F] (L : Lib F) (ns : List (Nat × List F))
    (cache : List (List F)) : Res (List (List F)) :=
  ns.foldlM (fun cache c => do let r ← getRow L c.1 cache c.2; return r.1) cache

/-- States reachable from process start by any interleaving. -/
inductive Reach {F : Type} [FloatOps F] (L : Lib F) : Sys F → Prop
  | start : Reach L Sys.start
  | step {s s' : Sys F} : Reach L s → Step L s s' → Reach L s'

end Dist.Stirling
