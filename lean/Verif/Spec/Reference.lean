import Verif.Base.Res

/-! # Vocabulary for comparing two implementations of the same model -/

namespace Dist.Spec

/-- How a client made a group. -/
inductive History (V : Type) where
  | init
  | add (h : History V) (v : V)
  | remove (h : History V) (v : V)
  | repeated (h : History V) (v : V) (n : Int)
  | merge (h source : History V)

/-- The group operations of one implementation. -/
structure GroupApi (G V : Type) where
  init : G
  add : G → V → Res G
  remove : G → V → Res G
  repeated : G → V → Int → Res G
  merge : G → G → Res G

/-- The group an implementation makes. -/
def History.run {G V : Type} (api : GroupApi G V) : History V → Res G
  | .init => .ok api.init
  | .add h v => do
    let g ← h.run api
    api.add g v
  | .remove h v => do
    let g ← h.run api
    api.remove g v
  | .repeated h v n => do
    let g ← h.run api
    api.repeated g v n
  | .merge h source => do
    let g ← h.run api
    let s ← source.run api
    api.merge g s

/-- No merges. -/
def History.Linear {V : Type} : History V → Prop
  | .init => True
  | .add h _ => h.Linear
  | .remove h _ => h.Linear
  | .repeated h _ _ => h.Linear
  | .merge _ _ => False

/-- Every count of a repeated addition satisfies `P`. -/
def History.Counts {V : Type} (P : Int → Prop) : History V → Prop
  | .init => True
  | .add h _ => h.Counts P
  | .remove h _ => h.Counts P
  | .repeated h _ n => h.Counts P ∧ P n
  | .merge h source => h.Counts P ∧ source.Counts P

end Dist.Spec
