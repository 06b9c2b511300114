import Verif.Base.Res

/-! # Outcomes that keep the state of a failed call

`Res` forgets what a call did before it failed.  When `DIST_THROW_ON_ERROR` is defined
(include/distributions/common.hpp:50-58) a failed check throws, the caller may catch the
exception, and the object stays as the statements before the check left it.  `Out σ α`
is the outcome of a call on an object of type `σ`: on failure it carries that object.
Undefined behaviour still leaves nothing to talk about. -/

namespace Dist

inductive Out (σ α : Type) : Type where
  | ok (s : σ) (a : α)
  | fail (s : σ)
  | ub

/-- A member function that changes an object of type `σ` and returns an `α`. -/
def Act (σ α : Type) : Type := σ → Out σ α

namespace Out

/-- Forget the object of a failed call; `k` arranges object and return value. -/
def res {σ α β : Type} (k : σ → α → β) : Out σ α → Res β
  | .ok s a => .ok (k s a)
  | .fail _ => .fail
  | .ub => .ub

end Out

namespace Act

variable {σ τ α β : Type}

instance : Monad (Act σ) where
  pure a := fun s => .ok s a
  bind x f := fun s =>
    match x s with
    | .ok s a => f a s
    | .fail s => .fail s
    | .ub => .ub

/-- A computation that does not change the object. -/
def lift (r : Res α) : Act σ α := fun s =>
  match r with
  | .ok a => .ok s a
  | .fail => .fail s
  | .ub => .ub

/-- The current object. -/
def get : Act σ σ := fun s => .ok s s

/-- Assignments to the object. -/
def modify (f : σ → σ) : Act σ Unit := fun s => .ok (f s) ()

/-- `DIST_ASSERT_(level, cond, msg)` (common.hpp:102-107). -/
def check (lvl level : Nat) (cond : Prop) [Decidable cond] : Act σ Unit :=
  lift (distAssert lvl level cond)

/-- Call a member function of a member: `view` reads it, `put` writes it back. -/
def onMember (view : σ → τ) (put : τ → σ → σ) (x : Act τ α) : Act σ α := fun s =>
  match x (view s) with
  | .ok t a => .ok (put t s) a
  | .fail t => .fail (put t s)
  | .ub => .ub

/-- Call a member function of `v[i]`; undefined out of range. -/
def onElement (i : Nat) (x : Act τ α) : Act (List τ) α := fun l =>
  match l[i]? with
  | none => .ub
  | some t =>
    match x t with
    | .ok t a => .ok (l.set i t) a
    | .fail t => .fail (l.set i t)
    | .ub => .ub

end Act

end Dist
