import Mathlib.Tactic.Common
import Mathlib.Tactic.SplitIfs

/-!
# Outcomes of modelled C++ calls

`Res α` is the outcome of a modelled call:
* `ok a`  the call returns `a`;
* `fail`  a `DIST_ASSERT*`/`DIST_ERROR` fired (`abort()` or a thrown
  `std::runtime_error`, include/distributions/common.hpp:50-107);
* `ub`    the C++ standard leaves the behaviour undefined (out-of-range
  `operator[]`, signed overflow, dereferencing `end()`, reading an
  uninitialised member).
-/

namespace Dist

inductive Res (α : Type) : Type where
  | ok (a : α)
  | fail
  | ub
deriving DecidableEq, Repr

namespace Res

variable {α β γ : Type}

/-- Sequencing: a failure or undefined behaviour ends the call. -/
@[inline] def bind : Res α → (α → Res β) → Res β
  | ok a, f => f a
  | fail, _ => fail
  | ub, _ => ub

instance : Monad Res where
  pure := ok
  bind := bind

@[simp] theorem pure_eq (a : α) : (pure a : Res α) = ok a := rfl
@[simp] theorem ok_bind (a : α) (f : α → Res β) : (ok a >>= f) = f a := rfl
@[simp] theorem fail_bind (f : α → Res β) : ((fail : Res α) >>= f) = fail := rfl
@[simp] theorem ub_bind (f : α → Res β) : ((ub : Res α) >>= f) = ub := rfl

@[simp] theorem map_ok (f : α → β) (a : α) : (f <$> (ok a : Res α)) = ok (f a) := rfl
@[simp] theorem map_fail (f : α → β) : (f <$> (fail : Res α)) = fail := rfl
@[simp] theorem map_ub (f : α → β) : (f <$> (ub : Res α)) = ub := rfl

instance : LawfulMonad Res := LawfulMonad.mk'
  (id_map := by intro α x; cases x <;> rfl)
  (pure_bind := by intros; rfl)
  (bind_assoc := by intro α β γ x f g; cases x <;> rfl)

theorem bind_eq_ok {x : Res α} {f : α → Res β} {b : β} :
    (x >>= f) = ok b ↔ ∃ a, x = ok a ∧ f a = ok b := by
  cases x <;> simp

/-- The call did not run into undefined behaviour. -/
def Safe (x : Res α) : Prop := x ≠ ub

@[simp] theorem safe_ok (a : α) : Safe (ok a) := by simp [Safe]
@[simp] theorem safe_fail : Safe (fail : Res α) := by simp [Safe]
@[simp] theorem not_safe_ub : ¬ Safe (ub : Res α) := by simp [Safe]

theorem safe_bind {x : Res α} {f : α → Res β} (hx : Safe x)
    (hf : ∀ a, x = ok a → Safe (f a)) : Safe (x >>= f) := by
  cases x with
  | ok a => exact hf a rfl
  | fail => simp
  | ub => exact absurd hx not_safe_ub

end Res

/-- `DIST_ASSERT_(level, cond, msg)` (include/distributions/common.hpp:102-107):
checked only when `DIST_DEBUG_LEVEL >= level`.  `lvl` is `DIST_DEBUG_LEVEL`
(0 in Release, 3 in Debug and Python builds: CMakeLists.txt:33-35, setup.py:65). -/
def distAssert (lvl level : Nat) (cond : Prop) [Decidable cond] : Res Unit :=
  if level ≤ lvl ∧ ¬ cond then .fail else .ok ()

/-- Unconditional `DIST_ASSERT` (common.hpp:76): level 0. -/
abbrev distAssert0 (cond : Prop) [Decidable cond] : Res Unit := distAssert 0 0 cond

@[simp] theorem distAssert_of {lvl level : Nat} {cond : Prop} [Decidable cond] (h : cond) :
    distAssert lvl level cond = .ok () := by simp [distAssert, h]

@[simp] theorem distAssert0_of {cond : Prop} [Decidable cond] (h : cond) :
    distAssert0 cond = .ok () := distAssert_of h

theorem distAssert0_of_not {cond : Prop} [Decidable cond] (h : ¬ cond) :
    distAssert0 cond = .fail := by simp [distAssert, h]

theorem distAssert_of_lt {lvl level : Nat} {cond : Prop} [Decidable cond] (h : lvl < level) :
    distAssert lvl level cond = .ok () := by simp [distAssert, Nat.not_le.mpr h]

theorem distAssert_of_not {lvl level : Nat} {cond : Prop} [Decidable cond] (hl : level ≤ lvl)
    (h : ¬ cond) : distAssert lvl level cond = .fail := by simp [distAssert, h, hl]

theorem distAssert_eq_ok {lvl level : Nat} {cond : Prop} [Decidable cond] {u : Unit} :
    distAssert lvl level cond = .ok u ↔ (level ≤ lvl → cond) := by
  unfold distAssert; split_ifs with h
  · simp; exact h
  · simp; tauto

theorem distAssert_safe {lvl level : Nat} {cond : Prop} [Decidable cond] :
    (distAssert lvl level cond).Safe := by
  unfold distAssert; split_ifs <;> simp

/-- Smallest and largest values of `int`/`int32_t`. -/
def int32Min : Int := -2147483648
def int32Max : Int := 2147483647

def InInt32 (x : Int) : Prop := int32Min ≤ x ∧ x ≤ int32Max

instance (x : Int) : Decidable (InInt32 x) := by unfold InInt32; infer_instance

/-- Result of a signed 32-bit addition/subtraction whose exact value is `x`:
signed overflow is undefined behaviour. -/
def i32 (x : Int) : Res Int := if InInt32 x then .ok x else .ub

@[simp] theorem i32_of {x : Int} (h : InInt32 x) : i32 x = .ok x := by simp [i32, h]
theorem i32_eq_ok {x y : Int} : i32 x = .ok y ↔ InInt32 x ∧ x = y := by
  unfold i32; split_ifs with h <;> simp [h]

/-- `v[i]` read on a `std::vector`: undefined when out of range. -/
def getAt {α : Type} (l : List α) (i : Nat) : Res α :=
  match l[i]? with
  | some a => .ok a
  | none => .ub

/-- `v[i] = a` on a `std::vector`: undefined when out of range. -/
def setAt {α : Type} (l : List α) (i : Nat) (a : α) : Res (List α) :=
  if i < l.length then .ok (l.set i a) else .ub

/-- `v.back()`: undefined on an empty vector. -/
def backOf {α : Type} (l : List α) : Res α :=
  match l.getLast? with
  | some a => .ok a
  | none => .ub

/-- `v.pop_back()`: undefined on an empty vector. -/
def popBack {α : Type} (l : List α) : Res (List α) :=
  if l.isEmpty then .ub else .ok l.dropLast

section
variable {α : Type} {l : List α} {i : Nat}

@[simp] theorem getAt_of (h : i < l.length) : getAt l i = .ok l[i] := by
  simp [getAt, h]
theorem getAt_of_ge (h : l.length ≤ i) : getAt l i = .ub := by
  simp [getAt, h]
theorem getAt_eq_ok {a : α} : getAt l i = .ok a ↔ l[i]? = some a := by
  unfold getAt; cases l[i]? <;> simp
@[simp] theorem setAt_of {a : α} (h : i < l.length) : setAt l i a = .ok (l.set i a) := by
  simp [setAt, h]
theorem setAt_of_ge {a : α} (h : l.length ≤ i) : setAt l i a = .ub := by
  simp [setAt, Nat.not_lt.mpr h]
theorem setAt_eq_ok {a : α} {l' : List α} :
    setAt l i a = .ok l' ↔ i < l.length ∧ l' = l.set i a := by
  unfold setAt; split_ifs with h <;> simp [h, eq_comm]
@[simp] theorem backOf_of (h : l ≠ []) : backOf l = .ok (l.getLast h) := by
  simp [backOf, List.getLast?_eq_some_getLast h]
@[simp] theorem popBack_of (h : l ≠ []) : popBack l = .ok l.dropLast := by
  simp [popBack, h]
@[simp] theorem popBack_nil : popBack ([] : List α) = .ub := by simp [popBack]
@[simp] theorem backOf_nil : backOf ([] : List α) = .ub := by simp [backOf]
end

end Dist
