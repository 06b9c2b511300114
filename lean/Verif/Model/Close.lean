import Verif.Model.Protobuf

/-!
# Closeness of messages (include/distributions/assert_close.hpp, io/protobuf.hpp)
-/

namespace Dist.Proto

open FloatOps FloatNotation

variable {F : Type} [FloatOps F]

/-- `fabs`. -/
def fabs (x : F) : F := if lt x (ofInt 0) then -x else x

/-- `are_close` on `float` and `double` (assert_close.hpp:47-55), tolerance `1e-1f`. -/
def closeF (x y : F) : Bool :=
  le (fabs (x - y)) ((ofInt 1 + fabs x + fabs y) * lit 1 10)

/-- The loop of `are_close` on vectors (assert_close.hpp:64-68) and repeated fields
(io/protobuf.hpp:173-177), once the sizes are known to agree. -/
def closeLoop {α : Type} (close : α → α → Bool) : List α → List α → Bool
  | x :: xs, y :: ys => if close x y then closeLoop close xs ys else false
  | _, _ => true

/-- `are_close` on vectors (assert_close.hpp:57-70) and repeated fields
(include/distributions/io/protobuf.hpp:166-179). -/
def closeList {α : Type} (close : α → α → Bool) (xs ys : List α) : Bool :=
  if xs.length ≠ ys.length then false else closeLoop close xs ys

/-- `are_close` on pairs (assert_close.hpp:72-78). -/
def closePair {α β : Type} (c1 : α → α → Bool) (c2 : β → β → Bool) (x y : α × β) : Bool :=
  c1 x.1 y.1 && c2 x.2 y.2

/-- io/protobuf.hpp:149-155 -/
def closeBBShared (x y : BBSharedMsg F) : Bool := closeF x.alpha y.alpha && closeF x.beta y.beta

/-- io/protobuf.hpp:157-164 -/
def closeBNBShared (x y : BNBSharedMsg F) : Bool :=
  closeF x.alpha y.alpha && closeF x.beta y.beta && decide (x.r = y.r)

/-- io/protobuf.hpp:181-186 -/
def closeDDShared (x y : DDSharedMsg F) : Bool := closeList closeF x.alphas y.alphas

/-- The pairs `(values(i), field(i))` (io/protobuf.hpp:216-221, 240-245).  Reading a repeated field
past its end is undefined. -/
def zipField {α : Type} (keys : List UInt32) (field : List α) : Res (List (UInt32 × α)) :=
  if keys.length ≤ field.length then .ok (keys.zip field) else .ub

/-- io/protobuf.hpp:188-228.  `sort1` and `sort2` are `std::sort` on the two kinds of pairs. -/
def closeDPDShared (sort1 : List (UInt32 × F) → List (UInt32 × F))
    (sort2 : List (UInt32 × UInt64) → List (UInt32 × UInt64)) (x y : DPDSharedMsg F) :
    Res Bool :=
  if !closeF x.gamma y.gamma || !closeF x.alpha y.alpha then .ok false
  else if x.values.length ≠ y.values.length then .ok false
  else do
    let x1 ← zipField x.values x.betas
    let y1 ← zipField y.values y.betas
    let x2 ← zipField x.values x.counts
    let y2 ← zipField y.values y.counts
    return closeList (closePair (fun a b : UInt32 => decide (a = b)) closeF) (sort1 x1) (sort1 y1)
      && decide (sort2 x2 = sort2 y2)

/-- io/protobuf.hpp:230-249.  The pairs hold `uint32_t`, so a count is truncated to 32 bits. -/
def closeDPDGroup (sort : List (UInt32 × UInt32) → List (UInt32 × UInt32))
    (x y : DPDGroupMsg) : Res Bool :=
  if x.keys.length ≠ y.keys.length then .ok false
  else do
    let x1 ← zipField x.keys (x.values.map UInt64.toUInt32)
    let y1 ← zipField y.keys (y.values.map UInt64.toUInt32)
    return decide (sort x1 = sort y1)

/-- io/protobuf.hpp:251-257 -/
def closeGPShared (x y : GPSharedMsg F) : Bool :=
  closeF x.alpha y.alpha && closeF x.invBeta y.invBeta

/-- io/protobuf.hpp:259-266: `log_prod` is not compared. -/
def closeGPGroup (x y : GPGroupMsg F) : Bool := decide (x.count = y.count) && decide (x.sum = y.sum)

/-- io/protobuf.hpp:268-276 -/
def closeNICHShared (x y : NICHSharedMsg F) : Bool :=
  closeF x.mu y.mu && closeF x.kappa y.kappa && closeF x.sigmasq y.sigmasq && closeF x.nu y.nu

/-- io/protobuf.hpp:278-285 -/
def closeNICHGroup (x y : NICHGroupMsg F) : Bool :=
  decide (x.count = y.count) && closeF x.mean y.mean &&
    closeF x.countTimesVariance y.countTimesVariance

/-- io/protobuf.hpp:287-295 -/
def closeNIWShared (x y : NIWSharedMsg F) : Bool :=
  closeList closeF x.mu y.mu && closeF x.kappa y.kappa && closeList closeF x.psi y.psi &&
    closeF x.nu y.nu

/-- io/protobuf.hpp:297-304 -/
def closeNIWGroup (x y : NIWGroupMsg F) : Bool :=
  decide (x.count = y.count) && closeList closeF x.sumX y.sumX && closeList closeF x.sumXXT y.sumXXT

end Dist.Proto
