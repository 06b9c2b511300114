import Verif.Model.PyIo
import Verif.Model.NICH

/-! # Class methods of the Python wrappers (distributions/mixins.py)

Every wrapper class inherits these methods; they use nothing but the constructor and the methods of the
class, which are parameters here.  `new` is the object the constructor makes.  An exception in a class
method discards the object, so the outcome is a `Res`. -/

namespace Dist.Py

variable {S R M V : Type}

/-- `cls()`, one call on the new object, and the object. -/
def onNew (new : S) (call : Act S Unit) : Res S := (call new).res fun s _ => s

/-- `ProtobufSerializable.to_protobuf(raw, message)` (distributions/mixins.py:62-66). -/
def toProtobuf (new : S) (load : R → Act S Unit) (pbDump : S → M → Res M) (raw : R) (message : M) :
    Res M := do
  let model ← onNew new (load raw)
  pbDump model message

/-- `ProtobufSerializable.from_protobuf(message)` (distributions/mixins.py:68-72). -/
def fromProtobuf (new : S) (pbLoad : M → Act S Unit) (dump : S → Res R) (message : M) : Res R := do
  let model ← onNew new (pbLoad message)
  dump model

/-- `GroupIoMixin.from_dict(raw)` and `SharedIoMixin.from_dict(raw)` (distributions/mixins.py:92-96,
99-104). -/
def fromDict (new : S) (load : R → Act S Unit) (raw : R) : Res S := onNew new (load raw)

/-- The loop of `GroupIoMixin.from_values` (distributions/mixins.py:88-89). -/
def addValues (add : V → Act S Unit) : List V → Act S Unit
  | [] => pure ()
  | v :: vs => do
    add v
    addValues add vs

/-- `GroupIoMixin.from_values(model, values)` (distributions/mixins.py:84-90). -/
def fromValues (new : S) (init : Act S Unit) (add : V → Act S Unit) (values : List V) : Res S :=
  onNew new do
    init
    addValues add values

/-- `Group.init` of a model whose groups hold scalars only: the C++ `init`
(distributions/lp/models/_bb.pyx:46-47, _gp.pyx:46-47, _bnb.pyx:46-47, _nich.pyx:46-47). -/
def initTo (g : S) : Act S Unit := Act.modify fun _ => g

/-- `Group.add_value` through a C++ function whose failure is the end of the program
(distributions/lp/models/_bb.pyx:49-50, _nich.pyx:49-50). -/
def addBy (add : S → V → Res S) (v : V) : Act S Unit := do
  let g ← Act.get
  let g ← Act.lift (add g v)
  Act.modify fun _ => g

/-- A Python integer passed as `Value`, a C `int` (distributions/lp/models/_gp_h.pxd:35, _bnb_h.pxd:35,
_dd_h.pxd:35). -/
def intArg (f : Int → Act S Unit) (v : Int) : Act S Unit := do
  let v ← Act.lift (asInt v)
  f v

/-- `Group.add_value` of Gamma-Poisson and Beta-Negative-Binomial: the `int` becomes a `uint32_t`
(distributions/lp/models/_gp.pyx:49-50, _bnb.pyx:49-50; gp.hpp:41, bnb.hpp:41). -/
def addCount (add : S → UInt32 → S) (v : Int) : Act S Unit :=
  intArg (fun v => Act.modify fun g => add g (toU32 v)) v

end Dist.Py
