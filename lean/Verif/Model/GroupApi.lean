import Verif.Model.Dbg
import Verif.Spec.Reference

/-! # The group operations of both implementations, for `Spec.History`

Models whose values are `uint32_t` in C++ take the same number as a Python `int`.  For the
dictionaries of DPD the two implementations may iterate in different orders. -/

namespace Dist

open FloatOps Spec

variable {F : Type} [FloatOps F]

/-- bb.hpp:95-130. -/
def BB.api : GroupApi BB.Group Bool :=
  ⟨.init, BB.Group.addValue, BB.Group.removeValue, BB.Group.addRepeatedValue, BB.Group.merge⟩

/-- distributions/dbg/models/bb.py:76-100. -/
def Dbg.BB.api : GroupApi Dbg.BB.Group Bool :=
  ⟨.init, fun g v => .ok (g.addValue v), fun g v => .ok (g.removeValue v),
    fun g v n => .ok (g.addRepeatedValue v n), fun g s => .ok (g.merge s)⟩

/-- dd.hpp:113-158. -/
def DD.api (lvl dim : Nat) : GroupApi DD.Group Int :=
  ⟨.init dim, DD.Group.addValue lvl, DD.Group.removeValue lvl, DD.Group.addRepeatedValue lvl,
    DD.Group.merge⟩

/-- distributions/dbg/models/dd.py:79-92. -/
def Dbg.DD.api (dim : Nat) : GroupApi (List Int) Int :=
  ⟨init dim, addValue, removeValue, addRepeatedValue, merge⟩

/-- gp.hpp:103-144. -/
def GP.api : GroupApi (GP.Group F) UInt32 :=
  ⟨.init, fun g v => .ok (g.addValue v), fun g v => .ok (g.removeValue v),
    fun g v n => .ok (g.addRepeatedValue v n), fun g s => .ok (g.merge s)⟩

/-- distributions/dbg/models/gp.py:80-103. -/
def Dbg.GP.api : GroupApi (Dbg.GP.Group F) UInt32 :=
  ⟨.init, fun g v => g.addValue v.toNat, fun g v => g.removeValue v.toNat,
    fun g v n => g.addRepeatedValue v.toNat n, fun g s => .ok (g.merge s)⟩

/-- bnb.hpp:105-141. -/
def BNB.api : GroupApi BNB.Group UInt32 :=
  ⟨.init, fun g v => .ok (g.addValue v), fun g v => .ok (g.removeValue v),
    fun g v n => .ok (g.addRepeatedValue v n), fun g s => .ok (g.merge s)⟩

/-- distributions/dbg/models/bnb.py:101-119. -/
def Dbg.BNB.api : GroupApi Dbg.BNB.Group UInt32 :=
  ⟨.init, fun g v => .ok (g.addValue v.toNat), fun g v => .ok (g.removeValue v.toNat),
    fun g v n => .ok (g.addRepeatedValue v.toNat n), fun g s => .ok (g.merge s)⟩

/-- nich.hpp:117-179. -/
def NICH.api : GroupApi (NICH.Group F) F :=
  ⟨.init, NICH.Group.addValue, NICH.Group.removeValue, NICH.Group.addRepeatedValue,
    NICH.Group.merge⟩

/-- distributions/dbg/models/nich.py:129-167. -/
def Dbg.NICH.api : GroupApi (Dist.NICH.Group F) F :=
  ⟨init, addValue, fun g v => .ok (removeValue g v), addRepeatedValue, merge⟩

/-- dpd.hpp:182-221; `ord` is the iteration order of the hash table. -/
def DPD.api (lvl : Nat) (sh : DPD.Shared F) (ord : FMap UInt32 Int → List UInt32) :
    GroupApi DPD.Group UInt32 :=
  ⟨.init .raw, DPD.Group.addValue lvl sh, DPD.Group.removeValue lvl sh,
    DPD.Group.addRepeatedValue lvl sh, fun g s => DPD.Group.merge g s (ord s.map)⟩

/-- distributions/dbg/models/dpd.py:173-195 and 229-232; `ord` is the iteration order of the
dictionary. -/
def Dbg.DPD.api (sh : Dist.DPD.Shared F) (ord : FMap UInt32 Int → List UInt32) :
    GroupApi Dbg.DPD.Group UInt32 :=
  ⟨.init, fun g v => g.addRepeatedValue sh.betas v 1, fun g v => g.addRepeatedValue sh.betas v (-1),
    Dbg.DPD.Group.addRepeatedValue sh.betas, fun g s => g.merge sh.betas s (ord s.counts)⟩

/-- niw.hpp:236-285, for positive dimension. -/
def NIW.api (d : Nat) : GroupApi (NIW.Group F d) (NIW.Vec F d) :=
  ⟨⟨0, fun _ => ofInt 0, fun _ _ => ofInt 0⟩, NIW.Group.addValue, NIW.Group.removeValue,
    NIW.Group.addRepeatedValue, NIW.Group.merge⟩

/-- distributions/dbg/models/niw.py:167-190. -/
def Dbg.NIW.api (d : Nat) : GroupApi (Dist.NIW.Group F d) (Dist.NIW.Vec F d) :=
  ⟨init, fun g v => .ok (addValue g v), fun g v => .ok (removeValue g v),
    fun g v n => .ok (addRepeatedValue g v n), fun g s => .ok (merge g s)⟩

end Dist
