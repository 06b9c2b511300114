import Verif.Model.DbgIo
import Verif.Spec.PyIo

/-! # What writing a message and reading it back should do -/

namespace Dist.Spec

open Dist.Py (Conv)

/-- Objects in `valid` can be written to any message, and any object that reads the message
becomes the written one with its numbers rounded by `round`. -/
def WritesAs {S T M : Type} (load : M → Act T Unit) (dump : S → Act M Unit) (round : S → T)
    (valid : S → Prop) : Prop :=
  ∀ s before old, valid s → ∃ msg, dump s before = .ok msg () ∧ load msg old = .ok (round s) ()

/-- A Python float after it has been in a message. -/
def single {D G : Type} (c : Conv D G) (x : D) : D := c.widen (c.narrow x)

/-- A number that fits an unsigned field of 64 bits. -/
def FitsU64 (z : Int) : Prop := 0 ≤ z ∧ z < 18446744073709551616

end Dist.Spec
