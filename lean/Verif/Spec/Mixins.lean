import Verif.Model.Mixins

/-! # What the class methods of the Python wrappers are for -/

namespace Dist.Spec

open Py

/-- A dictionary sent through a message: exactly the dictionaries in `accepts` can be written to a message,
whatever it held before, and reading the message gives the dictionary with every entry converted by `norm`.
Others raise.  The objects used on the way, `a` and `b`, may hold anything. -/
def PassesThrough {S R M : Type} (load : R → Act S Unit) (dump : S → Res R) (pbLoad : M → Act S Unit)
    (pbDump : S → M → Res M) (norm : R → R) (accepts : R → Prop) (new : S → Prop) : Prop :=
  ∀ a b, new a → new b → ∀ raw before,
    (accepts raw → ∃ msg, toProtobuf a load pbDump raw before = .ok msg ∧
      fromProtobuf b pbLoad dump msg = .ok (norm raw)) ∧
    (¬ accepts raw → toProtobuf a load pbDump raw before = .fail)

end Dist.Spec
