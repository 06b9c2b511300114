import Verif.Base.Act

/-! # What it means for `load` and `dump` to be inverse -/

namespace Dist.Spec

/-- Loading what `dump` wrote restores the dumped object, whatever the object loaded into
held before. -/
def RoundTrips {S R : Type} (load : R → Act S Unit) (dump : S → R) (valid : S → Prop) : Prop :=
  ∀ s old, valid s → load (dump s) old = .ok s ()

/-- The same through a message, whatever the message held before. -/
def MessageRoundTrips {S M : Type} (load : M → Act S Unit) (dump : S → M → Res M)
    (valid : S → Prop) : Prop :=
  ∀ s old before, valid s → ∃ msg, dump s before = .ok msg ∧ load msg old = .ok s ()

/-- `load` accepts exactly the dictionaries in `accepts`, raising an exception on the
others, and `dump` then returns the dictionary with every entry converted by `norm`. -/
def LoadsAs {S R : Type} (load : R → Act S Unit) (dump : S → R) (norm : R → R)
    (accepts : R → Prop) : Prop :=
  ∀ raw old, (accepts raw → ∃ s, load raw old = .ok s () ∧ dump s = norm raw) ∧
    (¬ accepts raw → ∃ s, load raw old = .fail s)

end Dist.Spec
