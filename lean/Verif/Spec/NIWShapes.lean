import Verif.Model.NIWShapes

/-! # Sizes that fit (C93) -/

namespace Dist.NIW.Dyn

variable {F : Type} {d : Nat}

/-- A vector of known dimension as a vector with a size. -/
def DVec.of (v : Vec F d) : DVec F := ⟨d, v⟩

/-- A square matrix of known dimension as a matrix with sizes. -/
def DMat.of (m : Mat F d) : DMat F := ⟨d, d, m⟩

def Shared.of (sh : NIW.Shared F d) : Shared F := ⟨.of sh.mu, sh.kappa, .of sh.psi, sh.nu⟩

def Group.of (g : NIW.Group F d) : Group F := ⟨g.count, .of g.sumX, .of g.sumXXT⟩

/-- The statistics have dimension `n`. -/
def Group.HasDim (n : Nat) (g : Group F) : Prop :=
  g.sumX.size = n ∧ g.sumXXT.rows = n ∧ g.sumXXT.cols = n

/-- The parameters have one dimension. -/
def Shared.Square (sh : Shared F) : Prop := sh.psi.rows = sh.dim ∧ sh.psi.cols = sh.dim

/-- The count after a call. -/
def Update.countAfter (count : Int) : Update F → Int
  | .add _ => count + 1
  | .addRepeated _ n => count + n
  | .remove _ => count - 1
  | .merge g => count + g.count

/-- The argument of a call has dimension `n`. -/
def Update.HasDim (n : Nat) : Update F → Prop
  | .add v | .addRepeated v _ | .remove v => v.size = n
  | .merge g => g.HasDim n

/-- The call takes a value, not a group. -/
def Update.takesValue : Update F → Bool
  | .merge _ => false
  | _ => true

end Dist.NIW.Dyn
