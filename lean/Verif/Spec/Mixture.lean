import Verif.Model.Mixture
import Verif.Spec.Driver

/-! # Specification of a feature mixture as a list of groups

No caches: what a history of calls means for the groups. -/

namespace Dist.Spec

variable {S G V F : Type}

/-- A client's call on a feature mixture. -/
inductive MixOp (V : Type) where
  /-- `init`: rebuild the caches from the groups -/
  | init
  | addGroup
  | removeGroup (i : Nat)
  | add (i : Nat) (v : V)
  | remove (i : Nat) (v : V)

/-- Effect of a call on the list of groups; `none` if the call is illegal (no such
group, or the group operation itself fails). -/
def MixOp.groups (ops : GroupOps G V) (gs : List G) : MixOp V → Option (List G)
  | .init => some gs
  | .addGroup => some (gs ++ [ops.init])
  | .removeGroup i => if i < gs.length then some (swapRemove gs i) else none
  | .add i v =>
    match gs[i]? with
    | none => none
    | some g =>
      match ops.add g v with
      | .ok g' => some (gs.set i g')
      | _ => none
  | .remove i v =>
    match gs[i]? with
    | none => none
    | some g =>
      match ops.remove g v with
      | .ok g' => some (gs.set i g')
      | _ => none

/-- Effect of a history on the groups. -/
def groupsAfter (ops : GroupOps G V) : List G → List (MixOp V) → Option (List G)
  | gs, [] => some gs
  | gs, op :: h =>
    match op.groups ops gs with
    | some gs' => groupsAfter ops gs' h
    | none => none

/-- The same history on the mixture object. -/
def runMixture (lvl : Nat) (ops : GroupOps G V) (vs : ValueScorerOps S G V F) :
    MixtureSlave S G → List (MixOp V) → Res (MixtureSlave S G)
  | m, [] => .ok m
  | m, op :: h => do
    let m ← (match op with
      | .init => m.init vs
      | .addGroup => m.addGroup lvl ops vs
      | .removeGroup i => m.removeGroup lvl vs i
      | .add i v => m.addValue lvl ops vs i v
      | .remove i v => m.removeValue lvl ops vs i v : Res (MixtureSlave S G))
    runMixture lvl ops vs m h

/-- The mixture scores value `v` coherently with its groups: `score_value_group` is the
given score of each group, and `score_value` adds exactly those numbers to the entries
of any accumulator of the right length. -/
def ScoresLike [FloatOps F] (lvl : Nat) (vs : ValueScorerOps S G V F) (m : MixtureSlave S G)
    (v : V) (score : G → F) : Prop :=
  (∀ i g, m.groups[i]? = some g → m.scoreValueGroup lvl vs i v = .ok (score g)) ∧
  ∀ accum : List F, accum.length = m.groups.length →
    m.scoreValue lvl vs v accum =
      .ok (List.zipWith (fun a g => FloatOps.add a (score g)) accum m.groups)

end Dist.Spec
