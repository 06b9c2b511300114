import Mathlib.Algebra.BigOperators.Group.Finset.Basic
import Mathlib.Algebra.BigOperators.GroupWithZero.Action
import Mathlib.Algebra.Module.BigOperators
import Verif.Spec.Features

/-! # Generic facts about histories of calls on one group -/

namespace Dist.Spec

open FloatNotation

variable {G V : Type}

theorem runGroup_summarises [DecidableEq V] {ops : GroupOps G V} {S : G → Multiset V → Prop}
    (hS : Summarises ops S) : ∀ (h : List (ValueOp V)) (g : G) (M : Multiset V), S g M →
      ValidValues M h → ∃ g', runGroup ops g h = .ok g' ∧ S g' (contents M h)
  | [], g, M, hg, _ => ⟨g, rfl, hg⟩
  | .add v :: h, g, M, hg, hv => by
    obtain ⟨g1, e, h1⟩ := hS.add g M v hg hv.1
    obtain ⟨g2, e2, h2⟩ := runGroup_summarises hS h g1 _ h1 hv.2
    exact ⟨g2, by simp [runGroup, e, e2], h2⟩
  | .remove v :: h, g, M, hg, hv => by
    obtain ⟨g1, e, h1⟩ := hS.remove g M v hg hv.1
    obtain ⟨g2, e2, h2⟩ := runGroup_summarises hS h g1 _ h1 hv.2
    exact ⟨g2, by simp [runGroup, e, e2], h2⟩

theorem addAll_eq_runGroup (ops : GroupOps G V) (g : G) (xs : List V) :
    addAll ops g xs = runGroup ops g (xs.map .add) := by
  induction xs generalizing g with
  | nil => rfl
  | cons v vs ih => simp only [addAll, List.map_cons, runGroup]; congr 1; funext g; exact ih g

theorem contents_adds [DecidableEq V] (M : Multiset V) (xs : List V) :
    contents M (xs.map .add) = (xs : Multiset V) + M := by
  induction xs generalizing M with
  | nil => simp [contents]
  | cons v vs ih =>
    simp only [List.map_cons, contents, ih, ← Multiset.cons_coe, Multiset.cons_add,
      Multiset.add_cons]

theorem validValues_adds [DecidableEq V] (M : Multiset V) (xs : List V)
    (h : M.card + xs.length ≤ 2147483647) : ValidValues M (xs.map .add) := by
  induction xs generalizing M with
  | nil => trivial
  | cons v vs ih =>
    simp only [List.length_cons] at h
    exact ⟨by omega, ih _ (by simp; omega)⟩

theorem addAll_summarises [DecidableEq V] {ops : GroupOps G V} {S : G → Multiset V → Prop}
    (hS : Summarises ops S) (xs : List V) (hx : xs.length ≤ 2147483647) :
    ∃ g, addAll ops ops.init xs = .ok g ∧ S g xs := by
  obtain ⟨g, e, h⟩ := runGroup_summarises hS (xs.map .add) ops.init 0 hS.init
    (validValues_adds 0 xs (by simpa using hx))
  refine ⟨g, by rw [addAll_eq_runGroup, e], ?_⟩
  rw [contents_adds] at h; simpa using h

theorem addAll_append (ops : GroupOps G V) (g : G) (xs ys : List V) :
    addAll ops g (xs ++ ys) = addAll ops g xs >>= fun g => addAll ops g ys := by
  induction xs generalizing g with
  | nil => rfl
  | cons v vs ih =>
    simp only [List.cons_append, addAll, ih, bind_assoc]

/-- From the one-step chain rule to the chain rule for whole data sets; the one-step
rule is only needed for parts of the data set. -/
theorem sequential_of_step_le {F : Type} [FloatOps F] [DecidableEq V] {ops : GroupOps G V}
    {S : G → Multiset V → Prop} (hS : Summarises ops S) (score : G → V → Res F) (data : G → F)
    (xs : List V) (hl : xs.length ≤ 2147483647)
    (hstep : ∀ g M v g', S g M → (v ::ₘ M) ≤ (xs : Multiset V) → ops.add g v = .ok g' →
      ∃ s, score g v = .ok s ∧ data g' = data g + s) :
    ∃ g, addAll ops ops.init xs = .ok g ∧
      sequentialScore ops score ops.init xs (data ops.init) = .ok (data g) ∧ S g xs := by
  have main : ∀ (ys : List V) (M : Multiset V) (g : G), M.card + ys.length ≤ 2147483647 →
      ys + M ≤ (xs : Multiset V) → S g M →
      ∃ g', addAll ops g ys = .ok g' ∧ sequentialScore ops score g ys (data g) = .ok (data g') ∧
        S g' (ys + M) := by
    intro ys
    induction ys with
    | nil => intro M g _ _ h; exact ⟨g, rfl, rfl, by simpa using h⟩
    | cons v vs ih =>
      intro M g hlen hle hg
      simp only [List.length_cons] at hlen
      have hle' : (vs : Multiset V) + (v ::ₘ M) ≤ xs := by
        rw [Multiset.add_cons]; rwa [← Multiset.cons_coe, Multiset.cons_add] at hle
      obtain ⟨g1, e1, h1⟩ := hS.add g M v hg (by omega)
      obtain ⟨s, es, hs⟩ := hstep g M v g1 hg ((Multiset.le_add_left _ _).trans hle') e1
      obtain ⟨g2, e2, e3, h2⟩ := ih (v ::ₘ M) g1 (by simp; omega) hle' h1
      refine ⟨g2, by simp [addAll, e1, e2], ?_, ?_⟩
      · simp only [sequentialScore, es, Res.ok_bind, e1, ← hs, e3]
      · rw [Multiset.add_cons] at h2
        rw [← Multiset.cons_coe, Multiset.cons_add]; exact h2
  obtain ⟨g, h1, h2, h3⟩ := main xs 0 ops.init (by simpa using hl) (by simp) hS.init
  exact ⟨g, h1, h2, by simpa using h3⟩

/-- From the one-step chain rule to the chain rule for whole data sets. -/
theorem sequential_of_step {F : Type} [FloatOps F] [DecidableEq V] {ops : GroupOps G V}
    {S : G → Multiset V → Prop} (hS : Summarises ops S) (score : G → V → Res F) (data : G → F)
    (hstep : ∀ g M v g', S g M → ops.add g v = .ok g' →
      ∃ s, score g v = .ok s ∧ data g' = data g + s)
    (xs : List V) (hl : xs.length ≤ 2147483647) :
    ∃ g, addAll ops ops.init xs = .ok g ∧
      sequentialScore ops score ops.init xs (data ops.init) = .ok (data g) ∧ S g xs :=
  sequential_of_step_le hS score data xs hl fun g M v g' h _ he => hstep g M v g' h he

/-- Signed sum over a history. -/
def signedSum {A : Type} [AddCommGroup A] (f : V → A) : List (ValueOp V) → A
  | [] => 0
  | .add v :: h => f v + signedSum f h
  | .remove v :: h => -f v + signedSum f h

/-- The values mentioned in a history. -/
def mentioned : List (ValueOp V) → List V
  | [] => []
  | .add v :: h => v :: mentioned h
  | .remove v :: h => v :: mentioned h

theorem signedSum_eq [DecidableEq V] {A : Type} [AddCommGroup A] (f : V → A)
    (h : List (ValueOp V)) (s : Finset V) (hs : ∀ v ∈ mentioned h, v ∈ s) :
    signedSum f h = ∑ v ∈ s, net h v • f v := by
  induction h with
  | nil => simp [signedSum, net]
  | cons op h ih =>
    have key : ∀ (c : Int) (w : V), w ∈ s → c • f w + ∑ v ∈ s, net h v • f v =
        ∑ v ∈ s, ((if w = v then c else 0) + net h v) • f v := by
      intro c w hw
      simp only [add_smul, Finset.sum_add_distrib]
      congr 1
      rw [Finset.sum_eq_single w]
      · simp
      · intro b _ hb; simp [Ne.symm hb]
      · intro h; exact absurd hw h
    cases op with
    | add w =>
      have hs' : ∀ v ∈ mentioned h, v ∈ s := fun v hv => hs v (by simp [mentioned, hv])
      have hw : w ∈ s := hs w (by simp [mentioned])
      simp only [signedSum, net, ih hs', ← key 1 w hw, one_smul]
    | remove w =>
      have hs' : ∀ v ∈ mentioned h, v ∈ s := fun v hv => hs v (by simp [mentioned, hv])
      have hw : w ∈ s := hs w (by simp [mentioned])
      simp only [signedSum, net, ih hs', ← key (-1) w hw, neg_smul, one_smul]

/-- A signed sum only depends on the net counts. -/
theorem signedSum_congr [DecidableEq V] {A : Type} [AddCommGroup A] (f : V → A)
    {h₁ h₂ : List (ValueOp V)} (hn : ∀ v, net h₁ v = net h₂ v) :
    signedSum f h₁ = signedSum f h₂ := by
  classical
  let s := (mentioned h₁ ++ mentioned h₂).toFinset
  rw [signedSum_eq f h₁ s (by intro v hv; simp [s, hv]),
    signedSum_eq f h₂ s (by intro v hv; simp [s, hv])]
  simp [hn]

/-- The net count of a valid history started from nothing is the multiplicity. -/
theorem count_contents [DecidableEq V] (h : List (ValueOp V)) (M : Multiset V)
    (hv : ValidValues M h) (v : V) : ((contents M h).count v : Int) = M.count v + net h v := by
  induction h generalizing M with
  | nil => simp [contents, net]
  | cons op h ih =>
    cases op with
    | add w =>
      rw [contents, ih _ hv.2, net, Multiset.count_cons]
      by_cases e : w = v
      · subst e; simp; ring
      · have e' : ¬ v = w := fun h => e h.symm
        simp [e, e']
    | remove w =>
      rw [contents, ih _ hv.2, net]
      by_cases e : w = v
      · subst e
        rw [Multiset.count_erase_self]
        have : 0 < M.count w := Multiset.count_pos.mpr hv.1
        simp; omega
      · rw [Multiset.count_erase_of_ne (Ne.symm e)]; simp [e]

theorem net_append [DecidableEq V] (h₁ h₂ : List (ValueOp V)) (v : V) :
    net (h₁ ++ h₂) v = net h₁ v + net h₂ v := by
  induction h₁ with
  | nil => simp [net]
  | cons op h ih => cases op <;> simp [net, ih] <;> ring

theorem abs_net_le [DecidableEq V] (h : List (ValueOp V)) (v : V) : |net h v| ≤ h.length := by
  induction h with
  | nil => simp [net]
  | cons op h ih =>
    have hi := abs_le.mp ih
    cases op <;> simp only [net, List.length_cons] <;> rw [abs_le] <;> split_ifs <;>
      push_cast <;> omega

theorem signedSum_append {A : Type} [AddCommGroup A] (f : V → A) (h₁ h₂ : List (ValueOp V)) :
    signedSum f (h₁ ++ h₂) = signedSum f h₁ + signedSum f h₂ := by
  induction h₁ with
  | nil => simp [signedSum]
  | cons op h ih => cases op <;> simp [signedSum, ih, add_assoc]

theorem net_adds [DecidableEq V] (xs : List V) (v : V) :
    net (xs.map .add) v = (xs.count v : Int) := by
  induction xs with
  | nil => simp [net]
  | cons w ws ih =>
    simp only [List.map_cons, net, ih, List.count_cons, beq_iff_eq]
    split_ifs <;> push_cast <;> ring

theorem net_perm [DecidableEq V] {xs ys : List V} (hp : xs.Perm ys) (v : V) :
    net (xs.map .add) v = net (ys.map .add) v := by
  rw [net_adds, net_adds, hp.count_eq]

end Dist.Spec
