import Mathlib.Data.List.Basic
import Mathlib.Tactic.Ring
import Mathlib.Tactic.Linarith
import Verif.Model.VectorMath
import Verif.Base.XR

/-! # Loop lemmas for the vector kernels -/

namespace Dist

variable {S F : Type}

theorem forLoop_fold {α : Type} (body : Nat → S → Res S) (g : S → α → S) :
    ∀ (xs : List α) (i : Nat) (s : S),
      (∀ k x, xs[k]? = some x → ∀ s, body (i + k) s = .ok (g s x)) →
      forLoop body i xs.length s = .ok (xs.foldl g s)
  | [], _, _, _ => rfl
  | x :: xs, i, s, h => by
    have h0 := h 0 x rfl s
    rw [Nat.add_zero] at h0
    rw [List.length_cons, forLoop, h0, Res.ok_bind]
    refine forLoop_fold body g xs (i + 1) (g s x) ?_
    intro k y hk s
    have := h (k + 1) y hk s
    rwa [show i + (k + 1) = i + 1 + k by ring] at this

theorem forLoop_update (body : Nat → List F → Res (List F)) :
    ∀ (fs : List (F → F)) (zs pre rest : List F), fs.length = zs.length →
      (∀ k f, fs[k]? = some f → ∀ io z, io[pre.length + k]? = some z →
        body (pre.length + k) io = .ok (io.set (pre.length + k) (f z))) →
      forLoop body pre.length zs.length (pre ++ (zs ++ rest)) =
        .ok (pre ++ (List.zipWith (fun f z => f z) fs zs ++ rest))
  | [], [], _, _, _, _ => rfl
  | f :: fs, z :: zs, pre, rest, hl, h => by
    have h0 := h 0 f rfl (pre ++ (z :: zs ++ rest)) z (by simp)
    rw [List.length_cons, forLoop]
    rw [Nat.add_zero] at h0
    rw [h0, Res.ok_bind]
    have hset : (pre ++ (z :: zs ++ rest)).set pre.length (f z) =
        (pre ++ [f z]) ++ (zs ++ rest) := by
      rw [List.set_append_right _ _ (le_refl _)]; simp
    have := forLoop_update body fs zs (pre ++ [f z]) rest (by simpa using hl) (by
      intro k g hk io w hw
      have := h (k + 1) g hk io w
      simp only [List.length_append, List.length_cons, List.length_nil] at hw ⊢
      rw [show pre.length + (0 + 1) + k = pre.length + (k + 1) by ring] at hw ⊢
      exact this hw)
    rw [hset]
    simp only [List.length_append, List.length_cons, List.length_nil, Nat.zero_add] at this
    rw [this]
    simp

/-- In-place kernels, without a prefix. -/
theorem forLoop_update0 (body : Nat → List F → Res (List F)) (fs : List (F → F))
    (zs rest : List F) (hl : fs.length = zs.length)
    (h : ∀ k f, fs[k]? = some f → ∀ io z, io[k]? = some z →
        body k io = .ok (io.set k (f z))) :
    forLoop body 0 zs.length (zs ++ rest) =
        .ok (List.zipWith (fun f z => f z) fs zs ++ rest) := by
  have := forLoop_update body fs zs [] rest hl (by simpa using h)
  simpa using this

theorem getAt_append {α : Type} {xs rest : List α} {k : Nat} {x : α} (h : xs[k]? = some x) :
    getAt (xs ++ rest) k = .ok x := by
  rw [getAt_eq_ok, List.getElem?_append_left (List.getElem?_eq_some_iff.mp h).1, h]

theorem setAt_of_getElem? {α : Type} {io : List α} {k : Nat} {z y : α} (h : io[k]? = some z) :
    setAt io k y = .ok (io.set k y) := setAt_of (List.getElem?_eq_some_iff.mp h).1

theorem zipWith_map_apply {α β : Type} (g : α → β → β) (xs : List α) (zs : List β) :
    List.zipWith (fun f z => f z) (xs.map g) zs = List.zipWith (fun z x => g x z) zs xs := by
  rw [List.zipWith_map_left, List.zipWith_comm]

theorem zipWith_replicate_apply {β : Type} (g : β → β) (zs : List β) :
    List.zipWith (fun f z => f z) (List.replicate zs.length g) zs = zs.map g := by
  induction zs with
  | nil => rfl
  | cons z zs ih => simp [List.replicate_succ, ih]

/-- A failing iteration makes the loop fail. -/
theorem forLoop_ub (body : Nat → S → Res S) (P : Nat → S → Prop) :
    ∀ (n i : Nat) (s : S), P i s →
      (∀ i s, P i s → body i s = .ub ∨ ∃ s', body i s = .ok s' ∧ P (i + 1) s') →
      (∀ s, P (i + n) s → False) →
      forLoop body i n s = .ub
  | 0, i, s, hP, _, hend => absurd hP (by simpa using hend s)
  | n + 1, i, s, hP, hstep, hend => by
    rw [forLoop]
    rcases hstep i s hP with h | ⟨s', h, hP'⟩
    · rw [h]; rfl
    · rw [h, Res.ok_bind]
      exact forLoop_ub body P n (i + 1) s' hP' hstep (by
        intro s hs; exact hend s (by rwa [show i + (n + 1) = i + 1 + n by ring]))

end Dist
