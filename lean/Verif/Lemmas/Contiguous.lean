import Mathlib.Data.List.Dedup
import Mathlib.Data.List.Perm.Basic
import Mathlib.Data.Finset.Card
import Mathlib.Data.Finset.Range
import Verif.Spec.Clustering

namespace Dist.Spec

theorem contiguous_nil : Contiguous [] := by intro i x h; simp at h

theorem contiguous_append_singleton {a : List Nat} {x : Nat} :
    Contiguous (a ++ [x]) ↔ Contiguous a ∧ ∀ y, y < x → y ∈ a := by
  constructor
  · intro h
    constructor
    · intro i z hi y hy
      have hlt : i < a.length := (List.getElem?_eq_some_iff.mp hi).1
      have := h i z (by rw [List.getElem?_append_left hlt]; exact hi) y hy
      rwa [List.take_append_of_le_length (by omega)] at this
    · intro y hy
      have := h a.length x (by simp) y hy
      simpa using this
  · rintro ⟨h1, h2⟩ i z hi y hy
    rcases Nat.lt_trichotomy i a.length with hlt | heq | hgt
    · rw [List.getElem?_append_left hlt] at hi
      rw [List.take_append_of_le_length (by omega)]
      exact h1 i z hi y hy
    · subst heq
      simp at hi
      subst hi
      simpa using h2 y hy
    · rw [List.getElem?_eq_none (by simp; omega)] at hi
      cases hi

/-- The ids used by a contiguous vector are `0, …, k-1`. -/
theorem Contiguous.exists_bound {a : List Nat} (h : Contiguous a) :
    ∃ k, ∀ y, y ∈ a ↔ y < k := by
  induction a using List.reverseRecOn with
  | nil => exact ⟨0, by simp⟩
  | append_singleton a x ih =>
    rw [contiguous_append_singleton] at h
    obtain ⟨k, hk⟩ := ih h.1
    have hx : x ≤ k := by
      by_contra hc
      have := (hk k).mp (h.2 k (by omega))
      omega
    rcases Nat.eq_or_lt_of_le hx with he | hl
    · refine ⟨k + 1, fun y => ?_⟩
      rw [List.mem_append, hk, List.mem_singleton]; omega
    · refine ⟨k, fun y => ?_⟩
      rw [List.mem_append, hk, List.mem_singleton]; omega

theorem contiguous_append_of_bound {a : List Nat} {k x : Nat} (hk : ∀ y, y ∈ a ↔ y < k) :
    Contiguous (a ++ [x]) ↔ Contiguous a ∧ x ≤ k := by
  rw [contiguous_append_singleton]
  refine and_congr_right fun _ => ⟨fun h => ?_, fun h y hy => (hk y).mpr (by omega)⟩
  by_contra hc
  have := (hk k).mp (h k (by omega))
  omega

theorem toFinset_of_bound {a : List Nat} {k : Nat} (hk : ∀ y, y ∈ a ↔ y < k) :
    a.toFinset = Finset.range k := by ext y; simp [hk]

theorem dedup_perm_range {a : List Nat} {k : Nat} (hk : ∀ y, y ∈ a ↔ y < k) :
    a.dedup.Perm (List.range k) := by
  rw [List.perm_ext_iff_of_nodup (List.nodup_dedup a) List.nodup_range]
  intro y; simp [hk]

end Dist.Spec
