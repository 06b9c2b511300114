import Mathlib.Order.Partition.Finpartition
import Mathlib.Algebra.BigOperators.Ring.Finset
import Mathlib.Algebra.BigOperators.Group.Finset.Powerset
import Mathlib.Algebra.BigOperators.Fin
import Mathlib.Data.Finset.Powerset
import Mathlib.Algebra.Order.BigOperators.Group.Finset

/-! # Sums over all set partitions

`partSum w s` is the sum over all partitions of `s` of the product of `w` of the block sizes.
It satisfies the recurrence that splits off the block of one element. -/

namespace Dist

open Finset

variable {α : Type*} [DecidableEq α]

/-- The sum over all partitions of `s` of the product of `w (block size)`. -/
def partSum (w : ℕ → ℕ) (s : Finset α) : ℕ :=
  ∑ P : Finpartition s, ∏ b ∈ P.parts, w b.card

theorem partSum_empty (w : ℕ → ℕ) : partSum w (∅ : Finset α) = 1 := by
  unfold partSum
  have h : ∀ P : Finpartition (∅ : Finset α), P.parts = ∅ := by
    intro P
    by_contra hne
    obtain ⟨b, hb⟩ := Finset.nonempty_iff_ne_empty.mpr hne
    have h1 := P.le hb
    have : b = ⊥ := by simpa using h1
    exact P.bot_notMem (this ▸ hb)
  have : (univ : Finset (Finpartition (∅ : Finset α))) = {Finpartition.empty _} := by
    ext P
    simp only [mem_univ, mem_singleton, true_iff]
    ext1
    rw [h P]
    rfl
  rw [this, sum_singleton, h, prod_empty]

/-- The partition of `insert a s` whose block of `a` is `insert a u`. -/
def joinPart {a : α} {s : Finset α} (ha : a ∉ s) (u : Finset α) (hu : u ⊆ s)
    (Q : Finpartition (s \ u)) : Finpartition (insert a s) :=
  Q.extend (b := insert a u) (c := insert a s) (by simp)
    (by
      rw [Finset.disjoint_left]
      intro x hx hx'
      rw [mem_sdiff] at hx
      rcases mem_insert.mp hx' with rfl | h
      · exact ha hx.1
      · exact hx.2 h)
    (by
      ext x
      simp only [sup_eq_union, mem_union, mem_sdiff, mem_insert]
      constructor
      · rintro (h | h | h)
        · exact Or.inr h.1
        · exact Or.inl h
        · exact Or.inr (hu h)
      · rintro (h | h)
        · exact Or.inr (Or.inl h)
        · by_cases hx : x ∈ u
          · exact Or.inr (Or.inr hx)
          · exact Or.inl ⟨h, hx⟩)

theorem joinPart_parts {a : α} {s : Finset α} (ha : a ∉ s) (u : Finset α) (hu : u ⊆ s)
    (Q : Finpartition (s \ u)) : (joinPart ha u hu Q).parts = insert (insert a u) Q.parts := rfl

theorem notMem_parts {a : α} {s : Finset α} (ha : a ∉ s) (u v : Finset α)
    (Q : Finpartition (s \ u)) : insert a v ∉ Q.parts := by
  intro h
  have := Q.le h (mem_insert_self a v)
  exact ha (mem_sdiff.mp this).1

/-- Splitting off the block of `a`. -/
theorem partSum_insert (w : ℕ → ℕ) {a : α} {s : Finset α} (ha : a ∉ s) :
    partSum w (insert a s) = ∑ u ∈ s.powerset, w (u.card + 1) * partSum w (s \ u) := by
  unfold partSum
  simp_rw [Finset.mul_sum]
  rw [Finset.sum_sigma' s.powerset (fun u => (univ : Finset (Finpartition (s \ u))))
    (fun u Q => w (u.card + 1) * ∏ b ∈ Q.parts, w b.card)]
  symm
  refine Finset.sum_bij (fun x hx => joinPart ha x.1
    (mem_powerset.mp (mem_sigma.mp hx).1) x.2) ?_ ?_ ?_ ?_
  · intros; exact mem_univ _
  · rintro ⟨u, Q⟩ hx ⟨u', Q'⟩ hx' h
    have hu := mem_powerset.mp (mem_sigma.mp hx).1
    have hu' := mem_powerset.mp (mem_sigma.mp hx').1
    simp only at hu hu'
    have hp := congrArg Finpartition.parts h
    simp only [joinPart_parts] at hp
    have h1 : insert a u = insert a u' := by
      have : insert a u ∈ insert (insert a u') Q'.parts := hp ▸ mem_insert_self _ _
      rcases mem_insert.mp this with h | h
      · exact h
      · exact absurd h (notMem_parts ha u' u Q')
    have h2 : u = u' := by
      have := congrArg (fun t => t.erase a) h1
      simp only [erase_insert (fun h => ha (hu h)), erase_insert (fun h => ha (hu' h))] at this
      exact this
    subst h2
    have h3 : Q.parts = Q'.parts := by
      have := congrArg (fun t => t.erase (insert a u)) hp
      simp only [erase_insert (notMem_parts ha u u Q), erase_insert (notMem_parts ha u u Q')] at this
      exact this
    have : Q = Q' := Finpartition.ext h3
    rw [this]
  · intro P _
    have hmem : a ∈ insert a s := mem_insert_self a s
    set B := P.part a with hB
    have hBm : B ∈ P.parts := P.part_mem.mpr hmem
    have haB : a ∈ B := P.mem_part hmem
    have hBs : B ⊆ insert a s := P.le hBm
    have hsub : B.erase a ⊆ s := by
      intro x hx
      obtain ⟨hx1, hx2⟩ := mem_erase.mp hx
      exact (mem_insert.mp (hBs hx2)).resolve_left hx1
    have hsup : (P.parts.erase B).sup id = s \ B.erase a := by
      ext x
      rw [mem_sup]
      constructor
      · rintro ⟨c, hc, hx⟩
        obtain ⟨hcB, hc⟩ := mem_erase.mp hc
        have hx : x ∈ c := hx
        have hxB : x ∉ B := fun h => hcB (P.eq_of_mem_parts hc hBm hx h)
        have hxs := P.le hc hx
        refine mem_sdiff.mpr ⟨(mem_insert.mp hxs).resolve_left ?_, fun h => hxB (mem_of_mem_erase h)⟩
        rintro rfl
        exact hxB haB
      · intro hx
        obtain ⟨hxs, hxB⟩ := mem_sdiff.mp hx
        have hxa : x ≠ a := fun h => ha (h ▸ hxs)
        obtain ⟨c, hc, hxc⟩ := P.exists_mem (mem_insert_of_mem hxs)
        refine ⟨c, mem_erase.mpr ⟨?_, hc⟩, hxc⟩
        rintro rfl
        exact hxB (mem_erase.mpr ⟨hxa, hxc⟩)
    refine ⟨⟨B.erase a, P.ofSubset (erase_subset B P.parts) hsup⟩,
      mem_sigma.mpr ⟨mem_powerset.mpr hsub, mem_univ _⟩, ?_⟩
    apply Finpartition.ext
    rw [joinPart_parts]
    simp only [Finpartition.ofSubset_parts]
    rw [insert_erase haB, insert_erase hBm]
  · rintro ⟨u, Q⟩ hx
    have hu := mem_powerset.mp (mem_sigma.mp hx).1
    simp only at hu
    rw [joinPart_parts, prod_insert (notMem_parts ha u u Q),
      card_insert_of_notMem (fun h => ha (hu h))]

/-- The recurrence as a function of the number of elements. -/
def partRec (w : ℕ → ℕ) : ℕ → ℕ
  | 0 => 1
  | n + 1 => ∑ k : Fin (n + 1), n.choose k * (w (k + 1) * partRec w (n - k))

theorem partSum_eq (w : ℕ → ℕ) : ∀ (n : ℕ) (s : Finset α), s.card = n →
    partSum w s = partRec w n := by
  intro n
  induction n using Nat.strong_induction_on with
  | _ n ih =>
    intro s hs
    cases n with
    | zero =>
      rw [card_eq_zero.mp hs, partSum_empty, partRec]
    | succ n =>
      obtain ⟨a, t, ha, rfl, ht⟩ := card_eq_succ.mp hs
      rw [partSum_insert w ha]
      have h1 : ∀ u ∈ t.powerset, w (u.card + 1) * partSum w (t \ u) =
          (fun k => w (k + 1) * partRec w (n - k)) u.card := by
        intro u hu
        have hu := mem_powerset.mp hu
        have hc : (t \ u).card = n - u.card := by rw [card_sdiff_of_subset hu, ht]
        simp only
        rw [ih (n - u.card) (by omega) (t \ u) hc]
      rw [Finset.sum_congr rfl h1]
      rw [Finset.sum_powerset, ht, partRec,
        ← Fin.sum_univ_eq_sum_range (fun j => ∑ u ∈ powersetCard j t,
          (fun k => w (k + 1) * partRec w (n - k)) u.card)]
      refine Finset.sum_congr rfl ?_
      intro k _
      rw [Finset.sum_powersetCard (k : ℕ) t (fun k => w (k + 1) * partRec w (n - k)), ht,
        smul_eq_mul]

end Dist
