import Verif.Lemmas.Assignments

/-! # Properties C18, C19, C22: assignment vectors -/

namespace Dist

open Spec FloatOps FloatNotation

/-! ## C18 -/

/-- **C18.** For every float type, every parameters, every random number generator and
every size whose float representation passes the code's own `size + 1 > size` check:
`PitmanYor.sample_assignments(n)` succeeds (no access is out of range), and returns
`n` ids that start at 0 and never skip. -/
theorem C18_sample_assignments {F σ : Type} [FloatOps F] (m : PitmanYor F) (rng : Rng F σ)
    (n : Nat) (s : σ)
    (hn : FloatOps.lt (ofInt (n : Int)) (ofInt (n : Int) + lit 1 1 : F) = true) :
    ∃ a s', m.sampleAssignments rng n s = .ok (a, s') ∧ a.length = n ∧ Contiguous a := by
  unfold PitmanYor.sampleAssignments
  rw [distAssert0_of hn, Res.ok_bind, if_neg (by omega)]
  simp only
  by_cases h0 : n = 0
  · subst h0
    exact ⟨[], s, rfl, rfl, contiguous_nil⟩
  · rw [if_neg (by exact_mod_cast h0), setAt_of (by simp), Res.ok_bind]
    have hc : Contiguous [0] := by
      have := (contiguous_append_singleton (a := []) (x := 0)).mpr ⟨contiguous_nil, by simp⟩
      simpa using this
    obtain ⟨rest, s', h1, h2, h3⟩ := PitmanYor.sampleLoop_ok m rng ((n : Int).toNat - 1) 1
      (([m.alpha] ++ [m.alpha + m.d * ofInt 1]).set 0 (ofInt 1 - m.d)) 1 s [0] hc
      (by simp) (by simp)
    refine ⟨0 :: rest, s', ?_, ?_, by simpa using h3⟩
    · exact (congrArg (· >>= _) h1)
    · simp [h2]; omega

/-- Sizes that do not fit: the unconditional assertion rejects sizes at which float
addition of one is absorbed; a negative size is rejected too. -/
theorem C18_rejected {F σ : Type} [FloatOps F] (m : PitmanYor F) (rng : Rng F σ) (n : Int) (s : σ)
    (h : n < 0 ∨ FloatOps.lt (ofInt n) (ofInt n + lit 1 1 : F) = false) :
    m.sampleAssignments rng n s = .fail := by
  unfold PitmanYor.sampleAssignments
  by_cases hn : FloatOps.lt (ofInt n) (ofInt n + lit 1 1 : F) = true
  · rw [distAssert0_of hn, Res.ok_bind, if_pos]
    rcases h with h | h
    · exact h
    · rw [h] at hn; cases hn
  · rw [distAssert0_of_not hn]; rfl

/-- A toy arithmetic (integers) meets the hypothesis for every size, so the theorem
is not vacuous. -/
@[reducible] def toyFloat : FloatOps Int where
  add := (· + ·)
  sub := (· - ·)
  mul := (· * ·)
  div := (· / ·)
  neg := (- ·)
  ofInt := id
  lit n d := n / d
  lt a b := decide (a < b)
  le a b := decide (a ≤ b)
  log := id
  exp := id
  pow a _ := a
  sqrt := id
  lgamma := id
  lgammaNu := id
  logFactorial n := n
  pi := 3
  logPi := 1

/-- A generator that cycles through draws. -/
def toyRng : Rng Int Nat where
  unif01 s := (s % 2 * 9, s + 1)
  int s lo _ := (lo, s)
  gamma s a _ := (a, s)
  normal s m _ := (m, s)
  chisq s a := (a, s)
  poisson s _ := (0, s)
  negBinomial s _ _ := (0, s)

example : (@PitmanYor.sampleAssignments Int Nat toyFloat ⟨2, 0⟩ toyRng 6 0) =
    .ok ([0, 0, 1, 0, 2, 0], 5) := by decide
example : ∀ n : Nat, (toyFloat.lt (toyFloat.ofInt n) (toyFloat.add (toyFloat.ofInt n) (toyFloat.lit 1 1))) = true := by
  intro n; show decide ((n : Int) < n + 1 / 1) = true; simp

/-! ## C22 -/

/-- **C22.** For every float type, random number generator, dataset size and sample
size `k` not above it: `LowEntropy.sample_assignments(k)` never has undefined
behaviour.  With debug level below 2 it returns `k` contiguous ids; at level 2 and
above it either does so or stops at one of the level-2 assertions, which compare
sizes rounded to float. -/
theorem C22_low_entropy_sample_assignments {F σ : Type} [FloatOps F] (lvl : Nat) (m : LowEntropy)
    (hm : m.datasetSize ≤ 2147483647) (rng : Rng F σ) (k : Nat)
    (hk : (k : Int) ≤ m.datasetSize) (s : σ) :
    (∃ a s', LowEntropy.sampleAssignments lvl m rng k s = .ok (a, s') ∧ a.length = k ∧
      Contiguous a) ∨
    (2 ≤ lvl ∧ LowEntropy.sampleAssignments lvl m rng k s = .fail) := by
  unfold LowEntropy.sampleAssignments
  rw [distAssert0_of hk, Res.ok_bind, if_neg (by omega)]
  have := LowEntropy.sampleLoop_ok lvl m rng k hm [] [] s [] 0 contiguous_nil (by simp) (.inl rfl) rfl
    (by simpa using hk)
  simpa using this

/-- Asking for more than the dataset holds, or for a negative number, is rejected at
every debug level. -/
theorem C22_too_large {F σ : Type} [FloatOps F] (lvl : Nat) (m : LowEntropy) (rng : Rng F σ)
    (k : Int) (hk : m.datasetSize < k ∨ k < 0) (s : σ) :
    LowEntropy.sampleAssignments lvl m rng k s = .fail := by
  unfold LowEntropy.sampleAssignments
  by_cases h : k ≤ m.datasetSize
  · rw [distAssert0_of h, Res.ok_bind, if_pos (by omega)]
  · rw [distAssert0_of_not h]; rfl

example : (@LowEntropy.sampleAssignments Int Nat toyFloat 0 ⟨5⟩ toyRng 4 1) =
    .ok ([0, 0, 1, 0], 5) := by decide

/-! ## C19 -/

/-- **C19.** On any assignment map (its ids listed in any iteration order; at most
`2^31-1` items) `count_assignments` below debug level 2 returns the vector that is
one longer than the largest id and holds at `g` the number of items assigned to `g`. -/
theorem C19_count_assignments (lvl : Nat) (hl : lvl < 2) (gids : List Nat)
    (hlen : gids.length ≤ 2147483647) :
    ∃ cs, countAssignments lvl (gids.map Int.ofNat) = .ok cs ∧
      (gids = [] → cs = []) ∧
      (gids ≠ [] → cs.length - 1 ∈ gids) ∧ (∀ g ∈ gids, g < cs.length) ∧
      (∀ g, g < cs.length → cs[g]? = some ((gids.count g : Nat) : Int)) := by
  refine ⟨countTable gids, by rw [countAssignments_eq lvl gids hlen, if_neg (by omega)], ?_, ?_, ?_, ?_⟩
  · rintro rfl; rfl
  · intro h; simpa [countTable] using idBound_mem h
  · intro g hg; simpa [countTable] using lt_idBound hg
  · intro g hg; exact countTable_getElem? gids g (by simpa [countTable] using hg)

/-- **C19, contiguity check.** At level 2 and above the same vector is returned when
every id below the largest is used, and an assertion fires when one is skipped. -/
theorem C19_contiguity_check (lvl : Nat) (hl : 2 ≤ lvl) (gids : List Nat)
    (hlen : gids.length ≤ 2147483647) :
    countAssignments lvl (gids.map Int.ofNat) =
      if ∀ x ∈ gids, ∀ y, y < x → y ∈ gids then countAssignments 0 (gids.map Int.ofNat)
      else .fail := by
  rw [countAssignments_eq lvl gids hlen, countAssignments_eq 0 gids hlen,
    if_neg (c := 2 ≤ 0 ∧ _) (by omega)]
  by_cases h : ∀ x ∈ gids, ∀ y, y < x → y ∈ gids
  · rw [if_pos h, if_neg]
    rintro ⟨-, g, hg, hm⟩
    by_cases hn : gids = []
    · subst hn; simp [idBound] at hg
    · have h1 := idBound_mem hn
      rcases Nat.lt_or_ge g (idBound gids - 1) with h2 | h2
      · exact hm (h _ h1 g h2)
      · have : g = idBound gids - 1 := by omega
        exact hm (this ▸ h1)
  · rw [if_neg h, if_pos]
    refine ⟨hl, ?_⟩
    simp only [not_forall] at h
    obtain ⟨x, hx, y, hy, hm⟩ := h
    exact ⟨y, by have := lt_idBound hx; omega, hm⟩

/-- **C19, order.** The iteration order of the hash map does not matter. -/
theorem C19_order_independent (lvl : Nat) (g1 g2 : List Nat) (h : g1.Perm g2)
    (hlen : g1.length ≤ 2147483647) :
    countAssignments lvl (g1.map Int.ofNat) = countAssignments lvl (g2.map Int.ofNat) := by
  rw [countAssignments_eq lvl g1 hlen, countAssignments_eq lvl g2 (h.length_eq ▸ hlen),
    countTable_perm h, idBound_perm h]
  simp only [h.mem_iff]

/-- **C19, total.** The entries add up to the number of items. -/
theorem C19_total (lvl : Nat) (gids : List Nat) (hlen : gids.length ≤ 2147483647) (cs : List Int)
    (h : countAssignments lvl (gids.map Int.ofNat) = .ok cs) : cs.sum = gids.length := by
  rw [countAssignments_eq lvl gids hlen] at h
  split_ifs at h
  injection h with h
  subst h
  have key : ∀ (gids : List Nat) (n : Nat), (∀ g ∈ gids, g < n) →
      ((List.range n).map fun g => ((gids.count g : Nat) : Int)).sum = gids.length := by
    intro gids
    induction gids with
    | nil => intro n _; induction n with
      | zero => simp
      | succ n ih => simp
    | cons a l ih =>
      intro n hn
      have h1 := ih n (fun g hg => hn g (List.mem_cons_of_mem _ hg))
      have ha := hn a List.mem_cons_self
      have e : ((List.range n).map fun g => (((a :: l).count g : Nat) : Int)) =
          (List.range n).map fun g => ((l.count g : Nat) : Int) + if g = a then 1 else 0 := by
        apply List.map_congr_left
        intro g _
        rw [List.count_cons]
        by_cases hga : g = a
        · subst hga; simp
        · simp [hga, Ne.symm hga]
      rw [e, List.sum_map_add, h1]
      have e2 : ∀ n : Nat, ((List.range n).map fun g => if g = a then (1 : Int) else 0).sum =
          if a < n then 1 else 0 := by
        intro n
        induction n with
        | zero => simp
        | succ n ih =>
          rw [List.range_succ, List.map_append, List.sum_append, ih]
          simp only [List.map_cons, List.map_nil, List.sum_cons, List.sum_nil]
          by_cases h1 : n = a
          · subst h1; simp
          · rw [if_neg h1]
            by_cases h2 : a < n
            · rw [if_pos h2, if_pos (by omega)]; rfl
            · rw [if_neg h2, if_neg (by omega)]; rfl
      rw [e2, if_pos ha]; simp
  exact key gids _ fun g hg => lt_idBound hg

/-- **C19 on sampled assignments.** At every level the counts of a contiguous vector
are returned and none is zero. -/
theorem C19_contiguous (lvl : Nat) (a : List Nat) (ha : Contiguous a)
    (hlen : a.length ≤ 2147483647) :
    ∃ cs, countAssignments lvl (a.map Int.ofNat) = .ok cs ∧ ∀ c ∈ cs, 0 < c := by
  obtain ⟨k, hk⟩ := ha.exists_bound
  have hb := idBound_of_bound hk
  refine ⟨countTable a, ?_, ?_⟩
  · rw [countAssignments_eq lvl a hlen, if_neg]
    rintro ⟨-, g, hg, hm⟩
    exact hm ((hk g).mpr (by omega))
  · intro c hc
    simp only [countTable, List.mem_map, List.mem_range] at hc
    obtain ⟨g, hg, rfl⟩ := hc
    have := List.count_pos_iff.mpr ((hk g).mpr (by omega))
    omega

/-- **C19, outside the domain.** An id of −1 is undefined behaviour, other negative
ids make the allocation fail. -/
theorem C19_negative_id (lvl : Nat) (g : Int) (hg : g < 0) (rest : List Int) :
    countAssignments lvl (g :: rest) = if g = -1 then .ub else .fail := by
  unfold countAssignments countLoop countStep
  split_ifs <;> rfl

example : countAssignments 3 [2, 0, 1, 0, 2, 0] = .ok [3, 1, 2] := by decide
example : countAssignments 3 [2, 0, 0] = .fail := by decide
example : countAssignments 0 [2, 0, 0] = .ok [2, 0, 1] := by decide

end Dist
