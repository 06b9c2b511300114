import Verif.Props.Derivation

/-!
# C86: the correction of the score of a new cluster
-/

namespace Dist

open Finset Derivation Spec

namespace Derivation

theorem bump_pos {s : Shape} (h : ∀ x ∈ s, 0 < x) {i : ℕ} (hi : i < s.length) : ∀ x ∈ bump s i, 0 < x := by
  intro x hx
  have hx' := (modify_perm s i hi).mem_iff.1 ((List.mergeSort_perm _ _).mem_iff.1 hx)
  rcases List.mem_cons.1 hx' with rfl | hx'
  · omega
  · exact h x (List.mem_of_mem_erase hx')

theorem uu_pos (N k : ℕ) (s : Shape) (h : ∀ x ∈ s, 0 < x) : 0 < uu N k s := by
  induction k generalizing s with
  | zero => exact div_pos (wt_pos h) (zz_pos N)
  | succ k ih =>
    unfold uu
    refine add_pos_of_pos_of_nonneg (ih _ (by simpa using h)) (List.sum_nonneg ?_)
    intro y hy
    obtain ⟨i, hi, rfl⟩ := List.mem_map.1 hy
    exact (ih _ (bump_pos h (List.mem_range.1 hi))).le

/-- As `sum_places`, for the existing clusters and keeping their sizes. -/
theorem sum_joins {M : Type} [AddCommMonoid M] {A : Finset ℕ} {C : Finset (Finset ℕ)} {i : ℕ} (h : Parts A C)
    (hi : i ∉ A) (g : ℕ → Shape → M) :
    ∑ b ∈ C, g b.card (shape (put i b C)) =
      ((List.range (shape C).length).map fun k => g ((shape C).getD k 0) (bump (shape C) k)).sum := by
  have e1 : ((List.range (shape C).length).map fun k => g ((shape C).getD k 0) (bump (shape C) k)) =
      (shape C).map fun x => g x (up (shape C : Multiset ℕ) x) := by
    refine List.ext_getElem (by simp) fun k h1 h2 => ?_
    have hk : k < (shape C).length := by simpa using h1
    simp only [List.getElem_map, List.getElem_range]
    rw [bump_eq _ _ hk, List.getD_eq_getElem?_getD, List.getElem?_eq_getElem hk, Option.getD_some]
  rw [e1, ← Multiset.sum_coe, ← Multiset.map_coe, shape_coe, Multiset.map_map]
  unfold Finset.sum
  congr 1
  refine Multiset.map_congr rfl fun b hb => ?_
  rw [shape_put_mem h hi hb, shape_coe]
  rfl

/-- The log odds by which the complete model prefers joining a cluster of `c` items to a new one. -/
noncomputable def joinOdds (c : ℕ) : ℝ := Real.log (((c : ℝ) + 1) ^ (c + 1) / (c : ℝ) ^ c)

theorem baseline_eq {c : ℕ} (hc : 0 < c) : postpredBaseline (c + 1) = .ok (-joinOdds c) := by
  have hc' : (0 : ℝ) < c := by exact_mod_cast hc
  have e : ((c + 1 : ℕ) : ℝ) * (((c + 1 : ℕ) : ℝ) / (((c + 1 : ℕ) : ℝ) - 1)) ^ (((c + 1 : ℕ) : ℝ) - 1) =
      ((c : ℝ) + 1) ^ (c + 1) / (c : ℝ) ^ c := by
    push_cast
    rw [add_sub_cancel_right, Real.rpow_natCast, div_pow, pow_succ']
    ring
  unfold postpredBaseline
  rw [if_neg (by omega)]
  simp only
  rw [e, if_pos (by positivity), joinOdds]

end Derivation

theorem terms_eq {m : ℕ} {large : Dict ℕ} (hl : Counts (m + 1) large) (f : Shape → ℝ)
    (hf : ∀ s : Shape, (∀ x ∈ s, 0 < x) → 0 < f s) {s : Shape} {Q : Finpartition (range m)}
    (hQ : shape Q.parts = s) (x : ℝ) :
    postpredTerms large (large.map fun p => (p.1, p.2 * f p.1)) (s, x) =
      .ok ((List.range s.length).map fun i =>
        (x * f (bump s i) / (f (1 :: s) + ((List.range s.length).map fun i => f (bump s i)).sum),
          Real.log (f (1 :: s) / f (bump s i)) - -joinOdds (s.getD i 0))) := by
  have hpart := Parts.of_finpartition Q
  have hi : m ∉ range m := by simp
  have hr : insert m (range m) = range (m + 1) := range_add_one.symm
  have hpos : ∀ y ∈ s, 0 < y := by rw [← hQ]; exact shape_mem_pos Q
  have key : ∀ b ∈ insert ∅ Q.parts, ∃ P : Finpartition (range (m + 1)), P.parts = put m b Q.parts := by
    intro b hb
    have := hpart.put hi hb
    rw [hr] at this
    exact ⟨this.toFinpartition, rfl⟩
  obtain ⟨P0, hP0⟩ := key ∅ (mem_insert_self _ _)
  unfold postpredTerms
  simp only
  rw [ratio_eq hl f (P := P0) (by rw [hP0, shape_put_empty hpart hi, hQ]), Res.ok_bind]
  have hrs : (List.range s.length).mapM (fun i => (do
      let prob ← ratio large (large.map fun p => (p.1, p.2 * f p.1)) (bump s i)
      return (s.getD i 0 + 1, prob) : Res (ℕ × ℝ))) =
      .ok ((List.range s.length).map fun i => (s.getD i 0 + 1, f (bump s i))) := by
    refine mapM_ok_of _ fun i hi' => ?_
    have hi'' : i < s.length := List.mem_range.1 hi'
    have hx : s[i] ∈ (shape Q.parts : Multiset ℕ) := by
      simp only [hQ]; exact List.getElem_mem hi''
    rw [shape_coe, Multiset.mem_map] at hx
    obtain ⟨b, hb, hbc⟩ := hx
    obtain ⟨P, hP⟩ := key b (mem_insert_of_mem hb)
    rw [ratio_eq hl f (P := P) (by rw [hP, shape_put_mem hpart hi hb, hQ, bump_eq _ _ hi'', hbc]), Res.ok_bind,
      Res.pure_eq]
  rw [hrs, Res.ok_bind]
  have hb : ∀ i < s.length, 0 < f (bump s i) := fun i hi' => hf _ (bump_pos hpos hi')
  have h1 : 0 < f (1 :: s) := hf _ (by simpa using hpos)
  have htot : (f (1 :: s) :: ((List.range s.length).map fun i => (s.getD i 0 + 1, f (bump s i))).map Prod.snd).sum =
      f (1 :: s) + ((List.range s.length).map fun i => f (bump s i)).sum := by
    rw [List.sum_cons, List.map_map]; rfl
  have htpos : 0 < f (1 :: s) + ((List.range s.length).map fun i => f (bump s i)).sum := by
    refine add_pos_of_pos_of_nonneg h1 (List.sum_nonneg ?_)
    intro y hy
    obtain ⟨i, hi', rfl⟩ := List.mem_map.1 hy
    exact (hb i (List.mem_range.1 hi')).le
  rw [htot, mapM_ok_of (g := fun q : ℕ × ℝ => (x * q.2 /
    (f (1 :: s) + ((List.range s.length).map fun i => f (bump s i)).sum),
    Real.log (f (1 :: s) / q.2) - -joinOdds (q.1 - 1)))]
  · rw [List.map_map]; rfl
  · intro q hq
    obtain ⟨i, hi', rfl⟩ := List.mem_map.1 hq
    have hi'' : i < s.length := List.mem_range.1 hi'
    have hc : 0 < s.getD i 0 := by
      rw [List.getD_eq_getElem?_getD, List.getElem?_eq_getElem hi'', Option.getD_some]; exact hpos _ (List.getElem_mem hi'')
    have := hb i hi''
    simp only
    rw [if_neg htpos.ne', baseline_eq hc, Res.ok_bind, if_neg, Res.pure_eq, Nat.add_sub_cancel]
    rw [not_or, not_le]
    exact ⟨this.ne', div_pos h1 this⟩

theorem sum_flatten {α : Type} (l : List α) (g : α → List (ℝ × ℝ)) (F : ℝ × ℝ → ℝ) :
    ((l.map g).flatten.map F).sum = (l.map fun a => ((g a).map F).sum).sum := by
  induction l with
  | nil => simp
  | cons a l ih => rw [List.map_cons, List.flatten_cons, List.map_append, List.sum_append, ih, List.map_cons,
    List.sum_cons]

/-- **C86, the true correction of the score of a new cluster.** `true_postpred_correction` never fails on
sizes from two to the size of the data set.  It is the mean of the error of the complete model's odds: where
the last of `m + 1` items, clustered as part of `N` items with the low-entropy probabilities, joins a
cluster `b`, the error is the log of the odds of a new cluster to `b`, less the one that the complete model
assigns, and the mean is over all clusterings in which it joins one. -/
theorem C86_postpred (counts : ℕ → Dict ℕ) (h : ∀ n, GetCounts n (counts n)) (m N : ℕ) (hm : 0 < m)
    (hN : m + 1 ≤ N) :
    let prob (C : Finset (Finset ℕ)) : ℝ :=
      ∑ P : Finpartition (range N), if restrict (range (m + 1)) P.parts = C then lowEntropyProb N P else 0
    truePostpredCorrection counts (m + 1) N =
      .ok ((∑ Q : Finpartition (range m), ∑ b ∈ Q.parts, prob (put m b Q.parts) *
          (Real.log (prob (put m ∅ Q.parts) / prob (put m b Q.parts)) -
            Real.log ((b.card : ℝ) ^ b.card / ((b.card : ℝ) + 1) ^ (b.card + 1)))) /
        ∑ Q : Finpartition (range m), ∑ b ∈ Q.parts, prob (put m b Q.parts)) := by
  intro prob
  have hc := fun n => getCounts_counts (h n)
  obtain ⟨k, rfl⟩ : ∃ k, N = m + 1 + k := ⟨N - (m + 1), by omega⟩
  set f := uu (m + 1 + k) k with hf
  have hfpos : ∀ s : Shape, (∀ x ∈ s, 0 < x) → 0 < f s := fun s hs => uu_pos _ _ s hs
  have hi : m ∉ range m := by simp
  have hr : insert m (range m) = range (m + 1) := range_add_one.symm
  have hprob : ∀ (Q : Finpartition (range m)), ∀ b ∈ insert ∅ Q.parts,
      prob (put m b Q.parts) = f (shape (put m b Q.parts)) := by
    intro Q b hb
    have hp := (Parts.of_finpartition Q).put hi hb
    rw [hr] at hp
    have e := partProb_eq (m + 1 + k) k (by omega)
    rw [show m + 1 + k - k = m + 1 by omega] at e
    exact e hp.toFinpartition
  have hlarge := getSubprobs_eq hc (m + 1 + k) k (by omega)
  have hsmall := getSubprobs_eq hc (m + 1 + k) (k + 1) (by omega)
  rw [show m + 1 + k - k = m + 1 by omega, ← hf] at hlarge
  rw [show m + 1 + k - (k + 1) = m by omega] at hsmall
  have hu : ∀ s, uu (m + 1 + k) (k + 1) s =
      f (1 :: s) + ((List.range s.length).map fun i => f (bump s i)).sum := fun s => by rw [uu]
  have hupos : ∀ s : Shape, (∀ x ∈ s, 0 < x) →
      0 < f (1 :: s) + ((List.range s.length).map fun i => f (bump s i)).sum := fun s hs => by
    rw [← hu]; exact uu_pos _ _ s hs
  unfold truePostpredCorrection
  rw [if_neg (by omega), show m + 1 + k - (m + 1) = k by omega,
    show m + 1 + k - (m + 1 - 1) = k + 1 by omega, hlarge, Res.ok_bind, hsmall, Res.ok_bind,
    List.mapM_map, mapM_ok_of (g := fun p : Shape × ℕ => (List.range p.1.length).map fun i =>
      ((p.2 : ℝ) * f (bump p.1 i),
          Real.log (f (1 :: p.1) / f (bump p.1 i)) - -joinOdds (p.1.getD i 0)))]
  swap
  · intro p hp
    obtain ⟨h1, h2⟩ := ((hc m).mem p).1 hp
    obtain ⟨Q, hQ⟩ := shapeCount_pos.1 (h1 ▸ h2)
    have hs : ∀ x ∈ p.1, 0 < x := by rw [← hQ]; exact shape_mem_pos Q
    rw [Function.comp, terms_eq (hc (m + 1)) f hfpos hQ, hu]
    congr 1
    apply List.map_congr_left
    intro i _
    have := hupos p.1 hs
    rw [Prod.mk.injEq]
    refine ⟨?_, rfl⟩
    field_simp
  rw [Res.ok_bind]
  simp only
  rw [sum_flatten, sum_flatten]
  have conv : ∀ G : ℕ → Shape → ℝ → ℝ, (((counts m).map fun p : Shape × ℕ => ((List.range p.1.length).map fun i =>
      (p.2 : ℝ) * G (p.1.getD i 0) (bump p.1 i) (f (1 :: p.1))).sum).sum) =
      ∑ Q : Finpartition (range m), ∑ b ∈ Q.parts, G b.card (shape (put m b Q.parts))
        (f (shape (put m ∅ Q.parts))) := by
    intro G
    have h1 := (hc m).sum fun s => ((List.range s.length).map fun i => G (s.getD i 0) (bump s i) (f (1 :: s))).sum
    have h2 : ∀ Q : Finpartition (range m), ∑ b ∈ Q.parts, G b.card (shape (put m b Q.parts))
        (f (shape (put m ∅ Q.parts))) = ((List.range (shape Q.parts).length).map fun i =>
          G ((shape Q.parts).getD i 0) (bump (shape Q.parts) i) (f (1 :: shape Q.parts))).sum := by
      intro Q
      have hQ := Parts.of_finpartition Q
      rw [shape_put_empty hQ hi]
      exact sum_joins hQ hi fun c s => G c s (f (1 :: shape Q.parts))
    simp only [h2]
    rw [← h1]
    congr 1
    apply List.map_congr_left
    intro p _
    rw [nsmul_eq_mul, List.sum_map_mul_left]
  have hden : ((counts m).map fun a => (((List.range a.1.length).map fun i => ((a.2 : ℝ) * f (bump a.1 i),
      Real.log (f (1 :: a.1) / f (bump a.1 i)) - -joinOdds (a.1.getD i 0))).map Prod.fst).sum).sum =
      ∑ Q : Finpartition (range m), ∑ b ∈ Q.parts, prob (put m b Q.parts) := by
    have := conv fun _ s _ => f s
    rw [Finset.sum_congr rfl fun Q _ => Finset.sum_congr rfl fun b hb => hprob Q b (mem_insert_of_mem hb), ← this]
    congr 1
    apply List.map_congr_left
    intro p _
    rw [List.map_map]
    rfl
  have hnum : ((counts m).map fun a => (((List.range a.1.length).map fun i => ((a.2 : ℝ) * f (bump a.1 i),
      Real.log (f (1 :: a.1) / f (bump a.1 i)) - -joinOdds (a.1.getD i 0))).map fun t => t.1 * t.2).sum).sum =
      ∑ Q : Finpartition (range m), ∑ b ∈ Q.parts, prob (put m b Q.parts) *
          (Real.log (prob (put m ∅ Q.parts) / prob (put m b Q.parts)) -
            Real.log ((b.card : ℝ) ^ b.card / ((b.card : ℝ) + 1) ^ (b.card + 1))) := by
    have := conv fun c s x => f s * (Real.log (x / f s) - -joinOdds c)
    have e : ∀ (Q : Finpartition (range m)), ∀ b ∈ Q.parts, prob (put m b Q.parts) *
          (Real.log (prob (put m ∅ Q.parts) / prob (put m b Q.parts)) -
            Real.log ((b.card : ℝ) ^ b.card / ((b.card : ℝ) + 1) ^ (b.card + 1))) =
        f (shape (put m b Q.parts)) * (Real.log (f (shape (put m ∅ Q.parts)) / f (shape (put m b Q.parts))) -
          -joinOdds b.card) := by
      intro Q b hb
      rw [hprob Q b (mem_insert_of_mem hb), hprob Q ∅ (mem_insert_self _ _), joinOdds, ← Real.log_inv, inv_div]
    rw [Finset.sum_congr rfl fun Q _ => Finset.sum_congr rfl fun b hb => e Q b hb, ← this]
    congr 1
    apply List.map_congr_left
    intro p _
    rw [List.map_map]
    congr 1
    apply List.map_congr_left
    intro i _
    simp only [Function.comp]
    ring
  rw [hden, hnum, if_pos, Res.pure_eq]
  refine Finset.sum_pos (fun Q _ => ?_) ⟨⊥, mem_univ _⟩
  have hQ := Parts.of_finpartition Q
  have hne : Q.parts.Nonempty := by
    rw [Finset.nonempty_iff_ne_empty]
    intro h0
    have := Q.sup_parts
    rw [h0, Finset.sup_empty] at this
    have h3 : 0 ∈ range m := mem_range.2 hm
    rw [← this] at h3
    simp at h3
  refine Finset.sum_pos (fun b hb => ?_) hne
  rw [hprob Q b (mem_insert_of_mem hb)]
  have hp := hQ.put hi (mem_insert_of_mem hb)
  rw [hr] at hp
  exact hfpos _ (shape_mem_pos hp.toFinpartition)

theorem restrict_self {A : Finset ℕ} (P : Finpartition A) : Spec.restrict A P.parts = P.parts := by
  unfold Spec.restrict
  have e : P.parts.image (· ∩ A) = P.parts.image id :=
    Finset.image_congr fun b hb => Finset.inter_eq_left.2 (P.le hb)
  have h0 : (∅ : Finset ℕ) ∉ P.parts := P.bot_notMem
  rw [e, Finset.image_id, Finset.erase_eq_of_notMem h0]

/-- **C86, the correction with all the data.** For the complete data set the true correction is zero: the
odds of the complete model are exact. -/
theorem C86_postpred_complete (counts : ℕ → Dict ℕ) (h : ∀ n, GetCounts n (counts n)) (N : ℕ) (hN : 2 ≤ N) :
    truePostpredCorrection counts N N = .ok 0 := by
  obtain ⟨m, rfl⟩ : ∃ m, N = m + 1 := ⟨N - 1, by omega⟩
  have e := C86_postpred counts h m (m + 1) (by omega) le_rfl
  simp only at e
  rw [e]
  congr 1
  rw [Finset.sum_eq_zero, zero_div]
  intro Q _
  refine Finset.sum_eq_zero fun b hb => ?_
  have hQ := Parts.of_finpartition Q
  have hi : m ∉ range m := by simp
  have hr : insert m (range m) = range (m + 1) := range_add_one.symm
  have hprob : ∀ b ∈ insert ∅ Q.parts,
      (∑ P : Finpartition (range (m + 1)),
        if restrict (range (m + 1)) P.parts = put m b Q.parts then lowEntropyProb (m + 1) P else 0) =
        (∏ x ∈ put m b Q.parts, (x.card : ℝ) ^ x.card) /
          ∑ P : Finpartition (range (m + 1)), ∏ x ∈ P.parts, (x.card : ℝ) ^ x.card := by
    intro b hb
    have hp := hQ.put hi hb
    rw [hr] at hp
    rw [Finset.sum_eq_single hp.toFinpartition]
    · exact (if_pos (restrict_self hp.toFinpartition)).trans rfl
    · intro R _ hR
      rw [if_neg]
      rw [restrict_self]
      exact fun e => hR (Finpartition.ext e)
    · simp
  have hbm : m ∉ b := fun hm => hi (Q.le hb hm)
  have hnm : ∀ c ∈ Q.parts, m ∉ c := fun c hc hm => hi (Q.le hc hm)
  have hbpos : 0 < b.card := Finset.card_pos.2 (Q.nonempty_of_mem_parts hb)
  have hZ : 0 < ∑ P : Finpartition (range (m + 1)), ∏ x ∈ P.parts, (x.card : ℝ) ^ x.card :=
    Finset.sum_pos (fun P _ => blockWeight_pos P) ⟨⊥, mem_univ _⟩
  have e0 : (∏ x ∈ put m ∅ Q.parts, (x.card : ℝ) ^ x.card) =
      (b.card : ℝ) ^ b.card * ∏ x ∈ Q.parts.erase b, (x.card : ℝ) ^ x.card := by
    unfold put
    rw [Finset.prod_insert, Finset.erase_eq_of_notMem (show (∅ : Finset ℕ) ∉ Q.parts from Q.bot_notMem),
      Finset.mul_prod_erase Q.parts (fun x => (x.card : ℝ) ^ x.card) hb]
    · simp
    · intro hmem
      exact hnm _ (Finset.mem_of_mem_erase hmem) (by simp)
  have e1 : (∏ x ∈ put m b Q.parts, (x.card : ℝ) ^ x.card) =
      ((b.card : ℝ) + 1) ^ (b.card + 1) * ∏ x ∈ Q.parts.erase b, (x.card : ℝ) ^ x.card := by
    unfold put
    rw [Finset.prod_insert, Finset.card_insert_of_notMem hbm]
    · push_cast; rfl
    · intro hmem
      exact hnm _ (Finset.mem_of_mem_erase hmem) (by simp)
  have hprod : 0 < ∏ x ∈ Q.parts.erase b, (x.card : ℝ) ^ x.card := by
    refine Finset.prod_pos fun x hx => ?_
    have := Finset.card_pos.2 (Q.nonempty_of_mem_parts (Finset.mem_of_mem_erase hx))
    positivity
  rw [hprob ∅ (mem_insert_self _ _), hprob b (mem_insert_of_mem hb), e0, e1, div_div_div_cancel_right₀ hZ.ne',
    mul_div_mul_right _ _ hprod.ne', sub_self, mul_zero]

/-- **C86, the correction for a single item.** For a sample of one item the function returns one, its value
when there is nothing to average. -/
theorem C86_postpred_single (counts : ℕ → Dict ℕ) (h : ∀ n, GetCounts n (counts n)) (N : ℕ) (hN : 1 ≤ N) :
    truePostpredCorrection counts 1 N = .ok 1 := by
  have hc := fun n => getCounts_counts (h n)
  have h0 : counts 0 = [([], 1)] := by
    generalize he : counts 0 = d
    have := h 0
    rw [he] at this
    cases this
    rfl
  obtain ⟨k, rfl⟩ : ∃ k, N = k + 1 := ⟨N - 1, by omega⟩
  have hlarge := getSubprobs_eq hc (k + 1) k (by omega)
  have hsmall := getSubprobs_eq hc (k + 1) (k + 1) (by omega)
  rw [show k + 1 - k = 1 by omega] at hlarge
  rw [Nat.sub_self, h0] at hsmall
  unfold truePostpredCorrection
  rw [if_neg (by omega), Nat.add_sub_cancel, hlarge, Res.ok_bind, Nat.sub_self, Nat.sub_zero, hsmall, Res.ok_bind]
  have := terms_eq (hc 1) (uu (k + 1) k) (fun s hs => uu_pos _ _ s hs) (s := []) (Q := (⊥ : Finpartition (range 0)))
    (by
      have e : (⊥ : Finpartition (range 0)).parts = ∅ := Finpartition.parts_eq_empty_iff.2 rfl
      rw [shape, e]; simp) (1 * uu (k + 1) (k + 1) [])
  simp only [List.map_cons, List.map_nil, List.mapM_cons, List.mapM_nil, Nat.cast_one]
  rw [this]
  simp [Res.ok_bind, Res.pure_eq]

theorem uu_two : uu 3 1 [1, 1] = 9 / zz 3 ∧ uu 3 1 [2] = 31 / zz 3 := by
  refine ⟨?_, ?_⟩ <;>
  · simp only [uu, bump_insertion, wt, List.length_cons, List.length_nil, List.range_succ, List.range_zero]
    simp
    ring

/-- Two of three items: they are together with probability 31/40, where the complete model has 4/5. -/
example (counts : ℕ → Dict ℕ) (h : ∀ n, GetCounts n (counts n)) :
    truePostpredCorrection counts 2 3 = .ok (Real.log (36 / 31)) := by
  have e := C86_postpred counts h 1 3 (by norm_num) (by norm_num)
  simp only at e
  rw [e]
  have hQ : ∀ Q : Finpartition (range 1), Q.parts = {{0}} := by
    intro Q
    have hb : ∀ b ∈ Q.parts, b = {0} := fun b hb =>
      (Q.nonempty_of_mem_parts hb).subset_singleton_iff.1 (Q.le hb)
    refine Finset.eq_singleton_iff_nonempty_unique_mem.2 ⟨?_, hb⟩
    rw [Finset.nonempty_iff_ne_empty, Ne, Finpartition.parts_eq_empty_iff]
    decide
  have hr : ({0, 1} : Finset ℕ) = range 2 := by decide
  have hz := zz_pos 3
  have part : ∀ (C : Finset (Finset ℕ)) (s : Shape), (C.SupIndep id ∧ C.sup id = {0, 1} ∧ ∅ ∉ C) →
      s.Pairwise (· ≤ ·) → (s : Multiset ℕ) = C.val.map card →
      (∑ P : Finpartition (range 3), if Spec.restrict (range (1 + 1)) P.parts = C then lowEntropyProb 3 P else 0) =
        uu 3 1 s := by
    intro C s hC hs hm
    have h := partProb_eq 3 1 (by norm_num) ⟨C, hC.1, hC.2.1.trans hr, hC.2.2⟩
    rw [sorted_eq hs hm]
    exact h
  have e1 := part {{0}, {1}} [1, 1] (by decide) (by decide) (by decide)
  have e2 := part {{0, 1}} [2] (by decide) (by decide) (by decide)
  have p1 : put 1 ∅ {{0}} = ({{0}, {1}} : Finset (Finset ℕ)) := by decide
  have p2 : put 1 {0} {{0}} = ({{0, 1}} : Finset (Finset ℕ)) := by decide
  simp only [hQ, Finset.sum_singleton, p1, p2, e1, e2, uu_two.1, uu_two.2, Finset.sum_const, nsmul_eq_mul]
  have hcard : ((univ : Finset (Finpartition (range 1))).card : ℝ) ≠ 0 := by
    exact_mod_cast (Finset.card_pos.2 ⟨⊥, mem_univ _⟩).ne'
  rw [div_div_div_cancel_right₀ hz.ne', ← Real.log_div (by norm_num) (by norm_num)]
  rw [Finset.card_singleton]
  have hx : (9 / 31 / (((1 : ℕ) : ℝ) ^ 1 / (((1 : ℕ) : ℝ) + 1) ^ (1 + 1))) = 36 / 31 := by norm_num
  rw [hx]
  generalize (((univ : Finset (Finpartition (range 1))).card : ℕ) : ℝ) = c at hcard ⊢
  rw [← mul_assoc, mul_div_cancel_left₀]
  exact mul_ne_zero hcard (div_ne_zero (by norm_num) hz.ne')

end Dist
