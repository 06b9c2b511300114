import Verif.Lemmas.Derivation

/-! # The probabilities of shapes -/

namespace Dist

open Spec Finset

namespace Derivation

/-- The weight of a shape. -/
noncomputable def wt (s : Shape) : ℝ := (s.map fun x : ℕ => (x : ℝ) ^ x).prod

theorem wt_shape (C : Finset (Finset ℕ)) : wt (shape C) = blockWeight C := by
  unfold wt blockWeight
  rw [← Multiset.prod_coe, ← Multiset.map_coe, shape_coe, Multiset.map_map]
  rfl

theorem shape_mem_pos {n : ℕ} (P : Finpartition (range n)) : ∀ x ∈ shape P.parts, 0 < x := by
  intro x hx
  have hx' : x ∈ (shape P.parts : Multiset ℕ) := hx
  rw [shape_coe, Multiset.mem_map] at hx'
  obtain ⟨b, hb, rfl⟩ := hx'
  exact card_pos (Parts.of_finpartition P) hb

theorem wt_pos {s : Shape} (h : ∀ x ∈ s, 0 < x) : 0 < wt s := by
  unfold wt
  refine List.prod_pos ?_
  intro y hy
  obtain ⟨x, hx, rfl⟩ := List.mem_map.1 hy
  have : (0 : ℝ) < x := by exact_mod_cast h x hx
  positivity

theorem getLogz_eq {s : Shape} (h : ∀ x ∈ s, 0 < x) : getLogz s = .ok (Real.log (wt s)) := by
  have h1 : s.mapM (fun n => (do let x ← mathLog n; return (n : ℝ) * x : Res ℝ)) =
      .ok (s.map fun n : ℕ => (n : ℝ) * Real.log n) := by
    induction s with
    | nil => rfl
    | cons a s ih =>
      rw [List.mapM_cons, ih fun x hx => h x (List.mem_cons_of_mem _ hx)]
      unfold mathLog
      rw [if_pos (h a List.mem_cons_self)]
      rfl
  unfold getLogz
  rw [h1, Res.ok_bind, Res.pure_eq]
  congr 1
  clear h1
  induction s with
  | nil => simp [wt]
  | cons a s ih =>
    have ha : (0 : ℝ) < a := by exact_mod_cast h a List.mem_cons_self
    have hs := fun x hx => h x (List.mem_cons_of_mem a hx)
    have e : wt (a :: s) = (a : ℝ) ^ a * wt s := by simp [wt]
    rw [List.map_cons, List.sum_cons, ih hs, e, Real.log_mul (by positivity) (wt_pos hs).ne', Real.log_pow]

/-- The partition function. -/
noncomputable def zz (n : ℕ) : ℝ := ∑ P : Finpartition (range n), blockWeight P.parts

theorem blockWeight_pos {n : ℕ} (P : Finpartition (range n)) : 0 < blockWeight P.parts := by
  rw [← wt_shape]; exact wt_pos (shape_mem_pos P)

theorem zz_pos (n : ℕ) : 0 < zz n := by
  unfold zz
  exact Finset.sum_pos (fun P _ => blockWeight_pos P) ⟨⊥, mem_univ _⟩

variable {n : ℕ} {d : Dict ℕ}

theorem Counts.pos (h : Counts n d) {p : Shape × ℕ} (hp : p ∈ d) : ∀ x ∈ p.1, 0 < x := by
  obtain ⟨h1, h2⟩ := (h.mem p).1 hp
  obtain ⟨P, hP⟩ := shapeCount_pos.1 (h1 ▸ h2)
  rw [← hP]
  exact shape_mem_pos P

theorem mapM_ok_of {α β : Type} {f : α → Res β} {g : α → β} (l : List α) (h : ∀ a ∈ l, f a = .ok (g a)) :
    l.mapM f = .ok (l.map g) := by
  induction l with
  | nil => rfl
  | cons a l ih =>
    rw [List.mapM_cons, h a List.mem_cons_self, Res.ok_bind, ih fun b hb => h b (List.mem_cons_of_mem _ hb)]
    rfl

theorem logWeights_eq (h : Counts n d) :
    logWeights d = .ok (d.map fun p => (p.1, Real.log (wt p.1) + Real.log p.2)) := by
  unfold logWeights
  refine mapM_ok_of _ fun p hp => ?_
  rw [getLogz_eq (h.pos hp), Res.ok_bind, mathLog, if_pos (h.1.2 p hp), Res.ok_bind]
  rfl

theorem Counts.ne_nil (h : Counts n d) : d ≠ [] := by
  have hm := (h.mem (shape (⊥ : Finpartition (range n)).parts, shapeCount n (shape (⊥ : Finpartition (range n)).parts))).2
    ⟨rfl, (shapeCount_pos (n := n)).2 ⟨⊥, rfl⟩⟩
  exact List.ne_nil_of_mem hm

theorem reduce_eq (h : Counts n d) :
    logaddexpReduce ((d.map fun p => (p.1, Real.log (wt p.1) + Real.log p.2)).map Prod.snd) =
      .ok (Real.log (zz n)) := by
  have hs : (((d.map fun p => (p.1, Real.log (wt p.1) + Real.log p.2)).map Prod.snd).map Real.exp).sum =
      zz n := by
    rw [List.map_map, List.map_map]
    have h1 := h.sum wt
    simp only [wt_shape] at h1
    rw [zz, ← h1]
    congr 1
    refine List.map_congr_left fun p hp => ?_
    have hc : (0 : ℝ) < p.2 := by exact_mod_cast h.1.2 p hp
    simp only [Function.comp]
    rw [Real.exp_add, Real.exp_log (wt_pos (h.pos hp)), Real.exp_log hc, nsmul_eq_mul, mul_comm]
  have hne : (d.map fun p => (p.1, Real.log (wt p.1) + Real.log p.2)).map Prod.snd ≠ [] := by
    simpa using h.ne_nil
  generalize ((d.map fun p => (p.1, Real.log (wt p.1) + Real.log p.2)).map Prod.snd) = l at *
  cases l with
  | nil => exact absurd rfl hne
  | cons a l => rw [← hs]; rfl

theorem getLogZ_eq (h : Counts n d) : getLogZ d = .ok (Real.log (zz n)) := by
  unfold getLogZ
  rw [logWeights_eq h, Res.ok_bind, reduce_eq h]

/-- The probability of each clustering of all but `k` of `n` items, by shape. -/
noncomputable def uu (n : ℕ) : ℕ → Shape → ℝ
  | 0, s => wt s / zz n
  | k + 1, s => uu n k (1 :: s) + ((List.range s.length).map fun i => uu n k (bump s i)).sum

theorem getProbs_eq (h : Counts n d) : getProbs d = .ok (d.map fun p => (p.1, p.2 * uu n 0 p.1)) := by
  unfold getProbs
  rw [logWeights_eq h, Res.ok_bind, reduce_eq h, Res.ok_bind, Res.pure_eq, List.map_map]
  congr 1
  refine List.map_congr_left fun p hp => ?_
  have hc : (0 : ℝ) < p.2 := by exact_mod_cast h.1.2 p hp
  simp only [Function.comp]
  rw [Real.exp_sub, Real.exp_add, Real.exp_log (wt_pos (h.pos hp)), Real.exp_log hc, Real.exp_log (zz_pos n)]
  unfold uu
  rw [mul_comm, mul_div_assoc]

theorem get_of_mem {α : Type} {d : Dict α} (h : (d.map Prod.fst).Nodup) {s : Shape} {x : α} (hp : (s, x) ∈ d) :
    get d s = .ok x := by
  unfold get; rw [lookup_of_mem h hp]

theorem ratio_eq (h : Counts n d) (f : Shape → ℝ) {P : Finpartition (range n)} {s : Shape}
    (hs : shape P.parts = s) : ratio d (d.map fun p => (p.1, p.2 * f p.1)) s = .ok (f s) := by
  have hpos : 0 < shapeCount n s := shapeCount_pos.2 ⟨P, hs⟩
  have hm := (h.mem (s, shapeCount n s)).2 ⟨rfl, hpos⟩
  have hn : ((d.map fun p => (p.1, (p.2 : ℝ) * f p.1)).map Prod.fst).Nodup := by
    rw [List.map_map]; exact h.1.1
  have hm' : (s, (shapeCount n s : ℝ) * f s) ∈ d.map fun p => (p.1, (p.2 : ℝ) * f p.1) :=
    List.mem_map.2 ⟨_, hm, rfl⟩
  unfold ratio
  rw [get_of_mem hn hm', Res.ok_bind, get_of_mem h.1.1 hm, Res.ok_bind, if_neg hpos.ne', Res.pure_eq,
    mul_div_cancel_left₀ _ (by positivity)]

theorem smaller_eq {m : ℕ} {small large : Dict ℕ} (hs : Counts m small) (hl : Counts (m + 1) large)
    (f : Shape → ℝ) :
    getSmallerProbs small large (large.map fun p => (p.1, p.2 * f p.1)) =
      .ok (small.map fun p => (p.1, p.2 * (f (1 :: p.1) +
        ((List.range p.1.length).map fun i => f (bump p.1 i)).sum))) := by
  unfold getSmallerProbs
  rw [if_neg (by simp)]
  refine mapM_ok_of _ fun p hp => ?_
  obtain ⟨h1, h2⟩ := (hs.mem p).1 hp
  obtain ⟨Q, hQ⟩ := shapeCount_pos.1 (h1 ▸ h2)
  have hpart := Parts.of_finpartition Q
  have hi : m ∉ range m := by simp
  have hr : insert m (range m) = range (m + 1) := range_add_one.symm
  have key : ∀ b ∈ insert ∅ Q.parts, ∃ P : Finpartition (range (m + 1)), P.parts = put m b Q.parts := by
    intro b hb
    have := hpart.put hi hb
    rw [hr] at this
    exact ⟨this.toFinpartition, rfl⟩
  obtain ⟨P0, hP0⟩ := key ∅ (mem_insert_self _ _)
  rw [ratio_eq hl f (P := P0) (by rw [hP0, shape_put_empty hpart hi, hQ]), Res.ok_bind]
  have hrs : (List.range p.1.length).mapM (fun i => ratio large (large.map fun p => (p.1, p.2 * f p.1))
      (bump p.1 i)) = .ok ((List.range p.1.length).map fun i => f (bump p.1 i)) := by
    refine mapM_ok_of _ fun i hi' => ?_
    have hi'' : i < p.1.length := List.mem_range.1 hi'
    have hx : p.1[i] ∈ (shape Q.parts : Multiset ℕ) := by
      rw [hQ]; exact List.getElem_mem hi''
    rw [shape_coe, Multiset.mem_map] at hx
    obtain ⟨b, hb, hbc⟩ := hx
    obtain ⟨P, hP⟩ := key b (mem_insert_of_mem hb)
    exact ratio_eq hl f (P := P) (by rw [hP, shape_put_mem hpart hi hb, hQ, bump_eq _ _ hi'', hbc])
  rw [hrs, Res.ok_bind, Res.pure_eq]
  congr 3
  rw [zero_add]
  generalize (List.range p.1.length).map (fun i => f (bump p.1 i)) = l
  generalize f (1 :: p.1) = x
  induction l generalizing x with
  | nil => simp
  | cons a l ih => rw [List.foldl_cons, ih, List.sum_cons]; ring

theorem getSubprobs_eq {counts : ℕ → Dict ℕ} (hc : ∀ n, Counts n (counts n)) (N k : ℕ) (hk : k ≤ N) :
    getSubprobs counts N k = .ok ((counts (N - k)).map fun p => (p.1, p.2 * uu N k p.1)) := by
  induction k with
  | zero => exact getProbs_eq (hc N)
  | succ k ih =>
    unfold getSubprobs
    rw [if_neg (by omega), ih (by omega), Res.ok_bind]
    have hl := hc (N - k)
    rw [show N - k = N - (k + 1) + 1 by omega] at hl ⊢
    exact smaller_eq (hc _) hl (uu N k)

/-! ## Restricting a clustering -/

theorem restrict_self {n : ℕ} (P : Finpartition (range n)) : restrict (range n) P.parts = P.parts := by
  unfold Spec.restrict
  have h : P.parts.image (· ∩ range n) = P.parts := by
    rw [show P.parts.image (· ∩ range n) = P.parts.image id from
      Finset.image_congr fun b hb => inter_eq_left.2 (P.le hb)]
    exact image_id
  rw [h]
  exact erase_eq_of_notMem P.bot_notMem

theorem without_restrict (m : ℕ) (C : Finset (Finset ℕ)) :
    without m (restrict (range (m + 1)) C) = restrict (range m) C := by
  have e : ∀ b : Finset ℕ, (b ∩ range (m + 1)).erase m = b ∩ range m := by
    intro b; ext x; simp only [mem_erase, mem_inter, mem_range, ne_eq]
    constructor
    · rintro ⟨h1, h2, h3⟩; exact ⟨h2, by omega⟩
    · rintro ⟨h1, h2⟩; exact ⟨by omega, h1, by omega⟩
  unfold without Spec.restrict
  ext x
  simp only [mem_erase, mem_image, ne_eq]
  constructor
  · rintro ⟨hx, y, ⟨-, b, hb, rfl⟩, rfl⟩
    exact ⟨hx, b, hb, (e b).symm⟩
  · rintro ⟨hx, b, hb, rfl⟩
    refine ⟨hx, b ∩ range (m + 1), ⟨?_, b, hb, rfl⟩, e b⟩
    intro h0
    apply hx
    rw [← e b, h0]
    rfl

theorem marginal (N k : ℕ) (hk : k ≤ N) (G : Finset (Finset ℕ) → ℝ) :
    ∑ P : Finpartition (range N), G (restrict (range (N - k)) P.parts) * lowEntropyProb N P =
      ∑ Q : Finpartition (range (N - k)), G Q.parts * uu N k (shape Q.parts) := by
  induction k generalizing G with
  | zero =>
    have h : ∀ P : Finpartition (range N), G (Spec.restrict (range N) P.parts) * lowEntropyProb N P =
        G P.parts * uu N 0 (shape P.parts) := by
      intro P
      rw [restrict_self]
      unfold uu lowEntropyProb zz
      rw [wt_shape]
    exact Finset.sum_congr rfl fun P _ => h P
  | succ k ih =>
    have hm : N - k = N - (k + 1) + 1 := by omega
    have h := ih (by omega) fun C => G (without (N - (k + 1)) C)
    rw [hm] at h
    simp only [without_restrict] at h
    rw [h, sum_finpartition_succ (N - (k + 1)) fun C => G (without (N - (k + 1)) C) * uu N k (shape C)]
    refine Finset.sum_congr rfl fun Q _ => ?_
    have hQ := Parts.of_finpartition Q
    have hi : N - (k + 1) ∉ range (N - (k + 1)) := by simp
    rw [uu, ← sum_places hQ hi (uu N k), Finset.mul_sum]
    refine Finset.sum_congr rfl fun b hb => ?_
    rw [hQ.without_put hi hb]

theorem shapeProb_eq (N k : ℕ) (hk : k ≤ N) (s : Shape) :
    shapeProb N (N - k) s = shapeCount (N - k) s * uu N k s := by
  have h := marginal N k hk fun C => if shape C = s then 1 else 0
  simp only [ite_mul, one_mul, zero_mul] at h
  unfold shapeProb
  rw [h, shapeCount_eq]
  push_cast
  rw [Finset.sum_mul]
  refine Finset.sum_congr rfl fun Q _ => ?_
  by_cases hq : shape Q.parts = s
  · simp [hq]
  · simp [hq]

end Derivation

end Dist
