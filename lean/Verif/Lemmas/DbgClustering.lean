import Verif.Lemmas.GibbsDraw
import Verif.Lemmas.LowEntropyLaw
import Verif.Lemmas.Reference
import Verif.Model.DbgClustering

/-! # The reference implementation of the low-entropy clustering -/

namespace Dist.Dbg

open Spec FloatOps FloatNotation MeasureTheory

section Any

variable {F σ : Type} [FloatOps F]

theorem dartLoop_lt (ps : List F) (i : Nat) (t : F) (j : Nat) (h : dartLoop ps i t = some j) :
    j < i + ps.length := by
  induction ps generalizing i t with
  | nil => cases h
  | cons p ps ih =>
    rw [dartLoop] at h
    split_ifs at h
    · cases h; simp
    · have := ih _ _ h
      simp only [List.length_cons]; omega

theorem attempts_lt' (rng : Rng F σ) (ps : List F) (total : F) (n : Nat) (s s' : σ) (j : Nat)
    (h : attempts rng ps total n s = .ok (j, s')) : j < ps.length := by
  induction n generalizing s with
  | zero => cases h
  | succ n ih =>
    rw [attempts] at h
    simp only at h
    split at h
    · next i hi =>
      have := dartLoop_lt _ _ _ _ hi
      cases h
      omega
    · exact ih _ h

theorem attempts_not_ub (rng : Rng F σ) (ps : List F) (total : F) (n : Nat) (s : σ) :
    attempts rng ps total n s ≠ .ub := by
  induction n generalizing s with
  | zero => simp [attempts]
  | succ n ih =>
    rw [attempts]
    simp only
    split
    · simp
    · exact ih _

theorem sampleDiscreteLog_lt (rng : Rng F σ) (l : List F) (s s' : σ) (j : Nat)
    (h : sampleDiscreteLog rng s l = .ok (j, s')) : j < l.length := by
  obtain ⟨ps, hps, h⟩ := Res.bind_eq_ok.1 h
  have := attempts_lt' rng ps _ _ s s' j h
  cases l with
  | nil => cases hps
  | cons x xs =>
    simp only [scoresToProbs, Res.ok.injEq] at hps
    rw [← hps] at this
    simpa using this

theorem sampleDiscreteLog_not_ub (rng : Rng F σ) (l : List F) (s : σ) :
    sampleDiscreteLog rng s l ≠ .ub := by
  unfold sampleDiscreteLog
  cases l with
  | nil => simp [scoresToProbs, Res.fail_bind]
  | cons x xs =>
    simp only [scoresToProbs, Res.ok_bind]
    exact attempts_not_ub _ _ _ _ _

theorem pyLog_not_ub (x : F) : pyLog x ≠ .ub := by unfold pyLog; split_ifs <;> simp

theorem pyDiv_not_ub (x y : F) : pyDiv x y ≠ .ub := by unfold pyDiv; split_ifs <;> simp

theorem bind_not_ub {α β : Type} {r : Res α} {f : α → Res β} (h : r ≠ .ub) (hf : ∀ a, f a ≠ .ub) :
    (r >>= f) ≠ .ub := by
  cases r with
  | ok a => simpa [Res.ok_bind] using hf a
  | fail => simp [Res.fail_bind]
  | ub => exact absurd rfl h

namespace LowEntropy

theorem postpred_not_ub (N n : Int) : (postpredCorrection N n : Res F) ≠ .ub := by
  unfold postpredCorrection
  split_ifs
  · exact bind_not_ub (pyLog_not_ub _) fun _ => by simp [Res.pure_eq]
  · simp

theorem scoreAdd_not_ub (N g n e : Int) : (scoreAddValue N g n e : Res F) ≠ .ub := by
  unfold scoreAddValue
  split_ifs with h1 h2 h3
  · exact bind_not_ub (pyLog_not_ub _) fun _ =>
      bind_not_ub (postpred_not_ub _ _) fun _ => by simp [Res.pure_eq]
  · exact bind_not_ub (pyLog_not_ub _) fun _ => by simp [Res.pure_eq]
  · exact bind_not_ub (pyLog_not_ub _) fun _ => by simp [Res.pure_eq]
  · exact bind_not_ub (pyDiv_not_ub _ _) fun _ => bind_not_ub (pyLog_not_ub _) fun _ =>
      bind_not_ub (pyLog_not_ub _) fun _ => by simp [Res.pure_eq]
  · simp

/-- What the sampler holds after the assignments `p`: with or without an empty group at the end. -/
def Shape (p : List Nat) (tc : Nat) (counts : List Int) (scores : List F) : Prop :=
  (counts = Dist.LowEntropy.leCounts p tc ∧ scores.length = tc) ∨
    (counts = Dist.LowEntropy.leCounts p tc ++ [0] ∧ scores.length = tc + 1)

/-- One round of the loop. -/
theorem sampleLoop_step (N : Int) (rng : Rng F σ) (n : Nat) (counts : List Int) (scores : List F)
    (p : List Nat) (tc : Nat) (hb : ∀ y, y ∈ p ↔ y < tc) (hh : Shape p tc counts scores) (s : σ) :
    sampleLoop N rng (n + 1) counts scores p.length s = (do
      let se ← scoreAddValue N 0 p.length 1
      let (a, s) ← sampleDiscreteLog rng s (scores.take tc ++ [se])
      let sc ← scoreAddValue N ((p.count a : Nat) + 1) 0 1
      let (rest, s) ← sampleLoop N rng n
        ((Dist.LowEntropy.leCounts p tc ++ [0]).set a ((p.count a : Nat) + 1 : Int))
        ((scores.take tc ++ [se]).set a sc) ((p ++ [a]).length : Int) s
      return (a :: rest, s)) := by
  have hlast : (Dist.LowEntropy.leCounts p tc).getLast? ≠ some 0 := by
    intro h
    have := List.mem_of_getLast? h
    simp only [Dist.LowEntropy.leCounts, List.mem_map, List.mem_range] at this
    obtain ⟨g, hg, h0⟩ := this
    have := List.count_pos_iff.mpr ((hb g).mpr hg)
    omega
  rw [sampleLoop]
  congr 1
  funext se
  have hroom : (if counts.length = 0 ∨ counts.getLast? ≠ some 0 then
      (.ok (counts ++ [0], scores ++ [se]) : Res (List Int × List F))
    else if scores.isEmpty then .fail
    else .ok (counts, scores.dropLast ++ [se])) =
      .ok (Dist.LowEntropy.leCounts p tc ++ [0], scores.take tc ++ [se]) := by
    rcases hh with ⟨rfl, hl⟩ | ⟨rfl, hl⟩
    · rw [if_pos (.inr hlast), List.take_of_length_le (by omega)]
    · rw [if_neg (by simp), if_neg (by
        simp only [List.isEmpty_iff]; rintro rfl; simp at hl), List.dropLast_eq_take, hl]
      rfl
  rw [hroom, Res.ok_bind]
  simp only
  have hlen : (scores.take tc ++ [se]).length = tc + 1 := by
    rcases hh with ⟨_, hl⟩ | ⟨_, hl⟩ <;> simp [hl]
  cases hd : sampleDiscreteLog rng s (scores.take tc ++ [se]) with
  | fail => simp [Res.fail_bind]
  | ub => simp [Res.ub_bind]
  | ok q =>
    obtain ⟨a, s1⟩ := q
    have ha : a < tc + 1 := hlen ▸ sampleDiscreteLog_lt rng _ s s1 a hd
    have hget : (Dist.LowEntropy.leCounts p tc ++ [0])[a]? = some ((p.count a : Nat) : Int) := by
      rcases Nat.lt_or_ge a tc with h | h
      · rw [List.getElem?_append_left (by simpa [Dist.LowEntropy.leCounts] using h)]
        simp [Dist.LowEntropy.leCounts, h]
      · have : a = tc := by omega
        subst this
        have hn : a ∉ p := fun h => by have := (hb a).mp h; omega
        rw [List.getElem?_append_right (by simp [Dist.LowEntropy.leCounts])]
        simp [Dist.LowEntropy.leCounts, List.count_eq_zero.mpr hn]
    simp only [Res.ok_bind, hget]
    congr 1
    funext sc
    rw [if_pos (by rw [hlen]; exact ha)]
    simp

theorem shape_next (p : List Nat) (tc a : Nat) (ha : a ≤ tc) (scores : List F)
    (hl : scores.length = tc + 1) :
    Shape (p ++ [a]) (if a = tc then tc + 1 else tc)
      ((Dist.LowEntropy.leCounts p tc ++ [0]).set a ((p.count a : Nat) + 1 : Int)) scores := by
  by_cases h : a = tc
  · subst h
    rw [if_pos rfl, Dist.LowEntropy.leCounts_new]
    exact .inl ⟨rfl, hl⟩
  · rw [if_neg h, Dist.LowEntropy.leCounts_join p tc a (by omega)]
    exact .inr ⟨rfl, hl⟩

theorem bound_next {p : List Nat} {tc a : Nat} (hb : ∀ y, y ∈ p ↔ y < tc) (ha : a ≤ tc) :
    ∀ y, y ∈ p ++ [a] ↔ y < if a = tc then tc + 1 else tc := by
  intro y
  rw [List.mem_append, hb, List.mem_singleton]
  split_ifs <;> omega

theorem sampleLoop_not_ub (N : Int) (rng : Rng F σ) (n : Nat) (counts : List Int) (scores : List F)
    (size : Int) (s : σ) : sampleLoop N rng n counts scores size s ≠ .ub := by
  induction n generalizing counts scores size s with
  | zero => simp [sampleLoop]
  | succ n ih =>
    rw [sampleLoop]
    refine bind_not_ub (scoreAdd_not_ub _ _ _ _) fun se => bind_not_ub (by split_ifs <;> simp) ?_
    rintro ⟨cs, ss⟩
    refine bind_not_ub (sampleDiscreteLog_not_ub _ _ _) ?_
    rintro ⟨a, s1⟩
    simp only
    split
    · simp
    · refine bind_not_ub (scoreAdd_not_ub _ _ _ _) fun sc => ?_
      split_ifs
      · exact bind_not_ub (ih _ _ _ _) fun _ => by simp [Res.pure_eq]
      · simp

theorem sampleLoop_valid (N : Int) (rng : Rng F σ) (n : Nat) (counts : List Int) (scores : List F)
    (p : List Nat) (tc : Nat) (hp : Contiguous p) (hb : ∀ y, y ∈ p ↔ y < tc)
    (hh : Shape p tc counts scores) (s s' : σ) (rest : List Nat)
    (h : sampleLoop N rng n counts scores p.length s = .ok (rest, s')) :
    rest.length = n ∧ Contiguous (p ++ rest) := by
  induction n generalizing counts scores p tc s rest with
  | zero =>
    simp only [sampleLoop, Res.ok.injEq, Prod.mk.injEq] at h
    obtain ⟨rfl, -⟩ := h
    simpa using hp
  | succ n ih =>
    rw [sampleLoop_step N rng n counts scores p tc hb hh s] at h
    obtain ⟨se, -, h⟩ := Res.bind_eq_ok.1 h
    obtain ⟨⟨a, s1⟩, hd, h⟩ := Res.bind_eq_ok.1 h
    obtain ⟨sc, -, h⟩ := Res.bind_eq_ok.1 h
    obtain ⟨⟨rest', s2⟩, hr, h⟩ := Res.bind_eq_ok.1 h
    simp only [Res.pure_eq, Res.ok.injEq, Prod.mk.injEq] at h
    obtain ⟨rfl, rfl⟩ := h
    have hlen : (scores.take tc ++ [se]).length = tc + 1 := by
      rcases hh with ⟨_, hl⟩ | ⟨_, hl⟩ <;> simp [hl]
    have ha : a ≤ tc := by
      have := sampleDiscreteLog_lt rng _ s s1 a hd
      omega
    obtain ⟨h1, h2⟩ := ih _ _ (p ++ [a]) _ ((contiguous_append_of_bound hb).mpr ⟨hp, ha⟩)
      (bound_next hb ha) (shape_next p tc a ha _ (by simpa using hlen)) s1 rest' hr
    exact ⟨by simpa using h1, by simpa using h2⟩

end LowEntropy

end Any

namespace LowEntropy

/-- `score_add_value(g, _, n, 1)` of the reference as a number. -/
noncomputable def addScore (N : Int) (g n : ℕ) : ℝ :=
  if g = 0 then if (n : Int) + 1 < N then
    Real.log ((N / ((n : Int) + 1) : Int) : ℝ) * (45 / 100 - 1 / 10 / ((n : ℝ) + 1) - 1 / 10 / N)
    else 0
  else if g > 10000 then 1 + Real.log (1 + g)
  else Real.log ((1 + g) / g) * g + Real.log (1 + g)

theorem postpred_eq (N n : Int) (h0 : 0 < n) (h1 : n < N) :
    (postpredCorrection N n : Res XR) = .ok (.fin (Real.log ((N / n : Int) : ℝ) *
      (45 / 100 - 1 / 10 / n - 1 / 10 / N))) := by
  have hn : (n : ℝ) ≠ 0 := by exact_mod_cast h0.ne'
  have hN : (N : ℝ) ≠ 0 := by exact_mod_cast (by omega : N ≠ 0)
  have hq : 0 < N / n := by
    have := Int.le_ediv_of_mul_le h0 (show 1 * n ≤ N by omega)
    omega
  unfold postpredCorrection
  rw [if_pos ⟨h0, h1⟩]
  simp only [XR.ofInt_eq, XR.lit_eq]
  rw [pyLog_fin (by exact_mod_cast hq), Res.ok_bind, XR.fin_div _ _ hn, XR.fin_div _ _ hN]
  simp [Res.pure_eq]

theorem scoreAdd_eq (N : Int) (g n : ℕ) (hn : (n : Int) < N) :
    (scoreAddValue N g n 1 : Res XR) = .ok (.fin (addScore N g n)) := by
  unfold scoreAddValue addScore
  rw [if_pos ⟨hn, one_pos⟩]
  by_cases hg : g = 0
  · subst hg
    rw [if_pos (by simp), if_pos rfl]
    simp only [XR.ofInt_eq]
    rw [pyLog_fin (by norm_num), Res.ok_bind]
    by_cases h : (n : Int) + 1 < N
    · rw [if_pos h, if_pos h, postpred_eq N _ (by omega) h, Res.ok_bind]
      simp [Res.pure_eq]
    · rw [if_neg h, if_neg h]
      simp [Res.pure_eq]
  · have hgp : (0 : ℝ) < g := by exact_mod_cast Nat.pos_of_ne_zero hg
    rw [if_neg (by exact_mod_cast hg), if_neg hg]
    simp only [XR.ofInt_eq, XR.lit_eq, XR.fin_add, Int.cast_natCast]
    by_cases h : g > 10000
    · rw [if_pos (by omega), if_pos h, pyLog_fin (by norm_num; linarith), Res.ok_bind]
      simp [Res.pure_eq]
    · rw [if_neg (by omega), if_neg h, pyDiv_fin hgp.ne', Res.ok_bind,
        pyLog_fin (by norm_num; positivity), Res.ok_bind, pyLog_fin (by norm_num; linarith),
        Res.ok_bind]
      simp [Res.pure_eq]

theorem addScore_pos (N : Int) {g : ℕ} (hg : g ≠ 0) (n n' : ℕ) :
    addScore N g n = addScore N g n' := by
  unfold addScore
  rw [if_neg hg, if_neg hg]

/-- Scores of the groups that are not empty. -/
noncomputable def heads (N : Int) (p : List ℕ) (tc : ℕ) : List ℝ :=
  (List.range tc).map fun g => addScore N (p.count g) p.length

theorem heads_length (N : Int) (p : List ℕ) (tc : ℕ) : (heads N p tc).length = tc := by
  simp [heads]

/-- Scores of all groups. -/
noncomputable def allScores (N : Int) (p : List ℕ) (tc : ℕ) : List ℝ :=
  heads N p tc ++ [addScore N 0 p.length]

theorem allScores_length (N : Int) (p : List ℕ) (tc : ℕ) : (allScores N p tc).length = tc + 1 := by
  simp [allScores, heads]

theorem allScores_get (N : Int) (p : List ℕ) (tc i : ℕ) (hb : ∀ y, y ∈ p ↔ y < tc)
    (hi : i < (allScores N p tc).length) :
    (allScores N p tc)[i] = addScore N (p.count i) p.length := by
  have hi' : i < tc + 1 := by simpa [allScores_length] using hi
  simp only [allScores]
  by_cases h : i < tc
  · rw [List.getElem_append_left (by rw [heads_length]; exact h)]
    simp [heads]
  · have : i = tc := by omega
    subst this
    rw [List.getElem_append_right (by rw [heads_length])]
    have : p.count i = 0 := List.count_eq_zero.mpr fun h => by have := (hb i).mp h; omega
    simp [this]

theorem allScores_sum (N : Int) (p : List ℕ) (tc : ℕ) (hb : ∀ y, y ∈ p ↔ y < tc) :
    ((allScores N p tc).map Real.exp).sum =
      ∑ g ∈ p.toFinset, Real.exp (addScore N (p.count g) p.length) +
        Real.exp (addScore N 0 p.length) := by
  rw [toFinset_of_bound hb]
  unfold allScores heads
  rw [List.map_append, List.sum_append, List.map_map]
  simp only [List.map_cons, List.map_nil, List.sum_singleton]
  rfl

/-- The scores after the next choice. -/
theorem allScores_next (N : Int) (p : List ℕ) (tc a : ℕ) (hb : ∀ y, y ∈ p ↔ y < tc) (ha : a ≤ tc) :
    ∀ tc', tc' = (if a = tc then tc + 1 else tc) →
    ((allScores N p tc).set a (addScore N (p.count a + 1) 0)).take tc' =
      heads N (p ++ [a]) tc' := by
  intro tc' htc
  apply List.ext_getElem
  · simp only [List.length_take, List.length_set, allScores_length, heads_length]
    split_ifs at htc <;> omega
  · intro i h1 h2
    rw [List.getElem_take, List.getElem_set]
    rw [heads_length] at h2
    have hi : i < (allScores N p tc).length := by
      rw [allScores_length]; split_ifs at htc <;> omega
    simp only [heads, List.getElem_map, List.getElem_range, List.count_append, List.count_singleton]
    by_cases hai : a = i
    · subst hai
      simp only [if_true, beq_self_eq_true]
      exact addScore_pos N (by omega) _ _
    · rw [if_neg hai, allScores_get N p tc i hb hi]
      have hne : ¬ (a == i) = true := by simpa using hai
      rw [if_neg hne, add_zero]
      have : p.count i ≠ 0 := by
        have hic : i < tc := by split_ifs at htc <;> omega
        have := List.count_pos_iff.mpr ((hb i).mpr hic)
        omega
      exact addScore_pos N this _ _

variable {σ : Type} [MeasurableSpace σ]

theorem sampleLoop_law (I : IdealRng σ) (N : Int) (rest p : List ℕ) (tc : ℕ)
    (hb : ∀ y, y ∈ p ↔ y < tc) (counts : List Int) (scores : List XR)
    (hh : Shape p tc counts scores) (ht : scores.take tc = (heads N p tc).map XR.fin)
    (hc : Contiguous (p ++ rest)) (hsz : ((p.length + rest.length : ℕ) : Int) ≤ N) {B : Set σ}
    (hB : MeasurableSet B) :
    MeasurableSet {s | ∃ s' ∈ B,
      sampleLoop N I.toRng rest.length counts scores p.length s = .ok (rest, s')} ∧
    I.P {s | ∃ s' ∈ B,
      sampleLoop N I.toRng rest.length counts scores p.length s = .ok (rest, s')} =
      ENNReal.ofReal (sequentialProb (addScore N) p rest) * I.P B := by
  induction rest generalizing p tc counts scores with
  | nil => simp [sampleLoop, hB, sequentialProb]
  | cons x rest ih =>
    have hc' : Contiguous ((p ++ [x]) ++ rest) := by simpa using hc
    have hpx : Contiguous (p ++ [x]) := by
      intro i y hy z hz
      have hi : i < (p ++ [x]).length := by
        by_contra h
        rw [List.getElem?_eq_none (by omega)] at hy
        cases hy
      have := hc' i y (by rw [List.getElem?_append_left hi]; exact hy) z hz
      rwa [List.take_append_of_le_length (by omega)] at this
    have hxk : x ≤ tc := ((contiguous_append_of_bound hb).mp hpx).2
    have hlen := allScores_length N p tc
    have hsz' : (p.length : Int) < N := by
      simp only [List.length_cons] at hsz; omega
    have hfull : scores.take tc ++ [XR.fin (addScore N 0 p.length)] =
        (allScores N p tc).map XR.fin := by
      rw [ht]; simp [allScores]
    set tc' := if x = tc then tc + 1 else tc with htc'
    obtain ⟨hm, hP⟩ := ih (p ++ [x]) tc' (bound_next hb hxk)
      ((Dist.LowEntropy.leCounts p tc ++ [0]).set x ((p.count x : Nat) + 1 : Int))
      (((allScores N p tc).map XR.fin).set x (.fin (addScore N (p.count x + 1) 0)))
      (shape_next p tc x hxk _ (by simp [hlen]))
      (by rw [← List.map_set, ← List.map_take, allScores_next N p tc x hb hxk _ htc']) hc'
      (by simp only [List.length_append, List.length_cons, List.length_nil] at hsz ⊢; omega)
    have hne : allScores N p tc ≠ [] := by
      intro h; rw [h] at hlen; simp at hlen
    obtain ⟨-, hdraw⟩ := sampleDiscreteLog_softmax I (allScores N p tc) hne
    obtain ⟨hm2, hP2⟩ := hdraw x (by omega) _ hm
    have hset : {s | ∃ s' ∈ B, sampleLoop N I.toRng (x :: rest).length counts scores p.length s =
          .ok (x :: rest, s')} =
        {s | ∃ s' ∈ {s | ∃ s' ∈ B, sampleLoop N I.toRng rest.length
            ((Dist.LowEntropy.leCounts p tc ++ [0]).set x ((p.count x : Nat) + 1 : Int))
            (((allScores N p tc).map XR.fin).set x (.fin (addScore N (p.count x + 1) 0)))
            ((p ++ [x]).length : Int) s = .ok (rest, s')},
          sampleDiscreteLog I.toRng s ((allScores N p tc).map XR.fin) = .ok (x, s')} := by
      ext s
      simp only [Set.mem_setOf_eq]
      rw [List.length_cons, sampleLoop_step N I.toRng rest.length counts scores p tc hb hh s]
      have h0 := scoreAdd_eq N 0 p.length hsz'
      rw [Nat.cast_zero] at h0
      rw [h0, Res.ok_bind, hfull]
      have hs1 : ∀ a : ℕ, (scoreAddValue N ((p.count a : ℕ) + 1 : Int) 0 1 : Res XR) =
          .ok (.fin (addScore N (p.count a + 1) 0)) := by
        intro a
        have := scoreAdd_eq N (p.count a + 1) 0 (by push_cast; omega)
        simpa using this
      cases hd : sampleDiscreteLog I.toRng s ((allScores N p tc).map XR.fin) with
      | fail => simp [Res.fail_bind]
      | ub => simp [Res.ub_bind]
      | ok q =>
        obtain ⟨a, s1⟩ := q
        simp only [Res.ok_bind, hs1]
        by_cases hax : a = x
        · subst hax
          have hR : ∀ (X : Res (List ℕ × σ)) s', ((do
              let q ← X
              pure (a :: q.1, q.2) : Res (List ℕ × σ)) = .ok (a :: rest, s')) ↔
              X = .ok (rest, s') := by
            intro X s'
            rcases X with ⟨r, s2⟩ | _ | _
            · simp [Res.ok_bind, Res.pure_eq]
            · simp [Res.fail_bind]
            · simp [Res.ub_bind]
          have hR2 : ∀ s' : σ, (Res.ok (a, s1) = Res.ok (a, s')) ↔ s1 = s' := by simp
          simp only [hR2]
          rw [exists_eq_right']
          simp only [hR]
        · have hR2 : ∀ s' : σ, ¬ (Res.ok (a, s1) = Res.ok (x, s')) := by simp [hax]
          simp only [hR2, and_false, exists_false, iff_false]
          rintro ⟨s', -, h⟩
          obtain ⟨q, -, h⟩ := Res.bind_eq_ok.mp h
          cases h
          exact hax rfl
    rw [hset]
    refine ⟨hm2, ?_⟩
    rw [hP2, hP, allScores_get N p tc x hb, allScores_sum N p tc hb, ← mul_assoc,
      ← ENNReal.ofReal_mul (by positivity)]
    rfl

end LowEntropy

end Dist.Dbg
