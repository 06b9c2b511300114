import Verif.Lemmas.DD

/-! # Dirichlet-Discrete: properties C25-C30

Values are `Fin dim`: legal values are those below the dimension; every other value
fails the assertion or is undefined behaviour. -/

namespace Dist

open Spec FloatOps FloatNotation

/-! ## C25 -/

/-- **C25 (Dirichlet-Discrete).** After any history of additions and removals, in any
order and with debt allowed, the statistics are the net counts and their sum. -/
theorem C25_dd_history (lvl dim : Nat) (h : List (ValueOp (Fin dim)))
    (hl : h.length ≤ 2147483647) :
    runGroup (DD.opsFin lvl dim) (DD.Group.init dim) h =
      .ok ⟨∑ v, net h v, List.ofFn (net h)⟩ := by
  have hl' : (h.length : Int) ≤ 2147483647 := by exact_mod_cast hl
  rw [DD.init_eq, DD.run_eq lvl h 0 (fun _ => 0) (by simpa using hl') (fun _ => by simpa using hl'),
    DD.netTotal_eq]
  simp [DD.mk]

/-- Histories with the same net effect give the same group. -/
theorem C25_dd_order (lvl dim : Nat) (h₁ h₂ : List (ValueOp (Fin dim)))
    (hl₁ : h₁.length ≤ 2147483647) (hl₂ : h₂.length ≤ 2147483647)
    (hn : ∀ v, net h₁ v = net h₂ v) :
    runGroup (DD.opsFin lvl dim) (DD.Group.init dim) h₁ =
      runGroup (DD.opsFin lvl dim) (DD.Group.init dim) h₂ := by
  rw [C25_dd_history lvl dim h₁ hl₁, C25_dd_history lvl dim h₂ hl₂, funext hn]

/-- For histories that only remove what is there (of any length), the statistics count
the values held. -/
theorem C25_dd_contents (lvl dim : Nat) (h : List (ValueOp (Fin dim))) (hv : ValidValues 0 h) :
    runGroup (DD.opsFin lvl dim) (DD.Group.init dim) h =
      .ok ⟨(contents 0 h).card, List.ofFn fun v => ((contents 0 h).count v : Int)⟩ := by
  obtain ⟨g, e, hg, _⟩ := runGroup_summarises (DD.summarises lvl dim) h (DD.Group.init dim) 0
    (DD.summarises lvl dim).init hv
  rw [e, hg]; rfl

/-- `remove_value` undoes `add_value` and conversely, in every state with `int` entries
and for every value, legal or not. -/
theorem C25_dd_inverse (lvl : Nat) (g g' : DD.Group) (hs : InInt32 g.countSum)
    (hc : ∀ c ∈ g.counts, InInt32 c) (v : Int) :
    (g.addValue lvl v = .ok g' → g'.removeValue lvl v = .ok g) ∧
    (g.removeValue lvl v = .ok g' → g'.addValue lvl v = .ok g) := by
  have main : ∀ k : Int, g.addRepeatedValue lvl v k = .ok g' →
      g'.addRepeatedValue lvl v (-k) = .ok g := by
    intro k h
    obtain ⟨s, c⟩ := g
    simp only [DD.Group.addRepeatedValue, Res.bind_eq_ok, Res.pure_eq, Res.ok.injEq] at h
    obtain ⟨_, ha, s', h1, x, h2, y, h3, cs, h4, rfl⟩ := h
    rw [i32_eq_ok] at h1 h3
    obtain ⟨_, rfl⟩ := h1
    obtain ⟨_, rfl⟩ := h3
    unfold DD.readAt at h2
    unfold DD.writeAt at h4
    split_ifs at h2 with h0
    rw [if_pos h0] at h4
    rw [getAt_eq_ok] at h2
    obtain ⟨hlt, rfl⟩ := List.getElem?_eq_some_iff.mp h2
    rw [setAt_of hlt] at h4
    simp only [Res.ok.injEq] at h4
    subst h4
    have hlen : (c.set v.toNat (c[v.toNat] + k)).length = c.length := by simp
    simp only [DD.Group.addRepeatedValue, DD.readAt, DD.writeAt, if_pos h0]
    have ha' : distAssert lvl 1 (v < ((c.set v.toNat (c[v.toNat] + k)).length : Int)) = .ok () := by
      apply distAssert_of; omega
    rw [ha']
    simp only [Res.ok_bind]
    rw [i32_of (by simpa using hs), getAt_of (by omega)]
    simp only [Res.ok_bind, List.getElem_set_self]
    rw [i32_of (by simpa using hc _ (List.getElem_mem hlt)), Res.ok_bind, setAt_of (by omega)]
    simp
  exact ⟨main 1, main (-1)⟩

example : runGroup (DD.opsFin 1 3) (DD.Group.init 3) [.remove 2, .add 0, .add 2, .add 2] =
    .ok ⟨2, [1, 0, 1]⟩ := by decide

/-! ## C26 -/

/-- **C26 (Dirichlet-Discrete).** From every group state (with `int` entries and any
total), `add_repeated_value(v, n)` and `n` times `add_value(v)` have the same outcome
(including signed overflow), for every legal value. -/
theorem C26_dd (lvl dim : Nat) (g : DD.Group) (hs : InInt32 g.countSum)
    (hc : ∀ c ∈ g.counts, InInt32 c) (hd : g.counts.length = dim) (v : Fin dim) (n : Nat) :
    g.addRepeatedValue lvl (v : Nat) n = addTimes (DD.opsFin lvl dim) g v n := by
  obtain ⟨s, c⟩ := g
  simp only at hs hc hd ⊢
  subst hd
  obtain ⟨m, f, rfl, hcf⟩ : ∃ (m : Nat) (f : Fin m → Int), c = List.ofFn f ∧ c.length = m :=
    ⟨c.length, fun i => c[i], by simp, rfl⟩
  have hfi : ∀ i, InInt32 (f i) := fun i => hc _ (by simp)
  clear hc
  generalize (List.ofFn f).length = L at *
  subst hcf
  show (DD.mk s f).addRepeatedValue lvl (v : Nat) n = addTimes (DD.opsFin lvl L) (DD.mk s f) v n
  induction n generalizing s f with
  | zero =>
    rw [DD.bump_ok _ _ _ _ _ (by simpa using hs) (by simpa using hfi _)]
    simp [addTimes, addAll]
  | succ n ih =>
    simp only [addTimes, List.replicate_succ, addAll, DD.opsFin]
    rw [DD.addValue_eq]
    by_cases hb : InInt32 (s + 1)
    · by_cases hb2 : InInt32 (f v + 1)
      · rw [DD.bump_ok _ _ _ _ _ hb hb2]
        simp only [Res.ok_bind]
        have := ih (s + 1) hb (Function.update f v (f v + 1)) (by
          intro i; by_cases e : i = v
          · subst e; simpa using hb2
          · rw [Function.update_of_ne e]; exact hfi i)
        simp only [addTimes, DD.opsFin] at this
        rw [← this, DD.bump_eq, DD.bump_eq]
        push_cast
        simp only [Function.update_self, Function.update_idem]
        rw [show s + (n + 1 : Int) = s + 1 + n by ring,
          show f v + (n + 1 : Int) = f v + 1 + n by ring]
      · have : ¬ InInt32 (f v + (n + 1 : Nat)) := by
          have := hfi v
          unfold InInt32 int32Min int32Max at hb2 this ⊢; push_cast; omega
        rw [DD.bump_eq, DD.bump_eq]
        simp only [i32, if_neg hb2, if_neg this, Res.ub_bind]
        by_cases h3 : InInt32 (s + ((n + 1 : Nat) : Int)) <;>
        by_cases h4 : InInt32 (s + 1) <;>
          simp only [h3, h4, if_true, if_false, Res.ok_bind, Res.ub_bind]
    · have : ¬ InInt32 (s + (n + 1 : Nat)) := by
        unfold InInt32 int32Min int32Max at hb hs ⊢; push_cast; omega
      rw [DD.bump_eq, DD.bump_eq]
      simp only [i32, if_neg hb, if_neg this, Res.ub_bind]

/-- A value at or beyond the dimension, or a negative one, is never counted. -/
theorem C26_dd_illegal (lvl : Nat) (g g' : DD.Group) (v k : Int)
    (hv : ¬ (0 ≤ v ∧ v < g.counts.length)) : g.addRepeatedValue lvl v k ≠ .ok g' := by
  intro h
  simp only [DD.Group.addRepeatedValue, Res.bind_eq_ok, DD.readAt] at h
  obtain ⟨_, _, s', _, x, h2, _⟩ := h
  split_ifs at h2 with h0
  rw [getAt_eq_ok] at h2
  obtain ⟨hlt, _⟩ := List.getElem?_eq_some_iff.mp h2
  omega

example : (⟨3, [1, 2]⟩ : DD.Group).addRepeatedValue 1 1 4 = .ok ⟨7, [1, 6]⟩ := by decide

/-! ## C27 -/

namespace DD

theorem mergeLoop_ok {n : Nat} (a b : Fin n → Int) (h : ∀ i, InInt32 (a i + b i)) :
    Group.mergeLoop (List.ofFn a) (List.ofFn b) = .ok (List.ofFn fun i => a i + b i) := by
  induction n with
  | zero => simp [Group.mergeLoop]
  | succ n ih =>
    simp only [List.ofFn_succ, Group.mergeLoop, i32_of (h 0), Res.ok_bind,
      ih (fun i => a i.succ) (fun i => b i.succ) (fun i => h _), Res.pure_eq]

end DD

/-- **C27 (Dirichlet-Discrete), what holds.** Merging the groups of two data sets gives
the counts, and hence bit for bit the predictive scores, of the group of their
concatenation.

Full statement: the merged group *is* the group of the concatenation.  Missing: `merge`
does not update the total, so the merged group keeps the total of the first data set;
see `C27_dd_merge_total`. -/
theorem C27_dd_partial (lvl dim : Nat) (xs ys : List (Fin dim))
    (hl : xs.length + ys.length ≤ 2147483647) :
    ∃ gx gy g m, addAll (DD.opsFin lvl dim) (DD.Group.init dim) xs = .ok gx ∧
      addAll (DD.opsFin lvl dim) (DD.Group.init dim) ys = .ok gy ∧
      addAll (DD.opsFin lvl dim) (DD.Group.init dim) (xs ++ ys) = .ok g ∧ gx.merge gy = .ok m ∧
      m.counts = g.counts ∧ m.countSum = xs.length ∧
      ∀ (F : Type) [FloatOps F] (sh : DD.Shared F) (v : Int),
        m.scoreValue lvl sh v = g.scoreValue lvl sh v := by
  obtain ⟨gx, ex, hx, _⟩ := addAll_summarises (DD.summarises lvl dim) xs (by omega)
  obtain ⟨gy, ey, hy, _⟩ := addAll_summarises (DD.summarises lvl dim) ys (by omega)
  obtain ⟨g, e, hg, _⟩ := addAll_summarises (DD.summarises lvl dim) (xs ++ ys) (by simpa using hl)
  have hm : gx.merge gy = .ok ⟨xs.length, g.counts⟩ := by
    subst hx hy hg
    simp only [DD.Group.merge, DD.mk]
    rw [DD.mergeLoop_ok]
    · simp
    · intro v
      have h1 := List.count_le_length (a := v) (l := xs)
      have h2 := List.count_le_length (a := v) (l := ys)
      simp only [Multiset.coe_count]
      unfold InInt32 int32Min int32Max; omega
  refine ⟨gx, gy, g, _, ex, ey, e, hm, rfl, rfl, ?_⟩
  intro F _ sh v
  rfl

/-- **C27 (Dirichlet-Discrete), finding.** Whenever the second data set is not empty,
the merged group differs from the group of the concatenation: its total is too small. -/
theorem C27_dd_merge_total (lvl dim : Nat) (xs ys : List (Fin dim)) (hy : ys ≠ [])
    (hl : xs.length + ys.length ≤ 2147483647) :
    ∃ gx gy g m, addAll (DD.opsFin lvl dim) (DD.Group.init dim) xs = .ok gx ∧
      addAll (DD.opsFin lvl dim) (DD.Group.init dim) ys = .ok gy ∧
      addAll (DD.opsFin lvl dim) (DD.Group.init dim) (xs ++ ys) = .ok g ∧ gx.merge gy = .ok m ∧
      m ≠ g := by
  obtain ⟨gx, gy, g, m, h1, h2, h3, h4, _, h6, _⟩ := C27_dd_partial lvl dim xs ys hl
  refine ⟨gx, gy, g, m, h1, h2, h3, h4, ?_⟩
  rintro rfl
  obtain ⟨g, e, hg, _⟩ := addAll_summarises (DD.summarises lvl dim) (xs ++ ys) (by simpa using hl)
  have := h3.symm.trans e
  simp only [Res.ok.injEq] at this
  subst this
  have : m.countSum = (xs.length + ys.length : Nat) := by rw [hg]; simp [DD.mk]
  have hpos : 0 < ys.length := List.length_pos_iff.mpr hy
  omega

/-- **C27 (Dirichlet-Discrete), finding.** So the data score after a merge is wrong:
with two values, alphas 1, and one observation of value 0 in each group, the merged
group scores its data `log 1` while the group of both observations scores `log (1/3)`. -/
theorem C27_dd_merge_score (lvl : Nat) :
    ∃ gx g m : DD.Group, addAll (DD.opsFin lvl 2) (DD.Group.init 2) [0] = .ok gx ∧
      addAll (DD.opsFin lvl 2) (DD.Group.init 2) [0, 0] = .ok g ∧ gx.merge gx = .ok m ∧
      m.scoreData (DD.real (n := 2) fun _ => 1) = .ok (.fin (Real.log 1)) ∧
      g.scoreData (DD.real (n := 2) fun _ => 1) = .ok (.fin (Real.log (1 / 3))) := by
  obtain ⟨gx, ex, hx, _⟩ := addAll_summarises (DD.summarises lvl 2) [0] (by simp)
  obtain ⟨g, e, hg, _⟩ := addAll_summarises (DD.summarises lvl 2) [0, 0] (by simp)
  have g3 : Real.Gamma 3 = 2 := by
    rw [show (3 : ℝ) = (2 : ℕ) + 1 by norm_num, Real.Gamma_nat_eq_factorial]; rfl
  have g4 : Real.Gamma 4 = 6 := by
    rw [show (4 : ℝ) = (3 : ℕ) + 1 by norm_num, Real.Gamma_nat_eq_factorial]; norm_num [Nat.factorial]
  have hg' : g = DD.mk (n := 2) 2 ![2, 0] := by subst hg; decide
  refine ⟨gx, g, DD.mk (n := 2) 1 ![2, 0], ex, e, ?_, ?_, ?_⟩
  · subst hx; decide
  · rw [DD.scoreData_eq]
    · norm_num [Fin.sum_univ_two, g3]
    · simp
    · intro i; fin_cases i <;> norm_num
    · simp
    · simp; norm_num
  · rw [hg', DD.scoreData_eq]
    · norm_num [Fin.sum_univ_two, g3, g4]
      rw [← sub_eq_add_neg, ← Real.log_div (by norm_num) (by norm_num)]; norm_num
    · simp
    · intro i; fin_cases i <;> norm_num
    · simp
    · simp

/-! ## C28, C29 -/

/-- **C28 (Dirichlet-Discrete), one step.** In exact arithmetic, for every dimension and
every group whose total is the sum of its counts and whose posterior hyperparameters are
positive. -/
theorem C28_dd_step (lvl dim : Nat) (a : Fin dim → ℝ) (ha : ∀ i, 0 < a i) (c : Fin dim → Int)
    (hc : ∀ i, 0 < a i + c i) (v : Fin dim) (g' : DD.Group)
    (hg : (⟨∑ i, c i, List.ofFn c⟩ : DD.Group).addValue lvl (v : Nat) = .ok g') :
    ∃ d s d', (⟨∑ i, c i, List.ofFn c⟩ : DD.Group).scoreData (DD.real a) = .ok d ∧
      (⟨∑ i, c i, List.ofFn c⟩ : DD.Group).scoreValue lvl (DD.real a) (v : Nat) = .ok s ∧
      g'.scoreData (DD.real a) = .ok d' ∧ d' = d + s := by
  have h0 : 0 < ∑ i, a i := Finset.sum_pos (fun i _ => ha i) ⟨v, Finset.mem_univ _⟩
  have hs : 0 < ∑ i, (a i + c i) := Finset.sum_pos (fun i _ => hc i) ⟨v, Finset.mem_univ _⟩
  have hs' : ∑ i, (a i + c i) = ∑ i, a i + ((∑ i, c i : Int) : ℝ) := by
    rw [Finset.sum_add_distrib]; push_cast; rfl
  change (DD.mk (∑ i, c i) c).addValue lvl (v : Nat) = _ at hg
  rw [DD.addValue_eq, DD.bump_eq] at hg
  simp only [Res.bind_eq_ok, i32_eq_ok, Res.pure_eq, Res.ok.injEq] at hg
  obtain ⟨_, ⟨_, rfl⟩, _, ⟨_, rfl⟩, rfl⟩ := hg
  refine ⟨_, _, _, DD.scoreData_eq a ha c _ hc h0 (by rw [← hs']; exact hs),
    DD.scoreValue_eq lvl a c _ hc v, DD.scoreData_eq a ha _ _ ?_ h0 ?_, ?_⟩
  · intro i
    rw [DD.update_add]
    have := hc i
    by_cases e : v = i
    · subst e; simp; linarith
    · simpa [e] using this
  · push_cast; rw [hs'] at hs; push_cast at hs; linarith
  · simp only [XR.fin_add, XR.fin_inj]
    rw [Real.log_div (hc v).ne' hs.ne', hs', Int.cast_add, Int.cast_one,
      ← add_assoc (∑ i, a i), PitmanYor.log_gamma_succ (by rw [← hs']; exact hs)]
    have key : ∑ i, (Real.log (Real.Gamma (a i + (Function.update c v (c v + 1) i : Int))) -
        Real.log (Real.Gamma (a i))) = ∑ i, (Real.log (Real.Gamma (a i + c i)) -
        Real.log (Real.Gamma (a i))) + Real.log (a v + c v) := by
      rw [← Finset.add_sum_erase _ _ (Finset.mem_univ v), ← Finset.add_sum_erase _
        (fun i => Real.log (Real.Gamma (a i + c i)) - Real.log (Real.Gamma (a i)))
        (Finset.mem_univ v), Function.update_self, Int.cast_add, Int.cast_one, ← add_assoc,
        PitmanYor.log_gamma_succ (hc v)]
      have : ∑ i ∈ Finset.univ.erase v, (Real.log (Real.Gamma
          (a i + (Function.update c v (c v + 1) i : Int))) - Real.log (Real.Gamma (a i))) =
          ∑ i ∈ Finset.univ.erase v, (Real.log (Real.Gamma (a i + c i)) -
            Real.log (Real.Gamma (a i))) :=
        Finset.sum_congr rfl fun i hi => by rw [Function.update_of_ne (Finset.ne_of_mem_erase hi)]
      rw [this]; ring
    rw [key]; ring

/-- The empty group has data score zero. -/
theorem C28_dd_empty (dim : Nat) (hd : 0 < dim) (a : Fin dim → ℝ) (ha : ∀ i, 0 < a i) :
    (DD.Group.init dim).scoreData (DD.real a) = .ok (.fin 0) := by
  have h0 : 0 < ∑ i, a i := Finset.sum_pos (fun i _ => ha i) ⟨⟨0, hd⟩, Finset.mem_univ _⟩
  rw [DD.init_eq, DD.scoreData_eq a ha _ _ (by simpa using ha) h0 (by simpa using h0)]
  simp

/-- **C28 (Dirichlet-Discrete).** The data score of the group of any data set is the sum
of the predictive scores of its values, each given those before it. -/
theorem C28_dd (lvl dim : Nat) (hd : 0 < dim) (a : Fin dim → ℝ) (ha : ∀ i, 0 < a i)
    (xs : List (Fin dim)) (hl : xs.length ≤ 2147483647) :
    ∃ g d, addAll (DD.opsFin lvl dim) (DD.Group.init dim) xs = .ok g ∧
      g.scoreData (DD.real a) = .ok d ∧
      sequentialScore (DD.opsFin lvl dim) (fun g v => g.scoreValue lvl (DD.real a) (v : Nat))
        (DD.Group.init dim) xs (ofInt 0) = .ok d := by
  have hsum : ∀ M : Multiset (Fin dim), (M.card : Int) = ∑ v, (M.count v : Int) := fun M => by
    rw [← DD.card_eq_sum M]; push_cast; rfl
  have hpos : ∀ (M : Multiset (Fin dim)) i, 0 < a i + ((M.count i : Int) : ℝ) := fun M i => by
    have := ha i; push_cast; positivity
  let data : DD.Group → XR := fun g => match g.scoreData (DD.real a) with
    | .ok d => d
    | _ => .nan
  obtain ⟨g, h1, h2, hS⟩ := sequential_of_step (DD.summarises lvl dim)
    (fun g v => g.scoreValue lvl (DD.real a) (v : Nat)) data
    (fun g M v g' hS hg => by
      rcases hS with ⟨rfl, _⟩
      rw [hsum] at hg
      obtain ⟨d, s, d', e1, e2, e3, e4⟩ := C28_dd_step lvl dim a ha _ (hpos M) v g' hg
      refine ⟨s, ?_, ?_⟩
      · rw [hsum]; exact e2
      · simp only [data, e3, hsum]
        change d' = (match (DD.mk _ _).scoreData (DD.real a) with
          | .ok d => d | _ => .nan) + s
        unfold DD.mk
        rw [e1]; exact e4) xs hl
  have h0 : 0 < ∑ i, a i := Finset.sum_pos (fun i _ => ha i) ⟨⟨0, hd⟩, Finset.mem_univ _⟩
  refine ⟨g, data g, h1, ?_, ?_⟩
  · rcases hS with ⟨rfl, _⟩
    simp only [data]
    rw [DD.scoreData_eq a ha _ _ (hpos _) h0 (by push_cast; positivity)]
  · rw [← h2]
    have : data (DD.opsFin lvl dim).init = .fin 0 := by
      simp only [data, DD.opsFin, C28_dd_empty dim hd a ha]
    rw [this]; simp; rfl

/-- **C29 (Dirichlet-Discrete).** Adding the same values in another order gives the same
group, hence bit for bit the same scores with every float type. -/
theorem C29_dd {F : Type} [FloatOps F] (lvl dim : Nat) (sh : DD.Shared F)
    (xs ys : List (Fin dim)) (hp : xs.Perm ys) (hl : xs.length ≤ 2147483647) :
    ∃ gx gy, addAll (DD.opsFin lvl dim) (DD.Group.init dim) xs = .ok gx ∧
      addAll (DD.opsFin lvl dim) (DD.Group.init dim) ys = .ok gy ∧
      gx.scoreData sh = gy.scoreData sh ∧
      ∀ v : Int, gx.scoreValue lvl sh v = gy.scoreValue lvl sh v := by
  obtain ⟨gx, ex, hx, _⟩ := addAll_summarises (DD.summarises lvl dim) xs hl
  obtain ⟨gy, ey, hy, _⟩ := addAll_summarises (DD.summarises lvl dim) ys
    (by rw [← hp.length_eq]; exact hl)
  have : gx = gy := by rw [hx, hy, Multiset.coe_eq_coe.mpr hp]
  exact ⟨gx, gy, ex, ey, by rw [this], by rw [this]; simp⟩

/-! ## C30 -/

/-- **C30 (Dirichlet-Discrete).** For every dimension, the predictive probabilities of
all values are defined and sum to one. -/
theorem C30_dd (lvl dim : Nat) (hd : 0 < dim) (a : Fin dim → ℝ) (c : Fin dim → Int) (s : Int)
    (hc : ∀ i, 0 < a i + c i) :
    ∃ score : Fin dim → ℝ, (∀ v : Fin dim, (⟨s, List.ofFn c⟩ : DD.Group).scoreValue lvl
        (DD.real a) (v : Nat) = .ok (.fin (score v))) ∧
      ∑ v, Real.exp (score v) = 1 := by
  have hs : 0 < ∑ i, (a i + c i) :=
    Finset.sum_pos (fun i _ => hc i) ⟨⟨0, hd⟩, Finset.mem_univ _⟩
  refine ⟨_, fun v => DD.scoreValue_eq lvl a c s hc v, ?_⟩
  have : ∀ v, Real.exp (Real.log ((a v + c v) / ∑ i, (a i + c i))) =
      (a v + c v) / ∑ i, (a i + c i) := fun v => Real.exp_log (div_pos (hc v) hs)
  simp only [this]
  rw [← Finset.sum_div, div_self hs.ne']

/-- The hypotheses of C28 and C30 are met by alphas 1/2 (as in dd.hpp:77-84) in every
dimension with any counts. -/
example (dim : Nat) (c : Fin dim → Nat) : ∀ i, (0 : ℝ) < (fun _ => 0.5 : Fin dim → ℝ) i +
    (((fun i => (c i : Int)) i : Int) : ℝ) := by
  intro i; push_cast; positivity

end Dist
