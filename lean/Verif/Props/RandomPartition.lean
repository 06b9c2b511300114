import Verif.Lemmas.RefSample

/-! # C71: `sample_partition_from_counts` and `sample_stick` of the reference implementation -/

namespace Dist

open Spec FloatOps FloatNotation MeasureTheory ProbabilityTheory

variable {σ : Type} [MeasurableSpace σ]

namespace Dbg

/-! ## Partitions -/

theorem mapM_getAt {α : Type} (items : List α) (js : List ℕ) (h : ∀ j ∈ js, j < items.length) :
    ∃ r, (js.mapM fun i => getAt items i) = .ok r ∧ r.map some = js.map fun j => items[j]? := by
  induction js with
  | nil => exact ⟨[], rfl, rfl⟩
  | cons j js ih =>
    obtain ⟨r, h1, h2⟩ := ih fun k hk => h k (List.mem_cons_of_mem _ hk)
    have hj := h j List.mem_cons_self
    refine ⟨items[j] :: r, ?_, ?_⟩
    · rw [List.mapM_cons, getAt_of hj]
      show (Res.ok items[j] >>= fun _ => _) = _
      rw [Res.ok_bind, h1]
      rfl
    · rw [List.map_cons, List.map_cons, h2, List.getElem?_eq_getElem hj]

/-- The loops deal the items out in the order of the permutation. -/
theorem partitionLoop_eq {α : Type} (items : List α) (counts order : List ℕ)
    (h : ∀ j ∈ order, j < items.length) (hs : counts.sum = order.length) :
    ∃ r, partitionLoop items counts order = .ok r ∧ r.map List.length = counts ∧
      r.flatten.map some = order.map fun j => items[j]? := by
  induction counts generalizing order with
  | nil =>
    have : order = [] := List.length_eq_zero_iff.1 (by simpa using hs.symm)
    subst this
    exact ⟨[], rfl, rfl, rfl⟩
  | cons c cs ih =>
    rw [List.sum_cons] at hs
    obtain ⟨b, b1, b2⟩ := mapM_getAt items (order.take c) fun j hj => h j (List.mem_of_mem_take hj)
    obtain ⟨r, r1, r2, r3⟩ := ih (order.drop c) (fun j hj => h j (List.mem_of_mem_drop hj))
      (by rw [List.length_drop]; omega)
    refine ⟨b :: r, ?_, ?_, ?_⟩
    · rw [partitionLoop, b1, Res.ok_bind, r1]
      rfl
    · have : b.length = c := by
        have := congrArg List.length b2
        simp only [List.length_map, List.length_take] at this
        omega
      rw [List.map_cons, r2, this]
    · rw [List.flatten_cons, List.map_append, b2, r3, ← List.map_append, List.take_append_drop]

end Dbg

open Dbg

/-- **C71, the sizes are those asked for.** If the counts add up to the number of items, the call
succeeds whatever permutation is drawn; the blocks have the requested sizes and together hold every
item exactly once. -/
theorem C71_partition (I : IdealNumpy σ) (s : σ) {α : Type} (items : List α) (counts : List ℕ)
    (h : counts.sum = items.length) :
    ∃ r s', samplePartition I.toNumpy s items counts = .ok (r, s') ∧ r.map List.length = counts ∧
      r.flatten.Perm items := by
  set p := (I.permutation items.length s).1 with hp
  obtain ⟨r, h1, h2, h3⟩ := partitionLoop_eq items counts
    (List.ofFn fun i => (p i).val) (fun j hj => by
      obtain ⟨i, rfl⟩ := (List.mem_ofFn' _ _).1 hj
      exact (p i).isLt) (by rw [List.length_ofFn]; exact h)
  refine ⟨r, (I.permutation items.length s).2, ?_, h2, ?_⟩
  · unfold samplePartition
    rw [if_neg (by simpa using h)]
    show (partitionLoop items counts (List.ofFn fun i => (p i).val) >>= _) = _
    rw [h1]
    rfl
  · have e1 : r.flatten.map some = (List.ofFn fun i => items[p i]).map some := by
      rw [h3, List.map_ofFn, List.map_ofFn]
      congr 1
      funext i
      simp
    have e2 : r.flatten = List.ofFn fun i => items[p i] :=
      List.map_injective_iff.2 (Option.some_injective α) e1
    rw [e2]
    have e3 : items = List.ofFn fun i : Fin items.length => items[i] := by simp
    conv_rhs => rw [e3]
    exact Equiv.Perm.ofFn_comp_perm p fun i : Fin items.length => items[i]

/-- **C71, counts that do not add up are refused.** -/
theorem C71_partition_fail (np : Numpy F σ) [FloatOps F] (s : σ) {α : Type} (items : List α)
    (counts : List ℕ) (h : counts.sum ≠ items.length) :
    samplePartition np s items counts = .fail := by
  unfold samplePartition
  rw [if_pos h]

/-- **C71, every arrangement is equally likely.** For distinct items and every way to fill blocks of
the requested sizes, that way is returned with probability `1 / n!`, and the state left is fresh. -/
theorem C71_partition_uniform (I : IdealNumpy σ) {α : Type} (items : List α) (hn : items.Nodup)
    (counts : List ℕ) (blocks : List (List α)) (hb : blocks.map List.length = counts)
    (hp : blocks.flatten.Perm items) {B : Set σ} (hB : MeasurableSet B) :
    I.P {s | ∃ s' ∈ B, samplePartition I.toNumpy s items counts = .ok (blocks, s')} =
      I.P B / items.length.factorial := by
  have hlen : blocks.flatten.length = items.length := hp.length_eq
  have hsum : counts.sum = items.length := by
    rw [← hlen, List.length_flatten, ← hb]
  -- the permutation that gives the blocks
  classical
  have hnd : blocks.flatten.Nodup := hp.nodup_iff.2 hn
  let f : Fin items.length → Fin items.length := fun i =>
    ⟨items.idxOf (blocks.flatten[i]'(by rw [hlen]; exact i.isLt)),
      List.idxOf_lt_length_iff.2 (hp.mem_iff.1 (List.getElem_mem _))⟩
  have hf : ∀ i, items[f i] = blocks.flatten[i]'(by rw [hlen]; exact i.isLt) := fun i =>
    List.getElem_idxOf _
  have hinj : Function.Injective f := fun i j hij => by
    have : blocks.flatten[i]'(by rw [hlen]; exact i.isLt) =
        blocks.flatten[j]'(by rw [hlen]; exact j.isLt) := by rw [← hf, ← hf, hij]
    exact Fin.ext ((List.Nodup.getElem_inj_iff hnd).1 this)
  let p : Equiv.Perm (Fin items.length) := Equiv.ofBijective f (Finite.injective_iff_bijective.1 hinj)
  have hset : {s | ∃ s' ∈ B, samplePartition I.toNumpy s items counts = .ok (blocks, s')} =
      {s | (I.permutation items.length s).1 = p ∧ (I.permutation items.length s).2 ∈ B} := by
    ext s
    simp only [Set.mem_setOf_eq]
    obtain ⟨r, h1, h2, h3⟩ := partitionLoop_eq items counts
      (List.ofFn fun i => ((I.permutation items.length s).1 i).val) (fun j hj => by
        obtain ⟨i, rfl⟩ := (List.mem_ofFn' _ _).1 hj
        exact ((I.permutation items.length s).1 i).isLt) (by rw [List.length_ofFn]; exact hsum)
    have hrun : samplePartition I.toNumpy s items counts =
        .ok (r, (I.permutation items.length s).2) := by
      unfold samplePartition
      rw [if_neg (by simpa using hsum)]
      show (partitionLoop items counts (List.ofFn fun i => _) >>= _) = _
      rw [h1]
      rfl
    have e2 : r.flatten = List.ofFn fun i => items[(I.permutation items.length s).1 i] := by
      refine List.map_injective_iff.2 (Option.some_injective α) ?_
      rw [h3, List.map_ofFn, List.map_ofFn]
      congr 1
      funext i
      simp
    have e4 : blocks.flatten = List.ofFn fun i => items[p i] := by
      refine List.ext_getElem (by simp [hlen]) fun i hi hi' => ?_
      rw [List.getElem_ofFn]
      exact (hf ⟨i, by omega⟩).symm
    rw [hrun]
    constructor
    · rintro ⟨s', hs', h⟩
      rw [Res.ok.injEq, Prod.mk.injEq] at h
      obtain ⟨rfl, rfl⟩ := h
      refine ⟨?_, hs'⟩
      have := List.ofFn_injective (e2.symm.trans e4)
      ext i
      have hi := congrFun this i
      exact (List.Nodup.getElem_inj_iff hn).1 hi
    · rintro ⟨hperm, hs'⟩
      refine ⟨_, hs', ?_⟩
      rw [Res.ok.injEq, Prod.mk.injEq]
      refine ⟨?_, rfl⟩
      have e5 : r.flatten = blocks.flatten := e2.trans ((congrArg
        (fun q : Equiv.Perm (Fin items.length) => List.ofFn fun i => items[q i]) hperm).trans e4.symm)
      exact List.eq_iff_flatten_eq.2 ⟨e5, by rw [h2, hb]⟩
  rw [hset, I.permutation_law _ p B hB]

/-- Two blocks of five letters. -/
example (I : IdealNumpy σ) :
    I.P {s | ∃ s' ∈ Set.univ, samplePartition I.toNumpy s ['a', 'b', 'c', 'd', 'e'] [2, 3] =
      .ok ([['d', 'a'], ['c', 'e', 'b']], s')} = I.P Set.univ / (5 : ℕ).factorial :=
  C71_partition_uniform I _ (by decide) _ _ (by decide) (by decide) MeasurableSet.univ

/-! ## Sticks -/

namespace Dbg

/-- The first `k` beta draws are strictly between 0 and 1. -/
def Inside (I : IdealNumpy σ) (g : ℝ) : ℕ → Set σ
  | 0 => Set.univ
  | k + 1 => I.beta (1, g) ⁻¹' (Set.Ioo 0 1 ×ˢ Inside I g k)

theorem inside_meas (I : IdealNumpy σ) (g : ℝ) (k : ℕ) : MeasurableSet (Inside I g k) := by
  induction k with
  | zero => exact MeasurableSet.univ
  | succ k ih => exact I.beta_meas _ (measurableSet_Ioo.prod ih)

theorem inside_ae (I : IdealNumpy σ) {g : ℝ} (hg : 0 < g) (k : ℕ) : ∀ᵐ s ∂I.P, s ∈ Inside I g k := by
  haveI := I.prob
  haveI := isProbabilityMeasureBeta one_pos hg
  induction k with
  | zero => exact Filter.Eventually.of_forall fun _ => trivial
  | succ k ih =>
    have h : ∀ᵐ x ∂(betaMeasure 1 g).prod I.P, x ∈ Set.Ioo (0 : ℝ) 1 ×ˢ Inside I g k := by
      rw [Measure.ae_prod_mem_iff_ae_ae_mem (measurableSet_Ioo.prod (inside_meas I g k))]
      filter_upwards [beta_ae 1 g] with p hp
      filter_upwards [ih] with s hs
      exact ⟨hp, hs⟩
    rw [← I.beta_law 1 g one_pos hg] at h
    exact ae_of_ae_map (I.beta_meas _).aemeasurable h

theorem stickLoop_step (I : IdealNumpy σ) (g tol : ℝ) (k : ℕ) (betas : List XR) (z : ℝ) (s : σ) :
    stickLoop I.toNumpy (.fin g) (.fin tol) (k + 1) betas (.fin z) s =
      if tol < 1 - z then
        stickLoop I.toNumpy (.fin g) (.fin tol) k (betas ++ [.fin ((1 - z) * (I.beta (1, g) s).1)])
          (.fin (z + (1 - z) * (I.beta (1, g) s).1)) (I.beta (1, g) s).2
      else some ((betas, .fin z), s) := by
  have e : (lit 1 1 : XR) = .fin 1 := by rw [XR.lit_eq]; norm_num
  rw [stickLoop, e]
  by_cases h : tol < 1 - z
  · have hl : lt (.fin tol : XR) (.fin 1 - .fin z) = true := by
      rw [XR.fin_sub]; simpa using h
    have hb : I.toNumpy.beta s (XR.fin 1) (XR.fin g) =
        (.fin (I.beta (1, g) s).1, (I.beta (1, g) s).2) := rfl
    rw [if_pos hl, if_pos h, hb]
    simp only [XR.fin_sub, XR.fin_mul, XR.fin_add]
  · have hl : ¬ lt (.fin tol : XR) (.fin 1 - .fin z) = true := by
      rw [XR.fin_sub]; simpa using h
    rw [if_neg hl, if_neg h]

theorem stickLoop_zero (I : IdealNumpy σ) (g tol : ℝ) (betas : List XR) (z : ℝ) (s : σ) :
    stickLoop I.toNumpy (.fin g) (.fin tol) 0 betas (.fin z) s =
      if tol < 1 - z then none else some ((betas, .fin z), s) := by
  have e : (lit 1 1 : XR) = .fin 1 := by rw [XR.lit_eq]; norm_num
  rw [stickLoop, e]
  by_cases h : tol < 1 - z
  · have hl : lt (.fin tol : XR) (.fin 1 - .fin z) = true := by
      rw [XR.fin_sub]; simpa using h
    rw [if_pos hl, if_pos h]
  · have hl : ¬ lt (.fin tol : XR) (.fin 1 - .fin z) = true := by
      rw [XR.fin_sub]; simpa using h
    rw [if_neg hl, if_neg h]

/-- What the loop returns. -/
theorem stickLoop_some (I : IdealNumpy σ) {g tol : ℝ} (k : ℕ) (bs : List ℝ) (z : ℝ) (hz : z < 1)
    (s : σ) (hs : s ∈ Inside I g k) {r : List XR} {zz : XR} {s' : σ}
    (h : stickLoop I.toNumpy (.fin g) (.fin tol) k (bs.map XR.fin) (.fin z) s = some ((r, zz), s')) :
    ∃ l : List ℝ, r = (bs ++ l).map XR.fin ∧ (∀ x ∈ l, 0 < x) ∧ zz = .fin (z + l.sum) ∧
      1 - (z + l.sum) ≤ tol ∧ z + l.sum < 1 := by
  induction k generalizing bs z s with
  | zero =>
    rw [stickLoop_zero] at h
    split_ifs at h with h1
    simp only [Option.some.injEq, Prod.mk.injEq] at h
    exact ⟨[], by simp [← h.1.1], by simp, by simp [← h.1.2], by simpa using h1, by simpa using hz⟩
  | succ k ih =>
    rw [stickLoop_step] at h
    split_ifs at h with h1
    · obtain ⟨⟨hb0, hb1⟩, hin⟩ := hs
      set b := (I.beta (1, g) s).1
      have hz' : z + (1 - z) * b < 1 := by nlinarith
      have e : bs.map XR.fin ++ [XR.fin ((1 - z) * b)] = (bs ++ [(1 - z) * b]).map XR.fin := by simp
      rw [e] at h
      obtain ⟨l, l1, l2, l3, l4, l5⟩ := ih _ _ hz' _ hin h
      refine ⟨(1 - z) * b :: l, by simpa using l1, ?_, ?_, ?_, ?_⟩
      · intro x hx
        rcases List.mem_cons.1 hx with rfl | hx
        · exact mul_pos (by linarith) hb0
        · exact l2 x hx
      · rw [l3, List.sum_cons, add_assoc]
      · rw [List.sum_cons, ← add_assoc]; exact l4
      · rw [List.sum_cons, ← add_assoc]; exact l5
    · simp only [Option.some.injEq, Prod.mk.injEq] at h
      exact ⟨[], by simp [← h.1.1], by simp, by simp [← h.1.2], by simpa using h1, by simpa using hz⟩

/-- The states from which the loop is still running after `k` rounds, with the stick used up to
`z`. -/
def Running (I : IdealNumpy σ) (g tol : ℝ) : ℕ → Set (ℝ × σ)
  | 0 => {x | tol < 1 - x.1}
  | k + 1 => {x | tol < 1 - x.1} ∩
      (fun x : ℝ × σ => (x.1 + (1 - x.1) * (I.beta (1, g) x.2).1, (I.beta (1, g) x.2).2)) ⁻¹'
        Running I g tol k

theorem running_meas (I : IdealNumpy σ) (g tol : ℝ) (k : ℕ) :
    MeasurableSet (Running I g tol k) := by
  have h0 : MeasurableSet {x : ℝ × σ | tol < 1 - x.1} :=
    measurableSet_lt measurable_const (by fun_prop)
  induction k with
  | zero => exact h0
  | succ k ih =>
    refine h0.inter (?_ : MeasurableSet (_ ⁻¹' _))
    have hb : Measurable fun x : ℝ × σ => I.beta (1, g) x.2 := (I.beta_meas _).comp measurable_snd
    exact ((measurable_fst.add ((measurable_const.sub measurable_fst).mul hb.fst)).prodMk hb.snd) ih

theorem running_iff (I : IdealNumpy σ) (g tol : ℝ) (k : ℕ) (betas : List XR) (z : ℝ) (s : σ) :
    stickLoop I.toNumpy (.fin g) (.fin tol) k betas (.fin z) s = none ↔
      (z, s) ∈ Running I g tol k := by
  induction k generalizing betas z s with
  | zero =>
    rw [stickLoop_zero]
    show _ ↔ tol < 1 - z
    split_ifs with h <;> simp [h]
  | succ k ih =>
    rw [stickLoop_step]
    show _ ↔ tol < 1 - z ∧ _ ∈ Running I g tol k
    split_ifs with h
    · rw [ih]; simp [h]
    · simp [h]

/-- **The loop ends quickly**: each round takes a beta distributed share of what is left. -/
theorem running_prob (I : IdealNumpy σ) {g tol : ℝ} (hg : 0 < g) (ht : 0 < tol) (k : ℕ) {z : ℝ}
    (hz : z < 1) :
    I.P {s | (z, s) ∈ Running I g tol k} ≤ ENNReal.ofReal ((1 - z) * (g / (1 + g)) ^ k / tol) := by
  haveI := I.prob
  haveI := isProbabilityMeasureBeta one_pos hg
  induction k generalizing z with
  | zero =>
    by_cases h : tol < 1 - z
    · refine prob_le_one.trans ?_
      rw [pow_zero, mul_one, ← ENNReal.ofReal_one]
      exact ENNReal.ofReal_le_ofReal ((one_le_div ht).2 h.le)
    · have : {s | (z, s) ∈ Running I g tol 0} = ∅ := by
        ext s
        simp only [Set.mem_setOf_eq, Set.mem_empty_iff_false, iff_false]
        exact h
      rw [this, measure_empty]
      exact zero_le
  | succ k ih =>
    set f : ℝ × σ → ℝ × σ := fun x => (z + (1 - z) * x.1, x.2)
    have hf : Measurable f := by fun_prop
    have hsub : {s | (z, s) ∈ Running I g tol (k + 1)} ⊆
        I.beta (1, g) ⁻¹' (f ⁻¹' Running I g tol k) := fun s hs => hs.2
    refine (measure_mono hsub).trans ?_
    have hm := hf (running_meas I g tol k)
    rw [← Measure.map_apply (I.beta_meas _) hm, I.beta_law 1 g one_pos hg, Measure.prod_apply hm]
    have hmom := beta_moment one_pos hg 0 1
    simp only [pow_zero, one_mul, pow_one, Nat.cast_zero, add_zero, Nat.cast_one] at hmom
    calc ∫⁻ b, I.P (Prod.mk b ⁻¹' (f ⁻¹' Running I g tol k)) ∂betaMeasure 1 g
        ≤ ∫⁻ b, ENNReal.ofReal ((1 - z) * (g / (1 + g)) ^ k / tol) * ENNReal.ofReal (1 - b)
            ∂betaMeasure 1 g := by
          refine lintegral_mono_ae ?_
          filter_upwards [beta_ae 1 g] with b hb
          have hz' : z + (1 - z) * b < 1 := by nlinarith [hb.1, hb.2]
          refine (ih hz').trans (le_of_eq ?_)
          have h1 : 0 ≤ 1 - z := by linarith
          rw [← ENNReal.ofReal_mul (by positivity)]
          congr 1
          ring
      _ = _ := by
          rw [lintegral_const_mul' _ _ ENNReal.ofReal_ne_top, hmom, ← ENNReal.ofReal_mul
            (by have h1 : 0 ≤ 1 - z := by linarith
                positivity)]
          congr 1
          have g1 := Real.Gamma_pos_of_pos hg
          have g2 : 0 < Real.Gamma (1 + g) := Real.Gamma_pos_of_pos (by linarith)
          have e1 : Real.Gamma (1 + (g + 1)) = (1 + g) * Real.Gamma (1 + g) := by
            rw [show 1 + (g + 1) = (1 + g) + 1 by ring, Real.Gamma_add_one (by positivity)]
          rw [e1, Real.Gamma_add_one hg.ne', Real.Gamma_one, pow_succ]
          field_simp

end Dbg

/-- **C71, `sample_stick` ends.** With probability at least `1 - (γ / (1 + γ))^k / tol` the loop has
ended after `k` rounds. -/
theorem C71_stick_rounds (I : IdealNumpy σ) {g tol : ℝ} (hg : 0 < g) (ht : 0 < tol) (k : ℕ) :
    I.P {s | sampleStick I.toNumpy s (.fin g) (.fin tol) k = none} ≤
      ENNReal.ofReal ((g / (1 + g)) ^ k / tol) := by
  have h := running_prob I hg ht k (z := 0) (by norm_num)
  rw [sub_zero, one_mul] at h
  refine le_trans (measure_mono fun s hs => ?_) h
  rw [Set.mem_setOf_eq, ← running_iff I g tol k []]
  have e : (lit 0 1 : XR) = .fin 0 := by rw [XR.lit_eq]; norm_num
  have hs : sampleStick I.toNumpy s (.fin g) (.fin tol) k = none := hs
  unfold sampleStick at hs
  rw [e] at hs
  split at hs
  · assumption
  · cases hs

/-- With probability one it ends. -/
theorem C71_stick_ends (I : IdealNumpy σ) {g tol : ℝ} (hg : 0 < g) (ht : 0 < tol) :
    ∀ᵐ s ∂I.P, ∃ k r s', sampleStick I.toNumpy s (.fin g) (.fin tol) k = some (r, s') := by
  have h : I.P {s | ∀ k, sampleStick I.toNumpy s (.fin g) (.fin tol) k = none} = 0 := by
    refine le_antisymm (ge_of_tendsto' (f := fun k : ℕ => ENNReal.ofReal ((g / (1 + g)) ^ k / tol))
      (x := Filter.atTop) ?_ fun k => ?_) (zero_le)
    · have h1 : g / (1 + g) < 1 := by rw [div_lt_one (by linarith)]; linarith
      have := ((tendsto_pow_atTop_nhds_zero_of_lt_one (by positivity) h1).div_const tol)
      rw [zero_div] at this
      simpa using ENNReal.tendsto_ofReal this
    · exact (measure_mono fun s (hs : ∀ k, _ = none) => hs k).trans (C71_stick_rounds I hg ht k)
  rw [ae_iff]
  refine measure_mono_null (fun s hs => ?_) h
  simp only [Set.mem_setOf_eq, not_exists] at hs ⊢
  intro k
  cases hr : sampleStick I.toNumpy s (.fin g) (.fin tol) k with
  | none => rfl
  | some x => exact absurd hr (hs k x.1 x.2)

/-- **C71, `sample_stick` returns probabilities.** With probability one, whatever it returns is a
non-empty list of positive numbers with sum 1. -/
theorem C71_stick (I : IdealNumpy σ) {g tol : ℝ} (hg : 0 < g) (ht : 0 < tol) (ht1 : tol < 1) :
    ∀ᵐ s ∂I.P, ∀ k r s', sampleStick I.toNumpy s (.fin g) (.fin tol) k = some (r, s') →
      ∃ l : List ℝ, r = l.map XR.fin ∧ l ≠ [] ∧ (∀ x ∈ l, 0 < x) ∧ l.sum = 1 := by
  filter_upwards [ae_all_iff.2 (inside_ae I hg)] with s hs k r s' h
  have e : (lit 0 1 : XR) = .fin 0 := by rw [XR.lit_eq]; norm_num
  unfold sampleStick at h
  rw [e] at h
  split at h
  · cases h
  rename_i betas z s'' hloop
  obtain ⟨l, rfl, l2, rfl, l4, l5⟩ := stickLoop_some I k [] 0 (by norm_num) s (hs k) hloop
  rw [zero_add] at l4 l5
  have hpos : 0 < l.sum := by linarith
  simp only [Option.some.injEq, Prod.mk.injEq] at h
  refine ⟨l.map fun b => b / l.sum, ?_, ?_, ?_, ?_⟩
  · rw [← h.1, List.nil_append, List.map_map, List.map_map]
    refine List.map_congr_left fun b _ => ?_
    simp only [Function.comp_apply, zero_add]
    rw [XR.fin_div _ _ hpos.ne']
  · intro h0
    rw [List.map_eq_nil_iff] at h0
    rw [h0] at hpos
    simp at hpos
  · intro x hx
    obtain ⟨b, hb, rfl⟩ := List.mem_map.1 hx
    exact div_pos (l2 b hb) hpos
  · simp only [div_eq_mul_inv]
    rw [List.sum_map_mul_right, List.map_id', mul_inv_cancel₀ hpos.ne']

/-- The default tolerance. -/
example (I : IdealNumpy σ) : ∀ᵐ s ∂I.P, ∃ k r s',
    sampleStick I.toNumpy s (.fin 2) (.fin (1 / 1000)) k = some (r, s') :=
  C71_stick_ends I (by norm_num) (by norm_num)

/-- With a tolerance of 1 or more the loop does not run and the dictionary is empty. -/
theorem C71_stick_empty (I : IdealNumpy σ) {g tol : ℝ} (ht : 1 ≤ tol) (s : σ) (k : ℕ) :
    sampleStick I.toNumpy s (.fin g) (.fin tol) k = some ([], s) := by
  have e : (lit 0 1 : XR) = .fin 0 := by rw [XR.lit_eq]; norm_num
  unfold sampleStick
  rw [e]
  cases k with
  | zero => rw [stickLoop_zero, if_neg (by linarith)]; rfl
  | succ k => rw [stickLoop_step, if_neg (by linarith)]; rfl

end Dist
