import Verif.Props.ReferenceSamplers
import Verif.Props.SampleGroupDpd

/-!
# C68: the Dirichlet-process-discrete samplers of the reference implementation
-/

namespace Dist

open Spec FloatOps FloatNotation MeasureTheory ProbabilityTheory

variable {σ : Type} [MeasurableSpace σ]

namespace Dbg.DPD

/-- Adding known values counts them. -/
theorem fold_eq (betas : FMap UInt32 XR) (xs : List UInt32) (hx : ∀ v ∈ xs, v ∈ betas.keys)
    (hother : Dist.DPD.other ∉ betas.keys) :
    ∃ g, xs.foldlM (fun g v => Group.addRepeatedValue betas g v 1) Group.init = .ok g ∧
      (∀ v, (g.counts.lookup v).getD 0 = xs.count v) ∧ (∀ v ∈ g.counts.keys, v ∈ betas.keys) ∧
      g.total = xs.length := by
  have h : ∀ (xs : List UInt32) (g : Group) (c : UInt32 → ℕ), (∀ v ∈ xs, v ∈ betas.keys) →
      (∀ v, (g.counts.lookup v).getD 0 = c v) → (∀ v ∈ g.counts.keys, v ∈ betas.keys) →
      ∃ g', xs.foldlM (fun g v => Group.addRepeatedValue betas g v 1) g = .ok g' ∧
        (∀ v, (g'.counts.lookup v).getD 0 = (c v + xs.count v : ℕ)) ∧
        (∀ v ∈ g'.counts.keys, v ∈ betas.keys) ∧ g'.total = g.total + xs.length := by
    intro xs
    induction xs with
    | nil => intro g c _ hc hk; exact ⟨g, rfl, by simpa using hc, hk, by simp⟩
    | cons w xs ih =>
      intro g c hx hc hk
      have hw := hx w (by simp)
      have hadd : Group.addRepeatedValue betas g w 1 =
          .ok ⟨g.counts.set w (1 + c w), g.total + 1⟩ := by
        have h1 : w ≠ Dist.DPD.other := by rintro rfl; exact hother hw
        have h2 : betas.contains w = true := (betas.contains_iff w).2 hw
        rw [Group.addRepeatedValue, if_neg h1, if_neg (by simp [h2]), if_neg (by norm_num)]
        have hcw := hc w
        cases hl : g.counts.lookup w with
        | none =>
          rw [hl, Option.getD_none] at hcw
          simp only
          rw [← hcw, add_zero]
        | some n =>
          rw [hl, Option.getD_some] at hcw
          simp only
          rw [hcw, if_pos (by omega)]
      obtain ⟨g', h1, h2, h3, h4⟩ := ih ⟨g.counts.set w (1 + c w), g.total + 1⟩
        (fun v => c v + if v = w then 1 else 0) (fun v hv => hx v (by simp [hv])) (by
          intro v
          simp only [FMap.lookup_set]
          by_cases hvw : v = w
          · subst hvw; simp [add_comm]
          · simp [hvw, hc v]) (by
          intro v hv
          simp only [FMap.keys_set, Finset.mem_insert] at hv
          rcases hv with rfl | hv
          · exact hw
          · exact hk v hv)
      refine ⟨g', ?_, ?_, h3, ?_⟩
      · rw [List.foldlM_cons, hadd]; exact h1
      · intro v
        rw [h2, List.count_cons]
        by_cases hvw : v = w
        · subst hvw; simp; ring
        · have : w ≠ v := fun h => hvw h.symm
          simp [hvw, this]
      · rw [h4, List.length_cons]; push_cast; ring
  obtain ⟨g, h1, h2, h3, h4⟩ := h xs Group.init (fun _ => 0) hx (by simp [Group.init])
    (by simp [Group.init])
  exact ⟨g, h1, by simpa using h2, h3, by simpa [Group.init] using h4⟩

/-- The table of the sampler in exact numbers. -/
noncomputable def table (alpha beta0 : ℝ) (betas : FMap UInt32 ℝ) (c : UInt32 → Int)
    (ks : List UInt32) : List (UInt32 × ℝ) :=
  (ks.map fun k => (k, alpha * Dist.DPD.weight betas k + c k))
    ++ (if 0 < beta0 then [(Dist.DPD.other, alpha * beta0)] else [])

variable {gamma alpha beta0 : ℝ} {betas : FMap UInt32 ℝ} {counts : SparseCounter UInt32}
  {c : UInt32 → Int} {ks : List UInt32}

theorem table_eq (g : Group) (hg : ∀ v, (g.counts.lookup v).getD 0 = c v) (hks : betas.Enum ks) :
    samplerTable (Dist.DPD.real gamma alpha beta0 betas counts) g ks =
      (table alpha beta0 betas c ks).map fun e => (e.1, XR.fin e.2) := by
  have hkeys : ∀ k ∈ ks, k ∈ (betas.mapValues fun _ b => XR.fin b).keys := by
    intro k hk; rw [FMap.keys_mapValues]; exact (hks.mem k).mp hk
  rw [samplerTable, Dist.DPD.real, table]
  simp only
  rw [Dist.DPD.entries_known (.fin 0) hkeys, List.map_append, List.map_map, List.map_map]
  congr 1
  · apply List.map_congr_left
    intro k hk
    have hl : ((betas.mapValues fun _ b => XR.fin b).lookup k).getD (.fin 0) =
        XR.fin (Dist.DPD.weight betas k) := by
      rw [FMap.lookup_mapValues, Dist.DPD.weight]
      cases betas.lookup k <;> rfl
    simp only [Function.comp, hl, XR.fin_mul, XR.ofInt_eq, XR.fin_add, hg k]
    rw [mul_comm]
  · have hlt : lt (ofInt 0) (XR.fin beta0) = true ↔ 0 < beta0 := by
      rw [XR.ofInt_eq, XR.lt_fin]; simp
    by_cases hb : 0 < beta0
    · rw [if_pos (hlt.mpr hb), if_pos hb]
      simp [mul_comm]
    · rw [if_neg (fun h => hb (hlt.mp h)), if_neg hb]; rfl

theorem table_pos (hα : 0 < alpha) (hpos : ∀ v ∈ betas.keys, 0 < Dist.DPD.weight betas v)
    (hc : ∀ v, 0 ≤ c v) (hks : betas.Enum ks) (i : Fin (table alpha beta0 betas c ks).length) :
    0 < ((table alpha beta0 betas c ks).get i).2 := by
  have hm := List.get_mem (table alpha beta0 betas c ks) i
  generalize (table alpha beta0 betas c ks).get i = e at hm
  rcases List.mem_append.mp hm with h | h
  · obtain ⟨k, hk, rfl⟩ := List.mem_map.mp h
    have h1 := mul_pos hα (hpos k ((hks.mem k).mp hk))
    have h2 : (0 : ℝ) ≤ c k := by exact_mod_cast hc k
    simp only
    linarith
  · split_ifs at h with hb
    · rw [List.mem_singleton] at h; subst h; exact mul_pos hα hb
    · simp at h

/-- Sums over the table. -/
theorem table_sum (hks : betas.Enum ks) (f : UInt32 × ℝ → ℝ) :
    ∑ i : Fin (table alpha beta0 betas c ks).length, f ((table alpha beta0 betas c ks).get i) =
      ∑ v ∈ betas.keys, f (v, alpha * Dist.DPD.weight betas v + c v) +
        (if 0 < beta0 then f (Dist.DPD.other, alpha * beta0) else 0) := by
  have e1 : ∑ i : Fin (table alpha beta0 betas c ks).length,
      f ((table alpha beta0 betas c ks).get i) = ((table alpha beta0 betas c ks).map f).sum := by
    rw [← List.sum_ofFn]
    congr 1
    exact List.ofFn_getElem_eq_map _ f
  rw [e1, table, List.map_append, List.sum_append, List.map_map, ← hks.toFinset,
    List.sum_toFinset _ hks.nodup]
  congr 1
  split_ifs <;> simp

theorem table_total (h0 : 0 ≤ beta0) (h1 : ∑ v ∈ betas.keys, Dist.DPD.weight betas v + beta0 = 1)
    (hks : betas.Enum ks) {N : ℕ} (hN : ∑ v ∈ betas.keys, c v = N) :
    ∑ i : Fin (table alpha beta0 betas c ks).length, ((table alpha beta0 betas c ks).get i).2 =
      alpha + N := by
  rw [table_sum hks Prod.snd]
  simp only
  rw [Finset.sum_add_distrib, ← Finset.mul_sum]
  have hN' : ∑ v ∈ betas.keys, (c v : ℝ) = N := by exact_mod_cast hN
  rw [hN']
  split_ifs with hb
  · linear_combination alpha * h1
  · have : beta0 = 0 := le_antisymm (not_lt.mp hb) h0
    rw [this] at h1
    linear_combination alpha * h1

theorem table_inj (hother : Dist.DPD.other ∉ betas.keys) (hks : betas.Enum ks) :
    Function.Injective fun i : Fin (table alpha beta0 betas c ks).length =>
      ((table alpha beta0 betas c ks).get i).1 := by
  have hfst : (ks.map fun k => (k, alpha * Dist.DPD.weight betas k + (c k : ℝ))).map Prod.fst =
      ks := by
    rw [List.map_map]; exact List.map_id ks
  have hnd : ((table alpha beta0 betas c ks).map Prod.fst).Nodup := by
    rw [table, List.map_append, hfst, List.nodup_append]
    refine ⟨hks.nodup, by split_ifs <;> simp, ?_⟩
    intro x hx y hy
    split_ifs at hy with hb
    · simp only [List.map_cons, List.map_nil, List.mem_singleton] at hy
      rintro rfl
      exact hother (hy ▸ (hks.mem x).mp hx)
    · simp at hy
  intro i j hij
  have h3 : ((table alpha beta0 betas c ks).map Prod.fst)[i.val]'(by simp) =
      ((table alpha beta0 betas c ks).map Prod.fst)[j.val]'(by simp) := by
    rw [List.getElem_map, List.getElem_map]; exact hij
  exact Fin.ext ((List.Nodup.getElem_inj_iff hnd).mp h3)

/-- The value at the drawn place of the table is that of the place `i` just if `i` was drawn. -/
theorem eval_iff (np : Numpy XR σ) (T : List (UInt32 × ℝ))
    (hinj : Function.Injective fun i : Fin T.length => (T.get i).1) (ps : List XR) (i : Fin T.length)
    (s s' : σ) :
    samplerEval np ((T.map fun e => (e.1, XR.fin e.2)).map Prod.fst) ps s =
      .ok ((T.get i).1, s') ↔ sampleDiscrete np.toRng s ps (npSum ps) = .ok (i.val, s') := by
  rw [samplerEval]
  cases hd : sampleDiscrete np.toRng s ps (npSum ps) with
  | fail => simp [Bind.bind, Res.bind]
  | ub => simp [Bind.bind, Res.bind]
  | ok q =>
    obtain ⟨j, s₁⟩ := q
    rw [Res.ok_bind]
    simp only
    by_cases hj : j < T.length
    · rw [getAt_of (by simpa using hj), Res.ok_bind]
      simp only [Res.pure_eq, Res.ok.injEq, Prod.mk.injEq, List.getElem_map]
      refine and_congr_left fun _ => ?_
      constructor
      · intro h
        exact congrArg Fin.val (hinj (a₁ := ⟨j, hj⟩) (a₂ := i) h)
      · rintro rfl; rfl
    · have : getAt ((T.map fun e => (e.1, XR.fin e.2)).map Prod.fst) j = .ub := by
        simp [getAt, hj]
      rw [this]
      simp only [Bind.bind, Res.bind, Res.ok.injEq, Prod.mk.injEq, false_iff, not_and, reduceCtorEq]
      intro h; have := i.isLt; omega

theorem table_ofFn (T : List (UInt32 × ℝ)) :
    (T.map fun e => (e.1, XR.fin e.2)).map Prod.snd = List.ofFn fun i => XR.fin (T.get i).2 := by
  rw [List.map_map]
  exact (List.ofFn_getElem_eq_map T fun e => XR.fin e.2).symm

end Dbg.DPD

open Dbg.DPD (table table_eq table_pos table_sum table_total table_inj eval_iff table_ofFn)

theorem count_sum_keys {betas : FMap UInt32 ℝ} {xs : List UInt32} (hx : ∀ v ∈ xs, v ∈ betas.keys) :
    ∑ v ∈ betas.keys, (xs.count v : Int) = (xs.length : ℕ) := by
  have h2 := Multiset.toFinset_sum_count_eq (xs : Multiset UInt32)
  have h3 : ∑ v ∈ betas.keys, xs.count v = xs.length := by
    rw [← Multiset.coe_card, ← h2]
    symm
    simp only [← Multiset.coe_count]
    apply Finset.sum_subset
    · intro v hv; exact hx v (by simpa using hv)
    · intro v _ hv; rw [Multiset.mem_toFinset] at hv; exact Multiset.count_eq_zero.mpr hv
  exact_mod_cast h3

/-- **C68 (Dirichlet-process-discrete), one value.**  For every value of the table of the betas and
for OTHER, and for every iteration order `ks` of the betas. -/
theorem C68_dpd_value (I : IdealNumpy σ) (gamma alpha beta0 : ℝ) (betas : FMap UInt32 ℝ)
    (counts : SparseCounter UInt32) (hα : 0 < alpha)
    (hpos : ∀ v ∈ betas.keys, 0 < DPD.weight betas v) (hother : DPD.other ∉ betas.keys)
    (h0 : 0 ≤ beta0) (h1 : ∑ v ∈ betas.keys, DPD.weight betas v + beta0 = 1) (ks : List UInt32)
    (hks : betas.Enum ks) (xs : List UInt32) (hx : ∀ v ∈ xs, v ∈ betas.keys) (v : UInt32)
    (hv : v ∈ betas.keys ∨ v = DPD.other ∧ 0 < beta0) {B : Set σ} (hB : MeasurableSet B) :
    ∃ g x, xs.foldlM (fun g v => Dbg.DPD.Group.addRepeatedValue
        (DPD.real gamma alpha beta0 betas counts).betas g v 1) Dbg.DPD.Group.init = .ok g ∧
      g.scoreValue (DPD.real gamma alpha beta0 betas counts) v = .ok (.fin x) ∧
      I.P {s | ∃ s' ∈ B, g.sampleValue I.toNumpy s (DPD.real gamma alpha beta0 betas counts) ks =
        .ok (v, s')} = ENNReal.ofReal (Real.exp x) * I.P B := by
  have hkeys : (DPD.real gamma alpha beta0 betas counts).betas.keys = betas.keys :=
    FMap.keys_mapValues _ _
  obtain ⟨g, hg, hc, -, htot⟩ := Dbg.DPD.fold_eq (DPD.real gamma alpha beta0 betas counts).betas xs
    (by rw [hkeys]; exact hx) (by rw [hkeys]; exact hother)
  have hT := table_eq (gamma := gamma) (alpha := alpha) (beta0 := beta0) (counts := counts) g hc hks
  have hpt := table_pos (beta0 := beta0) hα hpos (c := fun v => (xs.count v : Int))
    (fun v => by omega) hks
  have hsum := table_total (alpha := alpha) h0 h1 hks (count_sum_keys hx)
  have hinj := table_inj (alpha := alpha) (beta0 := beta0) (c := fun v => (xs.count v : Int))
    hother hks
  have ht : 0 < alpha + (xs.length : ℝ) := by positivity
  obtain ⟨i, hi1, hi2⟩ : ∃ i : Fin (table alpha beta0 betas (fun v => (xs.count v : Int)) ks).length,
      ((table alpha beta0 betas (fun v => (xs.count v : Int)) ks).get i).1 = v ∧
      g.scoreValue (DPD.real gamma alpha beta0 betas counts) v = .ok (.fin (Real.log
        (((table alpha beta0 betas (fun v => (xs.count v : Int)) ks).get i).2 /
          (alpha + (xs.length : ℝ))))) := by
    rcases hv with hv | ⟨rfl, hb⟩
    · have hmem : (v, alpha * DPD.weight betas v + (xs.count v : Int)) ∈
          table alpha beta0 betas (fun v => (xs.count v : Int)) ks :=
        List.mem_append_left _ (List.mem_map.2 ⟨v, (hks.mem v).2 hv, rfl⟩)
      obtain ⟨i, hi⟩ := List.mem_iff_get.1 hmem
      refine ⟨i, by rw [hi], ?_⟩
      have hne : v ≠ DPD.other := by rintro rfl; exact hother hv
      obtain ⟨b, hb⟩ := (betas.mem_keys_iff v).1 hv
      have hb' : (DPD.real gamma alpha beta0 betas counts).betas.lookup v = some (XR.fin b) := by
        rw [DPD.real]; simp only [FMap.lookup_mapValues, hb]; rfl
      have hwb : DPD.weight betas v = b := by rw [DPD.weight, hb]; rfl
      have hp := hpos v hv
      rw [hwb] at hp
      rw [Dbg.DPD.Group.scoreValue, if_neg hne, hc v]
      simp only
      rw [if_neg (by omega), hb']
      simp only [Res.ok_bind, htot, DPD.real, XR.fin_mul, XR.ofInt_eq, XR.fin_add, Int.cast_natCast]
      rw [Dbg.pyDiv_fin ht.ne', Res.ok_bind, Dbg.pyLog_fin (by positivity), hi, hwb, mul_comm]
      simp
    · have hmem : (DPD.other, alpha * beta0) ∈
          table alpha beta0 betas (fun v => (xs.count v : Int)) ks :=
        List.mem_append_right _ (by rw [if_pos hb]; simp)
      obtain ⟨i, hi⟩ := List.mem_iff_get.1 hmem
      refine ⟨i, by rw [hi], ?_⟩
      rw [Dbg.DPD.Group.scoreValue, if_pos rfl]
      simp only [Res.ok_bind, htot, DPD.real, XR.fin_mul, XR.ofInt_eq, XR.fin_add, Int.cast_natCast]
      rw [Dbg.pyDiv_fin ht.ne', Res.ok_bind, Dbg.pyLog_fin (by positivity), hi, mul_comm]
  refine ⟨g, _, hg, hi2, ?_⟩
  rw [Real.exp_log (div_pos (hpt i) ht), ← hsum, ← dirichlet_one_py I _ hpt i hB]
  congr 1
  ext s
  simp only [Set.mem_setOf_eq]
  rw [Dbg.DPD.Group.sampleValue, hT]
  simp only [table_ofFn, toNumpy_dirichlet]
  rw [← hi1]
  simp only [eval_iff I.toNumpy _ hinj]

/-- **C68 (Dirichlet-process-discrete), a group.**  Data sets of known values, for every iteration
order of the betas (`ks`) and of the dictionary of the group (`ks'`). -/
theorem C68_dpd_group (I : IdealNumpy σ) (gamma alpha beta0 : ℝ) (betas : FMap UInt32 ℝ)
    (counts : SparseCounter UInt32) (hα : 0 < alpha)
    (hpos : ∀ v ∈ betas.keys, 0 < DPD.weight betas v) (hother : DPD.other ∉ betas.keys)
    (hne : betas.keys.Nonempty)
    (h0 : 0 ≤ beta0) (h1 : ∑ v ∈ betas.keys, DPD.weight betas v + beta0 = 1) (ks : List UInt32)
    (hks : betas.Enum ks) (xs : List UInt32) (hx : ∀ v ∈ xs, v ∈ betas.keys) {B : Set σ}
    (hB : MeasurableSet B) :
    ∃ g x, xs.foldlM (fun g v => Dbg.DPD.Group.addRepeatedValue
        (DPD.real gamma alpha beta0 betas counts).betas g v 1) Dbg.DPD.Group.init = .ok g ∧
      (∀ ks', g.counts.Enum ks' →
        g.scoreData (DPD.real gamma alpha beta0 betas counts) ks' = .ok (.fin x)) ∧
      I.P {s | ∃ s' ∈ B, Dbg.DPD.sampleGroup I.toNumpy s (DPD.real gamma alpha beta0 betas counts)
        ks xs.length = .ok (xs, s')} = ENNReal.ofReal (Real.exp x) * I.P B := by
  have hkeys : (DPD.real gamma alpha beta0 betas counts).betas.keys = betas.keys :=
    FMap.keys_mapValues _ _
  obtain ⟨g, hg, hc, hgk, htot⟩ := Dbg.DPD.fold_eq (DPD.real gamma alpha beta0 betas counts).betas
    xs (by rw [hkeys]; exact hx) (by rw [hkeys]; exact hother)
  rw [hkeys] at hgk
  have ht : 0 < alpha + (xs.length : ℝ) := by positivity
  let term : UInt32 → ℝ := fun v =>
    Real.log (Real.Gamma (alpha * DPD.weight betas v + (xs.count v : ℝ))) -
      Real.log (Real.Gamma (alpha * DPD.weight betas v))
  refine ⟨g, ∑ v ∈ betas.keys, term v + (Real.log (Real.Gamma alpha) -
    Real.log (Real.Gamma (alpha + (xs.length : ℝ)))), hg, ?_, ?_⟩
  · intro ks' hks'
    have hent : g.counts.entries ks' = ks'.map fun k => (k, (xs.count k : Int)) := by
      rw [DPD.entries_known 0 fun k hk => (hks'.mem k).1 hk]
      simp only [hc]
    have hloop : ∀ (l : List UInt32) (y : ℝ), (∀ k ∈ l, k ∈ betas.keys) →
        Dbg.DPD.scoreLoop (DPD.real gamma alpha beta0 betas counts)
          (l.map fun k => (k, (xs.count k : Int))) (.fin y) = .ok (.fin (y + (l.map term).sum)) := by
      intro l
      induction l with
      | nil => intro y _; simp [Dbg.DPD.scoreLoop]
      | cons k l ih =>
        intro y hl
        have hk := hl k (by simp)
        obtain ⟨b, hb⟩ := (betas.mem_keys_iff k).1 hk
        have hb' : (DPD.real gamma alpha beta0 betas counts).betas.lookup k = some (XR.fin b) := by
          rw [DPD.real]; simp only [FMap.lookup_mapValues, hb]; rfl
        have hwb : DPD.weight betas k = b := by rw [DPD.weight, hb]; rfl
        have hp := hpos k hk
        rw [hwb] at hp
        rw [List.map_cons, Dbg.DPD.scoreLoop, if_neg (by omega), hb']
        have e1 : (DPD.real gamma alpha beta0 betas counts).alpha = XR.fin alpha := rfl
        simp only [e1, XR.fin_mul, XR.ofInt_eq, XR.fin_add, Int.cast_natCast]
        rw [XR.lgamma_fin (by positivity), XR.lgamma_fin (by positivity), XR.fin_sub, XR.fin_add,
          ih _ fun k hk => hl k (by simp [hk]), List.map_cons, List.sum_cons, ← add_assoc]
        simp only [term, hwb, mul_comm alpha]
    have hsz : (DPD.real gamma alpha beta0 betas counts).betas.size ≠ 0 := by
      rw [FMap.size, hkeys]; exact hne.card_ne_zero
    rw [Dbg.DPD.Group.scoreData, if_neg hsz, hent, XR.lit_eq,
      hloop ks' _ fun k hk => hgk k ((hks'.mem k).1 hk), Res.ok_bind, htot]
    have e1 : (DPD.real gamma alpha beta0 betas counts).alpha = XR.fin alpha := rfl
    rw [e1, XR.ofInt_eq, XR.fin_add, Int.cast_natCast, XR.lgamma_fin hα, XR.lgamma_fin ht,
      XR.fin_sub, XR.fin_add, Res.pure_eq]
    congr 3
    have hsub : (ks'.map term).sum = ∑ v ∈ g.counts.keys, term v := by
      rw [← hks'.toFinset, List.sum_toFinset _ hks'.nodup]
    rw [hsub]
    have : ∑ v ∈ g.counts.keys, term v = ∑ v ∈ betas.keys, term v := by
      apply Finset.sum_subset hgk
      intro v _ hv
      have h2 := hc v
      rw [(g.counts.not_mem_keys_iff v).1 hv] at h2
      have h3 : xs.count v = 0 := by
        simp only [Option.getD_none] at h2; omega
      simp [term, h3]
    rw [this]; simp
  have hT := table_eq (gamma := gamma) (alpha := alpha) (beta0 := beta0) (counts := counts)
    (c := fun _ => 0) Dbg.DPD.Group.init (by simp [Dbg.DPD.Group.init]) hks
  have hpt := table_pos (beta0 := beta0) hα hpos (c := fun _ => 0) (fun v => le_rfl) hks
  have hsum := table_total (alpha := alpha) (c := fun _ => 0) h0 h1 hks (N := 0) (by simp)
  have hinj := table_inj (alpha := alpha) (beta0 := beta0) (c := fun _ => 0) hother hks
  rw [Nat.cast_zero, add_zero] at hsum
  set T := table alpha beta0 betas (fun _ => 0) ks with hTdef
  haveI : Nonempty (Fin T.length) := by
    rw [← Fin.pos_iff_nonempty]
    by_contra hT0
    have : IsEmpty (Fin T.length) := by
      rw [show T.length = 0 by omega]; infer_instance
    rw [Finset.univ_eq_empty, Finset.sum_empty] at hsum
    exact hα.ne hsum
  have hidx : ∀ v : {v // v ∈ betas.keys}, ∃ i : Fin T.length, (T.get i).1 = v.1 := by
    intro v
    have hmem : (v.1, alpha * DPD.weight betas v.1 + ((0 : Int) : ℝ)) ∈ T :=
      List.mem_append_left _ (List.mem_map.2 ⟨v.1, (hks.mem v.1).2 v.2, rfl⟩)
    obtain ⟨i, hi⟩ := List.mem_iff_get.1 hmem
    exact ⟨i, by rw [hi]⟩
  choose idx hidx using hidx
  let ys : List {v // v ∈ betas.keys} := xs.attach.map fun w => ⟨w.1, hx w.1 w.2⟩
  have hys : ys.map Subtype.val = xs := by
    simp only [ys, List.map_map]
    exact List.attach_map_subtype_val xs
  have hyx : (ys.map idx).map (fun i => (T.get i).1) = xs := by
    rw [List.map_map, ← hys]
    apply List.map_congr_left
    intro v _
    exact hidx v
  have hlen : (ys.map idx).length = xs.length := by rw [← hyx]; simp
  have h := dirichlet_many_py I (fun i => (T.get i).2) hpt (ys.map idx) hB
  rw [hsum, hlen, ← exp_log_gammas (fun i => (T.get i).2)
    (fun i => ((ys.map idx).count i : ℝ)) hpt (fun i => by positivity) hα (by positivity)] at h
  have hcnt : ∀ i, (ys.map idx).count i = xs.count (T.get i).1 := by
    intro i
    have e2 := List.count_map_of_injective (ys.map idx) _ hinj i
    rw [hyx] at e2
    exact e2.symm
  have hterm : ∑ i, (Real.log (Real.Gamma ((T.get i).2 + ((ys.map idx).count i : ℝ))) -
      Real.log (Real.Gamma (T.get i).2)) = ∑ v ∈ betas.keys, term v := by
    simp only [hcnt]
    rw [hTdef, table_sum hks fun e => Real.log (Real.Gamma (e.2 + (xs.count e.1 : ℝ))) -
      Real.log (Real.Gamma e.2)]
    have hz : xs.count DPD.other = 0 := List.count_eq_zero.mpr fun h => hother (hx _ h)
    simp only [hz, Nat.cast_zero, add_zero, sub_self, ite_self, Int.cast_zero]
    rfl
  rw [hterm] at h
  rw [← h]
  congr 1
  ext s
  simp only [Set.mem_setOf_eq]
  rw [Dbg.DPD.sampleGroup, hT]
  simp only [table_ofFn, toNumpy_dirichlet]
  refine exists_congr fun s' => and_congr_right fun _ => ?_
  have e := sampleLoop_congr₂ (eval_iff I.toNumpy T hinj
    (List.ofFn fun i => XR.fin ((I.dirichlet (fun i => (T.get i).2) s).1 i))) (ys.map idx) xs.length
    (I.dirichlet (fun i => (T.get i).2) s).2 s'
  rw [hyx] at e
  exact e

/-- Non-triviality: one known value of weight 1/2, drawn again after it was seen once. -/
example (I : IdealNumpy Supply) : ∃ g x,
    [3].foldlM (fun g v => Dbg.DPD.Group.addRepeatedValue (DPD.real 1 1 (1 / 2)
      (FMap.empty.set 3 (1 / 2)) ⟨FMap.empty, some 0⟩).betas g v 1) Dbg.DPD.Group.init = .ok g ∧
    g.scoreValue (DPD.real 1 1 (1 / 2) (FMap.empty.set 3 (1 / 2)) ⟨FMap.empty, some 0⟩) 3 =
      .ok (.fin x) ∧
    I.P {s | ∃ s', g.sampleValue I.toNumpy s (DPD.real 1 1 (1 / 2) (FMap.empty.set 3 (1 / 2))
      ⟨FMap.empty, some 0⟩) [3] = .ok (3, s')} = ENNReal.ofReal (Real.exp x) := by
  haveI := I.prob
  obtain ⟨g, x, h1, h2, h3⟩ := C68_dpd_value I 1 1 (1 / 2) (FMap.empty.set 3 (1 / 2))
    ⟨FMap.empty, some 0⟩ one_pos
    (by intro v hv; simp at hv; subst hv; norm_num [DPD.weight]) (by simp [DPD.other])
    (by norm_num) (by simp [DPD.weight]; norm_num) [3] ⟨by simp, by intro k; simp⟩ [3] (by simp) 3
    (by simp) MeasurableSet.univ
  exact ⟨g, x, h1, h2, by simpa using h3⟩

end Dist
