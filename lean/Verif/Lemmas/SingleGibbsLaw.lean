import Verif.Lemmas.SingleGibbsScores
import Mathlib.MeasureTheory.Measure.Real

/-! # The law of one draw of the inference loops in single precision -/

namespace Dist

open Spec FloatOps FloatNotation Finset MeasureTheory

namespace Single

/-- Scores that are close give probabilities that are close. -/
theorem softmax_near {n : ℕ} (u v : Fin n → ℝ) {δ : ℝ} (h : ∀ p, |u p - v p| ≤ δ) (p : Fin n) :
    |Real.exp (u p) / ∑ q, Real.exp (u q) - Real.exp (v p) / ∑ q, Real.exp (v q)| ≤
      (Real.exp (2 * δ) - 1) * (Real.exp (v p) / ∑ q, Real.exp (v q)) := by
  have key : ∀ u v : Fin n → ℝ, (∀ p, |u p - v p| ≤ δ) →
      Real.exp (u p) / ∑ q, Real.exp (u q) ≤
        Real.exp (2 * δ) * (Real.exp (v p) / ∑ q, Real.exp (v q)) := by
    intro u v h
    have hsu : 0 < ∑ q, Real.exp (u q) := sum_pos (fun _ _ => Real.exp_pos _) ⟨p, mem_univ p⟩
    have hsv : 0 < ∑ q, Real.exp (v q) := sum_pos (fun _ _ => Real.exp_pos _) ⟨p, mem_univ p⟩
    have h1 : Real.exp (u p) ≤ Real.exp δ * Real.exp (v p) := by
      rw [← Real.exp_add]
      exact Real.exp_le_exp.mpr (by linarith [(abs_le.mp (h p)).2])
    have h2 : ∑ q, Real.exp (v q) ≤ Real.exp δ * ∑ q, Real.exp (u q) := by
      rw [mul_sum]
      refine sum_le_sum fun q _ => ?_
      rw [← Real.exp_add]
      exact Real.exp_le_exp.mpr (by linarith [(abs_le.mp (h q)).1])
    rw [div_le_iff₀ hsu]
    calc Real.exp (u p) ≤ Real.exp δ * Real.exp (v p) := h1
      _ = Real.exp δ * (Real.exp (v p) / ∑ q, Real.exp (v q)) * ∑ q, Real.exp (v q) := by
        field_simp
      _ ≤ Real.exp δ * (Real.exp (v p) / ∑ q, Real.exp (v q)) *
          (Real.exp δ * ∑ q, Real.exp (u q)) := by gcongr
      _ = _ := by rw [two_mul, Real.exp_add]; ring
  have k1 := key u v h
  have k2 := key v u fun p => by rw [abs_sub_comm]; exact h p
  have hδ : 0 ≤ δ := (abs_nonneg _).trans (h p)
  have he : 1 ≤ Real.exp (2 * δ) := Real.one_le_exp (by linarith)
  set a := Real.exp (u p) / ∑ q, Real.exp (u q)
  set b := Real.exp (v p) / ∑ q, Real.exp (v q)
  set e := Real.exp (2 * δ)
  have hb : 0 ≤ b := div_nonneg (Real.exp_pos _).le (sum_nonneg fun _ _ => (Real.exp_pos _).le)
  clear_value a b e
  rw [abs_le]
  constructor
  · rcases le_total b a with h | h
    · nlinarith
    · nlinarith
  · linarith

theorem weights_near {n N : ℕ} (hn : n ≤ N) (w : Fin n → ℝ) (u v : Fin n → ℝ) {δ r t : ℝ}
    (ht : 0 ≤ t) (hpos : 0 < n) (h : ∀ p, |u p - v p| ≤ δ)
    (hw : ∀ p, |w p - Real.exp (u p) / ∑ q, Real.exp (u q)| ≤
      r * (Real.exp (u p) / ∑ q, Real.exp (u q)) + t) :
    ∑ p, |w p - Real.exp (v p) / ∑ q, Real.exp (v q)| ≤ r + N * t + (Real.exp (2 * δ) - 1) := by
  have hone : ∀ u : Fin n → ℝ, ∑ p, Real.exp (u p) / ∑ q, Real.exp (u q) = 1 := by
    intro u
    rw [← sum_div]
    exact div_self (sum_pos (fun _ _ => Real.exp_pos _) ⟨⟨0, hpos⟩, mem_univ _⟩).ne'
  calc ∑ p, |w p - Real.exp (v p) / ∑ q, Real.exp (v q)|
      ≤ ∑ p, ((r * (Real.exp (u p) / ∑ q, Real.exp (u q)) + t) +
          (Real.exp (2 * δ) - 1) * (Real.exp (v p) / ∑ q, Real.exp (v q))) := by
        refine sum_le_sum fun p _ => ?_
        refine (abs_sub_le _ (Real.exp (u p) / ∑ q, Real.exp (u q)) _).trans ?_
        exact add_le_add (hw p) (softmax_near u v h p)
    _ = r + n * t + (Real.exp (2 * δ) - 1) := by
        rw [sum_add_distrib, sum_add_distrib, ← mul_sum, ← mul_sum, hone, hone]
        simp
    _ ≤ _ := by
        have : (n : ℝ) ≤ N := by exact_mod_cast hn
        gcongr

end Single

section draw

variable {σ α : Type} [MeasurableSpace σ] {lib : Libm}

/-- A draw from scores given by a function of the groups. -/
theorem NearSoftmaxDraw.groups {N : ℕ} {r t : ℝ} {P : Measure σ}
    {draw : List (Single lib) → σ → Res (Nat × σ)} (hd : NearSoftmaxDraw N r t P draw)
    (ls : List α) (F : α → ℝ) (hne : ls ≠ []) (hN : ls.length ≤ N)
    (hF : ∀ x ∈ ls, |F x| ≤ 10 ^ 5) :
    (∀ s, ∃ p s', draw (ls.map fun x => ⟨F x⟩) s = .ok (p, s') ∧ p < ls.length) ∧
    ∃ w : Fin ls.length → ℝ, (∀ p, 0 ≤ w p) ∧ ∑ p, w p = 1 ∧
      (∀ p, |w p - Real.exp (F ls[p]) / ∑ q : Fin ls.length, Real.exp (F ls[q])| ≤
        r * (Real.exp (F ls[p]) / ∑ q : Fin ls.length, Real.exp (F ls[q])) + t) ∧
      ∀ (p : Fin ls.length) (B : Set σ), MeasurableSet B →
        MeasurableSet {s | ∃ s' ∈ B, draw (ls.map fun x => ⟨F x⟩) s = .ok (p.1, s')} ∧
        P.real {s | ∃ s' ∈ B, draw (ls.map fun x => ⟨F x⟩) s = .ok (p.1, s')} =
          w p * P.real B := by
  have hlen : (ls.map F).length = ls.length := List.length_map ..
  obtain ⟨h1, w, h2, h3, h4, h5⟩ := hd (ls.map F) (by simpa using hne) (by rw [hlen]; exact hN) (by
    intro y hy z hz
    obtain ⟨a, ha, rfl⟩ := List.mem_map.mp hy
    obtain ⟨b, hb, rfl⟩ := List.mem_map.mp hz
    have := abs_le.mp (hF a ha)
    have := abs_le.mp (hF b hb)
    linarith)
  have hm : (ls.map F).map Single.mk = ls.map fun x => (⟨F x⟩ : Single lib) := by
    rw [List.map_map]; rfl
  rw [hm] at h1 h5
  have hsum : ((ls.map F).map Real.exp).sum = ∑ q : Fin ls.length, Real.exp (F ls[q]) := by
    rw [List.map_map, ← Fin.sum_univ_fun_getElem ls (Real.exp ∘ F)]
    rfl
  refine ⟨fun s => ?_, fun p => w (p.cast hlen.symm), fun p => h2 _, ?_, fun p => ?_, fun p B hB => ?_⟩
  · obtain ⟨p, s', e1, e2⟩ := h1 s
    exact ⟨p, s', e1, by rwa [hlen] at e2⟩
  · rw [← h3]
    exact Fintype.sum_equiv (finCongr hlen.symm) _ _ fun p => rfl
  · have := h4 (p.cast hlen.symm)
    rw [hsum] at this
    simpa using this
  · exact h5 (p.cast hlen.symm) B hB

end draw


/-! ### Random computations -/

section law

variable {ι R S G V σ F : Type} [DecidableEq ι] [Fintype ι] [MeasurableSpace σ]

/-- A computation that always gives a state with `Q` and a fresh generator; the mean of a quantity
`κ` of the clustering is within `η` of `A κ`. -/
structure Law (P : Measure σ) (f : σ → Res (Inference ι R S G V F × σ))
    (Q : Inference ι R S G V F → Prop) (A : (Finset (Finset ι) → ℝ) → ℝ) (η : ℝ) : Prop where
  total : ∀ s, ∃ st' s', f s = .ok (st', s') ∧ Q st'
  law : ∀ (Ev : Inference ι R S G V F → Set σ) (c : ℝ),
    (∀ st', Q st' → MeasurableSet (Ev st') ∧ P.real (Ev st') ≤ c) →
    MeasurableSet {s | ∃ st' s', f s = .ok (st', s') ∧ s' ∈ Ev st'} ∧
    P.real {s | ∃ st' s', f s = .ok (st', s') ∧ s' ∈ Ev st'} ≤ c ∧
    (∀ (κ : Finset (Finset ι) → ℝ) (e : ℝ),
      (∀ st', Q st' → |P.real (Ev st') - κ (clusters st'.assignments) * c| ≤ e * c) →
      |P.real {s | ∃ st' s', f s = .ok (st', s') ∧ s' ∈ Ev st'} - A κ * c| ≤ (e + η) * c) ∧
    ∀ m e : ℝ, (∀ st', Q st' → |P.real (Ev st') - m| ≤ e) →
      |P.real {s | ∃ st' s', f s = .ok (st', s') ∧ s' ∈ Ev st'} - m| ≤ e

variable {P : Measure σ} {f : σ → Res (Inference ι R S G V F × σ)}
  {g : Inference ι R S G V F → σ → Res (Inference ι R S G V F × σ)}
  {Q Q' : Inference ι R S G V F → Prop} {A : (Finset (Finset ι) → ℝ) → ℝ}
  {A' : Finset (Finset ι) → (Finset (Finset ι) → ℝ) → ℝ} {η η' : ℝ}

theorem Law.pure (st : Inference ι R S G V F) (hQ : Q st) :
    Law P (fun s => .ok (st, s)) Q (fun κ => κ (clusters st.assignments)) 0 := by
  refine ⟨fun s => ⟨st, s, rfl, hQ⟩, fun Ev c h => ?_⟩
  rw [event_ok]
  refine ⟨(h st hQ).1, (h st hQ).2, fun κ e he => ?_, fun m e he => he st hQ⟩
  rw [add_zero]; exact he st hQ

theorem Law.bind (h : Law P f Q A η)
    (h' : ∀ st1, Q st1 → Law P (g st1) Q' (A' (clusters st1.assignments)) η') :
    Law P (fun s => (f s).bind fun r => g r.1 r.2) Q' (fun κ => A fun C => A' C κ) (η' + η) := by
  refine ⟨fun s => ?_, fun Ev c hEv => ?_⟩
  · obtain ⟨st1, s1, e1, q1⟩ := h.total s
    obtain ⟨st2, s2, e2, q2⟩ := (h' st1 q1).total s1
    exact ⟨st2, s2, by rw [e1]; exact e2, q2⟩
  · rw [event_bind]
    have hin := fun st1 q1 => (h' st1 q1).law Ev c hEv
    obtain ⟨m1, m2, m3, m4⟩ := h.law (fun st1 => {s | ∃ st' s', g st1 s = .ok (st', s') ∧
      s' ∈ Ev st'}) c fun st1 q1 => ⟨(hin st1 q1).1, (hin st1 q1).2.1⟩
    refine ⟨m1, m2, fun κ e he => ?_, fun m e he => ?_⟩
    · refine (m3 (fun C => A' C κ) (e + η') fun st1 q1 => ?_).trans (le_of_eq (by ring))
      exact (hin st1 q1).2.2.1 κ e he
    · exact m4 m e fun st1 q1 => (hin st1 q1).2.2.2 m e he

theorem Law.mono (h : Law P f Q A η) (hQ : ∀ st, Q st → Q' st) : Law P f Q' A η := by
  refine ⟨fun s => ?_, fun Ev c hEv => ?_⟩
  · obtain ⟨st1, s1, e1, q1⟩ := h.total s
    exact ⟨st1, s1, e1, hQ _ q1⟩
  · obtain ⟨m1, m2, m3, m4⟩ := h.law Ev c fun st q => hEv st (hQ st q)
    exact ⟨m1, m2, fun κ e he => m3 κ e fun st q => he st (hQ st q),
      fun m e he => m4 m e fun st q => he st (hQ st q)⟩

end law

namespace SCtx

variable {ι R S S' G V σ : Type} [DecidableEq ι] [Fintype ι] [DecidableEq V] [MeasurableSpace σ]
  {lib : Libm} {Y : SCtx lib ι R S S' G V}

/-- The mean over the groups is the mean over the clusters. -/
theorem groups_mean (X : Ctx ι R S G V) (scored : Bool) (i : ι) (a : ι → Option Nat)
    (ls : List (Nat × Multiset ι)) {E : ℕ} (hE : 0 < E)
    (hsum : ∀ F : Finset ι → ℝ, (ls.map fun x => F x.2.toFinset).sum =
      E • F ∅ + ∑ b ∈ clusters a, F b) (L : Nat × Multiset ι → ℝ)
    (hL : ∀ x ∈ ls, L x = logWeight X.alpha X.d (X.D (X.used scored))
          (put i x.2.toFinset (clusters a)) -
        logWeight X.alpha X.d (X.D (X.used scored)) (clusters a) -
        Real.log (if x.2.toFinset = ∅ then (E : ℝ) else 1))
    (κ : Finset (Finset ι) → ℝ) :
    ∑ p : Fin ls.length, Real.exp (L ls[p]) / (∑ q : Fin ls.length, Real.exp (L ls[q])) *
      κ (put i ls[p].2.toFinset (clusters a)) = putMean (X.W scored) i κ (clusters a) := by
  set C := clusters a with hC
  have hE' : (0 : ℝ) < (E : ℝ) := by exact_mod_cast hE
  let F : Finset ι → ℝ := fun b => X.W scored (put i b C) / X.W scored C /
    (if b = ∅ then (E : ℝ) else 1)
  have hexp : ∀ p : Fin ls.length, Real.exp (L ls[p]) = F ls[p].2.toFinset := by
    intro p
    have : (0 : ℝ) < if ls[p].2.toFinset = ∅ then (E : ℝ) else 1 := by split_ifs <;> linarith
    rw [hL ls[p] (List.getElem_mem _)]
    simp only [F, Ctx.W]
    rw [Real.exp_sub, Real.exp_sub, Real.exp_log this]
  have hCe : ∅ ∉ C := (clusters_parts a).empty
  have htot : ∀ κ' : Finset (Finset ι) → ℝ,
      ∑ p : Fin ls.length, F ls[p].2.toFinset * κ' (put i ls[p].2.toFinset C) =
      (∑ b ∈ insert ∅ C, X.W scored (put i b C) * κ' (put i b C)) / X.W scored C := by
    intro κ'
    have h0 : ∑ p : Fin ls.length, F ls[p].2.toFinset * κ' (put i ls[p].2.toFinset C) =
        (ls.map fun x => F x.2.toFinset * κ' (put i x.2.toFinset C)).sum :=
      Fin.sum_univ_fun_getElem ls fun x => F x.2.toFinset * κ' (put i x.2.toFinset C)
    rw [h0, hsum (fun b => F b * κ' (put i b C)), sum_insert hCe, add_div]
    congr 1
    · simp only [F, if_true, nsmul_eq_mul]
      field_simp
    · rw [sum_div]
      apply sum_congr rfl
      intro b hb
      have hb0 : b ≠ ∅ := by rintro rfl; exact hCe hb
      simp only [F, hb0, if_false, div_one]
      ring
  simp only [hexp]
  have h1 := htot fun _ => 1
  simp only [mul_one] at h1
  rw [h1]
  have h2 := htot κ
  have hWC := X.W_pos scored C
  have hZ := putTotal_pos (X.W_pos scored) i C
  unfold putMean
  calc ∑ p : Fin ls.length, F ls[p].2.toFinset /
        ((∑ b ∈ insert ∅ C, X.W scored (put i b C)) / X.W scored C) *
          κ (put i ls[p].2.toFinset C)
      = (∑ p : Fin ls.length, F ls[p].2.toFinset * κ (put i ls[p].2.toFinset C)) /
        ((∑ b ∈ insert ∅ C, X.W scored (put i b C)) / X.W scored C) := by
        generalize (∑ b ∈ insert ∅ C, X.W scored (put i b C)) / X.W scored C = z
        rw [sum_div]
        exact sum_congr rfl fun p _ => by ring
    _ = (∑ b ∈ insert ∅ C, X.W scored (put i b C) * κ (put i b C)) /
        (∑ b ∈ insert ∅ C, X.W scored (put i b C)) := by
        rw [h2]; field_simp
    _ = _ := by
        generalize ∑ b ∈ insert ∅ C, X.W scored (put i b C) = z
        rw [sum_div]
        exact sum_congr rfl fun p _ => by ring

/-- Placing an item. -/
theorem Inv.place_law (hY : Y.Ok) {P : Measure σ} [IsProbabilityMeasure P] {N : ℕ} {r t : ℝ}
    (ht : 0 ≤ t) (hN : N ≤ 2 ^ 20) {draw : List (Single lib) → σ → Res (Nat × σ)}
    (hd : NearSoftmaxDraw N r t P draw) (scored : Bool)
    {st : Inference ι R S' G V (Single lib)} {k E : Nat} (h : Y.Inv st k E)
    (hsz : st.mixture.size ≤ N) {i : ι} (hi : st.assignments i = none) (hk : k + 1 ≤ 4294967296) :
    Law P (fun s => st.place Y.X.lvl Y.model draw scored Y.X.rows i s)
      (fun st' => Y.Inv st' (k + 1) E ∧
        ∃ g, st'.assignments = Inference.assign st.assignments i (some g))
      (fun κ => putMean (Y.X.W scored) i κ (clusters st.assignments))
      (stepError N Y.err Y.feats.length r t) := by
  obtain ⟨w, s0, ls, h, hk0, hE0⟩ := h
  rw [h.size.1] at hsz
  obtain ⟨F', hF, hF'⟩ := h.scores hY (hsz.trans hN) hi scored
  have hEpos : 0 < (ls.map fun x => x.2.card).count 0 := List.count_pos_iff.mpr h.exact.base.empty
  have hne : ls ≠ [] := by rintro rfl; simp at hEpos
  obtain ⟨htot, u, u0, u1, u2, u3⟩ := NearSoftmaxDraw.groups hd ls F' hne hsz fun x hx => (hF' x hx).2
  -- the states
  have hadd : ∀ p, ∃ st' : Inference ι R S' G V (Single lib), ∀ x, ls[p]? = some x →
      (∃ w1, st.mixture.addValue Y.X.lvl Y.model p (Y.X.rows i) = .ok w1 ∧
      w1.tracker.packedToGlobalId Y.X.lvl p = .ok x.1 ∧
      st' = ⟨w1, Inference.assign st.assignments i (some x.1)⟩) ∧ Y.Inv st' (k + 1) E ∧
      clusters st'.assignments = put i x.2.toFinset (clusters st.assignments) := by
    intro p
    cases hp : ls[p]? with
    | none => exact ⟨st, by simp⟩
    | some x =>
      obtain ⟨g, M⟩ := x
      obtain ⟨w1', w1, s1, ls1, h1, h2, h3, h4, h5⟩ := h.add hY hi hp (by omega)
      refine ⟨⟨w1', Inference.assign st.assignments i (some g)⟩, ?_⟩
      intro x hx
      rw [Option.some.injEq] at hx
      subst hx
      refine ⟨⟨w1', h1, h2, rfl⟩, ⟨w1, s1, ls1, h3, by omega, by omega⟩, ?_⟩
      simp only
      rw [clusters_assign hi]
      congr 1
      have hM : M = (univ.filter fun j => st.assignments j = some g).val :=
        h.exact.assign (g, M) (List.mem_of_getElem? hp)
      simp only [hM, val_toFinset]
  choose sts hsts using hadd
  have hpl : ∀ s p s', draw (ls.map fun x => ⟨F' x⟩) s = .ok (p, s') → p < ls.length →
      st.place Y.X.lvl Y.model draw scored Y.X.rows i s = .ok (sts p, s') := by
    intro s p s' hds hp
    obtain ⟨⟨w1, h1, h2, h3⟩, _⟩ := hsts p ls[p] (List.getElem?_eq_getElem hp)
    unfold Inference.place
    rw [hF, Res.ok_bind, hds, Res.ok_bind]
    simp only
    rw [h1, Res.ok_bind, h2, h3]
    rfl
  have hq : ∀ p : Fin ls.length, Y.Inv (sts p) (k + 1) E ∧
      (∃ g, (sts p).assignments = Inference.assign st.assignments i (some g)) ∧
      clusters (sts p).assignments = put i ls[p].2.toFinset (clusters st.assignments) := by
    intro p
    obtain ⟨⟨w1, _, _, h3⟩, h4, h5⟩ := hsts p ls[p] (List.getElem?_eq_getElem p.2)
    exact ⟨h4, ⟨_, by rw [h3]⟩, h5⟩
  refine ⟨fun s => ?_, fun Ev c hEv => ?_⟩
  · obtain ⟨p, s', e1, e2⟩ := htot s
    exact ⟨sts p, s', hpl s p s' e1 e2, (hq ⟨p, e2⟩).1, (hq ⟨p, e2⟩).2.1⟩
  have hset : {s | ∃ st' s', st.place Y.X.lvl Y.model draw scored Y.X.rows i s = .ok (st', s') ∧
      s' ∈ Ev st'} =
      ⋃ p : Fin ls.length, {s | ∃ s' ∈ Ev (sts p),
        draw (ls.map fun x => ⟨F' x⟩) s = .ok (p.1, s')} := by
    ext s
    simp only [Set.mem_setOf_eq, Set.mem_iUnion]
    obtain ⟨p, s', e1, e2⟩ := htot s
    rw [hpl s p s' e1 e2, e1]
    simp only [Res.ok.injEq, Prod.mk.injEq]
    constructor
    · rintro ⟨st', s'', ⟨rfl, rfl⟩, h⟩
      exact ⟨⟨p, e2⟩, s', h, rfl, rfl⟩
    · rintro ⟨q, s'', h, h1, h2⟩
      exact ⟨_, _, ⟨rfl, rfl⟩, by rw [h1, h2]; exact h⟩
  have hm : ∀ p : Fin ls.length, MeasurableSet (Ev (sts p)) ∧ P.real (Ev (sts p)) ≤ c :=
    fun p => hEv _ ⟨(hq p).1, (hq p).2.1⟩
  have hdisj : Pairwise (Function.onFun Disjoint fun p : Fin ls.length =>
      {s | ∃ s' ∈ Ev (sts p), draw (ls.map fun x => ⟨F' x⟩) s = .ok (p.1, s')}) := by
    intro p q hpq
    rw [Function.onFun, Set.disjoint_left]
    rintro s ⟨s1, _, e1⟩ ⟨s2, _, e2⟩
    rw [e1, Res.ok.injEq, Prod.mk.injEq] at e2
    exact hpq (Fin.ext e2.1)
  have hval : P.real {s | ∃ st' s',
      st.place Y.X.lvl Y.model draw scored Y.X.rows i s = .ok (st', s') ∧ s' ∈ Ev st'} =
      ∑ p, u p * P.real (Ev (sts p)) := by
    rw [hset, measureReal_iUnion_fintype hdisj fun p => (u3 p _ (hm p).1).1]
    exact sum_congr rfl fun p _ => (u3 p _ (hm p).1).2
  have hc0 : 0 ≤ c := by
    have p : Fin ls.length := ⟨0, List.length_pos_iff.mpr hne⟩
    exact measureReal_nonneg.trans (hm p).2
  refine ⟨?_, ?_, fun κ e he => ?_, fun m e he => ?_⟩
  · rw [hset]
    exact MeasurableSet.iUnion fun p => (u3 p _ (hm p).1).1
  · rw [hval]
    calc ∑ p, u p * P.real (Ev (sts p)) ≤ ∑ p, u p * c :=
          sum_le_sum fun p _ => mul_le_mul_of_nonneg_left (hm p).2 (u0 p)
      _ = c := by rw [← sum_mul, u1, one_mul]
  · rw [hval]
    let L : Nat × Multiset ι → ℝ := fun x => logWeight Y.X.alpha Y.X.d (Y.X.D (Y.X.used scored))
          (put i x.2.toFinset (clusters st.assignments)) -
        logWeight Y.X.alpha Y.X.d (Y.X.D (Y.X.used scored)) (clusters st.assignments) -
        Real.log (if x.2.toFinset = ∅ then ((ls.map fun x => x.2.card).count 0 : ℕ) else 1)
    have hmean := groups_mean Y.X scored i st.assignments ls hEpos
      (fun F => h.exact.sum_groups F) L (fun x _ => rfl) κ
    have hwn := Single.weights_near hsz u (fun p => F' ls[p]) (fun p => L ls[p]) ht
      (List.length_pos_iff.mpr hne) (fun p => (hF' _ (List.getElem_mem _)).1) u2
    set q : Fin ls.length → ℝ := fun p => Real.exp (L ls[p]) /
      ∑ q : Fin ls.length, Real.exp (L ls[q]) with hqdef
    have hq1 : ∑ p, q p = 1 := by
      simp only [hqdef]
      rw [← sum_div]
      exact div_self (sum_pos (fun _ _ => Real.exp_pos _)
        ⟨⟨0, List.length_pos_iff.mpr hne⟩, mem_univ _⟩).ne'
    have hq0 : ∀ p, 0 ≤ q p := fun p =>
      div_nonneg (Real.exp_pos _).le (sum_nonneg fun _ _ => (Real.exp_pos _).le)
    have hmean' : ∑ p, q p * κ (put i ls[p].2.toFinset (clusters st.assignments)) =
      putMean (Y.X.W scored) i κ (clusters st.assignments) := hmean
    rw [← hmean']
    have hwn' : ∑ p, |u p - q p| ≤ stepError N Y.err Y.feats.length r t := hwn
    have e1 : ∑ p, u p * P.real (Ev (sts p)) -
        (∑ p, q p * κ (put i ls[p].2.toFinset (clusters st.assignments))) * c =
        ∑ p, (u p - q p) * P.real (Ev (sts p)) +
        ∑ p, q p * (P.real (Ev (sts p)) -
          κ (put i ls[p].2.toFinset (clusters st.assignments)) * c) := by
      rw [sum_mul, ← sum_sub_distrib, ← sum_add_distrib]
      exact sum_congr rfl fun p _ => by ring
    rw [e1, add_mul, add_comm (e * c)]
    refine (abs_add_le _ _).trans (add_le_add ?_ ?_)
    · calc |∑ p, (u p - q p) * P.real (Ev (sts p))|
          ≤ ∑ p, |(u p - q p) * P.real (Ev (sts p))| := abs_sum_le_sum_abs _ _
        _ ≤ ∑ p, |u p - q p| * c := by
          refine sum_le_sum fun p _ => ?_
          rw [abs_mul, abs_of_nonneg (measureReal_nonneg (μ := P) (s := Ev (sts p)))]
          exact mul_le_mul_of_nonneg_left (hm p).2 (abs_nonneg _)
        _ ≤ _ := by
          rw [← sum_mul]
          exact mul_le_mul_of_nonneg_right hwn' hc0
    · calc |∑ p, q p * (P.real (Ev (sts p)) -
            κ (put i ls[p].2.toFinset (clusters st.assignments)) * c)|
          ≤ ∑ p, |q p * (P.real (Ev (sts p)) -
            κ (put i ls[p].2.toFinset (clusters st.assignments)) * c)| := abs_sum_le_sum_abs _ _
        _ ≤ ∑ p, q p * (e * c) := by
          refine sum_le_sum fun p _ => ?_
          rw [abs_mul, abs_of_nonneg (hq0 p)]
          have := he (sts p) ⟨(hq p).1, (hq p).2.1⟩
          rw [(hq p).2.2] at this
          exact mul_le_mul_of_nonneg_left this (hq0 p)
        _ = e * c := by rw [← sum_mul, hq1, one_mul]
  · rw [hval]
    have e1 : ∑ p, u p * P.real (Ev (sts p)) - m = ∑ p, u p * (P.real (Ev (sts p)) - m) := by
      simp only [mul_sub, sum_sub_distrib]
      rw [← sum_mul, u1, one_mul]
    rw [e1]
    calc |∑ p, u p * (P.real (Ev (sts p)) - m)|
        ≤ ∑ p, |u p * (P.real (Ev (sts p)) - m)| := abs_sum_le_sum_abs _ _
      _ ≤ ∑ p, u p * e := by
        refine sum_le_sum fun p _ => ?_
        rw [abs_mul, abs_of_nonneg (u0 p)]
        exact mul_le_mul_of_nonneg_left (he (sts p) ⟨(hq p).1, (hq p).2.1⟩) (u0 p)
      _ = e := by rw [← sum_mul, u1, one_mul]

omit [Fintype ι] in
theorem card_without (i : ι) (C : Finset (Finset ι)) : (without i C).card ≤ C.card :=
  (card_erase_le).trans card_image_le

/-- Resampling an item. -/
theorem Inv.resample_law (hY : Y.Ok) {P : Measure σ} [IsProbabilityMeasure P] {N : ℕ} {r t : ℝ}
    (ht : 0 ≤ t) (hN : N ≤ 2 ^ 20) {draw : List (Single lib) → σ → Res (Nat × σ)}
    (hd : NearSoftmaxDraw N r t P draw)
    {st : Inference ι R S' G V (Single lib)} {k E : Nat} (h : Y.Inv st k E)
    (hsz : st.mixture.size ≤ N) {i : ι} (hi : st.assignments i ≠ none) (hk : k + 1 ≤ 4294967296) :
    Law P (fun s => st.resample Y.X.lvl Y.model draw Y.X.rows i s)
      (fun st' => Y.Inv st' (k + 1) E ∧
        ∃ g, st'.assignments = Inference.assign st.assignments i (some g))
      (fun κ => putMean (Y.X.W true) i κ (without i (clusters st.assignments)))
      (stepError N Y.err Y.feats.length r t) := by
  obtain ⟨g, hg⟩ := Option.ne_none_iff_exists'.mp hi
  obtain ⟨st1, h1, h2, h3⟩ := h.takeOut hY hg
  have ha : ∀ x, Inference.assign st1.assignments i x = Inference.assign st.assignments i x := by
    intro x; rw [h3]; funext j; simp only [Inference.assign]; split_ifs <;> rfl
  have hcl : clusters st1.assignments = without i (clusters st.assignments) := by
    rw [h3, clusters_unassign]
  have hsz1 : st1.mixture.size ≤ N := by
    rw [h2.size, hcl]
    rw [h.size] at hsz
    have := card_without i (clusters st.assignments)
    omega
  have := h2.place_law hY ht hN hd true hsz1 (i := i) (by rw [h3]; simp [Inference.assign]) hk
  simp only [Ctx.resample_eq h1]
  rw [hcl] at this
  refine this.mono ?_
  rintro st' ⟨q1, g', q2⟩
  exact ⟨q1, g', by rw [q2, ha]⟩

end SCtx

end Dist
