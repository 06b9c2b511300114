import Verif.Model.Sequential
import Verif.Props.Gibbs

/-! # C66: sequential initialisation -/

namespace Dist

open Spec Finset MeasureTheory

theorem placeRows_of_placeAll {ι R S G V F σ : Type} [FloatOps F] [DecidableEq ι] (lvl : Nat)
    (m : PitmanYor F) (draw : List F → σ → Res (Nat × σ)) (rows : ι → R) (items : List ι)
    (st st' : Inference ι R S G V F) (s s' : σ)
    (h : Inference.placeAll lvl m draw true rows items st s = .ok (st', s')) :
    FullMixture.placeRows lvl m draw (items.map rows) st.mixture s = .ok (st'.mixture, s') := by
  induction items generalizing st s with
  | nil => cases h; rfl
  | cons i items ih =>
    obtain ⟨⟨st1, s1⟩, h1, h2⟩ := Res.bind_eq_ok.mp h
    obtain ⟨scores, hs, h1⟩ := Res.bind_eq_ok.mp h1
    obtain ⟨⟨g, s2⟩, hd, h1⟩ := Res.bind_eq_ok.mp h1
    obtain ⟨w, hw, h1⟩ := Res.bind_eq_ok.mp h1
    obtain ⟨_, -, h1⟩ := Res.bind_eq_ok.mp h1
    cases h1
    have hs : st.mixture.scoreValue lvl m (rows i) = .ok scores := hs
    rw [List.map_cons, FullMixture.placeRows, hs, Res.ok_bind, hd, Res.ok_bind]
    change (st.mixture.addValue lvl m g (rows i) >>= _) = _
    rw [hw, Res.ok_bind]
    exact ih _ _ h2

/-- **C66, sequential initialisation.** Whenever one pass of `compress_seq_gibbs` returns,
`compress_sequential` on the same samples and the same random numbers returns the same mixture, in any
arithmetic. -/
theorem C66_compress_sequential {ι R S G V F σ : Type} [FloatOps F] [DecidableEq ι] (lvl : Nat)
    (m : PitmanYor F) (draw : List F → σ → Res (Nat × σ)) (rows : ι → R)
    (fs : List (FeatureModel R S G V F)) (n : Nat) (items : List ι) (s s' : σ)
    (st : Inference ι R S G V F)
    (h : Inference.compressSeqGibbs lvl m draw rows fs n items 1 s = .ok (st, s')) :
    FullMixture.compressSequential lvl m draw fs n (items.map rows) s = .ok (st.mixture, s') := by
  obtain ⟨_, -, h⟩ := Res.bind_eq_ok.mp h
  obtain ⟨w, hw, h⟩ := Res.bind_eq_ok.mp h
  obtain ⟨⟨st1, s1⟩, h1, h⟩ := Res.bind_eq_ok.mp h
  cases h
  rw [FullMixture.compressSequential, hw, Res.ok_bind]
  exact placeRows_of_placeAll lvl m draw rows items ⟨w, fun _ => none⟩ _ s _ h1

variable {ι R S G V σ : Type} [DecidableEq ι] [Fintype ι] [MeasurableSpace σ]

/-- `compress_sequential` almost surely ends. -/
theorem C66_sequential_ends {lvl : Nat} {alpha d : ℝ} {fs : List (FeatureModel R S G V XR)}
    {rows : ι → R} (ha : 0 < alpha) (hd0 : 0 ≤ d) (hd1 : d < 1)
    (hcard : Fintype.card ι ≤ 2147483647) (hf : LibraryFeatures lvl rows fs)
    {μ : Measure σ} [IsProbabilityMeasure μ] {draw : List XR → σ → Res (Nat × σ)}
    (hdraw : SoftmaxDraw μ draw) {n : Nat} (hn : 1 ≤ n) {items : List ι} (hnd : items.Nodup)
    (hk : n + items.length ≤ 4294967296) :
    μ {s | ∃ w s', FullMixture.compressSequential lvl ⟨.fin alpha, .fin d⟩ draw fs n
      (items.map rows) s = .ok (w, s')} = 1 := by
  obtain ⟨ε, -, -, h⟩ := C66_compress_seq_gibbs ha hd0 hd1 hf hcard hdraw hn hnd
  refine le_antisymm prob_le_one ?_
  rw [← (h 1 le_rfl (by simpa using hk)).1]
  refine measure_mono ?_
  rintro s ⟨st, s', hs⟩
  exact ⟨st.mixture, s', C66_compress_sequential _ _ _ _ _ _ _ _ _ _ hs⟩

/-- The 10000 points of the example, with its parameters and its ten empty groups. -/
example (rows : Fin 10000 → ℝ × ℝ) : ∃ (σ : Type) (_ : MeasurableSpace σ) (I : IdealRng σ),
    I.P {s | ∃ w s', FullMixture.compressSequential 0 ⟨.fin 100, .fin (1 / 10)⟩
      (fun l s => Dbg.sampleDiscreteLog I.toRng s l)
      ([(0, 1 / 10, 1 / 100, 1, Prod.fst), (0, 1 / 10, 1 / 100, 1, Prod.snd)].map (nichFeature 0)) 10
      ((List.finRange 10000).map rows) s = .ok (w, s')} = 1 := by
  obtain ⟨I⟩ := idealRng_exists
  refine ⟨_, _, I, C66_sequential_ends (by norm_num) (by norm_num) (by norm_num) (by simp)
    (.nich _ ?_) (C66_draws I).2 (by norm_num) (List.nodup_finRange _) (by simp)⟩
  intro x hx
  simp only [List.mem_cons, List.not_mem_nil, or_false] at hx
  rcases hx with rfl | rfl <;> norm_num

end Dist
