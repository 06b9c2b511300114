import Verif.Lemmas.Annealing
import Verif.Lemmas.GibbsModels

/-!
# C67: Subsample annealing ends with every sample placed once

`compress_annealing` adds items at one end of a window and removes them at the other, at rates
set by its number of passes.
-/

namespace Dist

open Spec Finset

variable {ι R S G V σ : Type} [DecidableEq ι] [Fintype ι]

omit [DecidableEq ι] [Fintype ι] in
/-- The C++ sampler always gives an index; the Python sampler does if the uniform draws are in
`[0, 1)`. -/
theorem C67_draws (rng : Rng XR σ) (hu : ∀ s, ∃ u : ℝ, (rng.unif01 s).1 = .fin u ∧ 0 ≤ u ∧ u < 1) :
    TotalDraw (fun l s => sampleFromScores rng s l) ∧
    TotalDraw (fun l s => Dbg.sampleDiscreteLog rng s l) := by
  constructor
  · intro l hne s
    obtain ⟨i, hi, _, _, _, _, _, h, _⟩ := C44_sampling rng s l hne
    exact ⟨i, _, h, hi⟩
  · intro l hne s
    have hpos : 0 < (l.map Real.exp).sum := sum_exp_pos hne
    have hsum : (l.map fun y => Real.exp y / (l.map Real.exp).sum).sum = 1 := by
      have : ∀ (l : List ℝ) (t : ℝ), (l.map fun y => Real.exp y / t).sum =
          (l.map Real.exp).sum / t := by
        intro l t
        induction l with
        | nil => simp
        | cons x l ih => simp [ih, add_div]
      rw [this, div_self hpos.ne']
    obtain ⟨u, h1, h2, h3⟩ := hu s
    simp only [Dbg.sampleDiscreteLog]
    rw [Dbg.scoresToProbs_exact l hne, Res.ok_bind, Dbg.sampleDiscrete]
    have hone : (FloatOps.lit 1 1 : XR) = .fin 1 := by
      simp [FloatOps.lit]
    rw [hone]
    rcases Dbg.dartLoop_eq 0 (l.map fun y => Real.exp y / (l.map Real.exp).sum) 0 (u * 1) with
      ⟨_, h5 | h5⟩ | ⟨j, h5, h6, _⟩
    · simp at h5; exact absurd h5 hne
    · rw [hsum] at h5; linarith
    · refine ⟨j, (rng.unif01 s).2, ?_, by simpa using h6⟩
      rw [Dbg.attempts]
      simp only [h1, XR.fin_mul]
      rw [h5]

section

variable {lvl : Nat} {alpha d : ℝ} (ha : 0 < alpha) (hd0 : 0 ≤ d) (hd1 : d < 1) {rows : ι → R}
  {fs : List (FeatureModel R S G V XR)} (hf : LibraryFeatures lvl rows fs)
  (hcard : Fintype.card ι ≤ 2147483647)

include ha hd0 hd1 hf hcard

/-- Annealing with `passes ≥ 1` passes over `N ≥ 1` items never fails and ends within
`(2 passes - 1) N` rounds.  It only removes items that are there, it ends with every item
placed, and it has then placed between `passes (N - 1)` and `passes N` items. -/
theorem C67_annealing {draw : List XR → σ → Res (Nat × σ)} (hdraw : TotalDraw draw)
    {n passes : Nat} (hn : 1 ≤ n) (hp : 1 ≤ passes) {items : List ι} (hnd : items.Nodup)
    (hne : items ≠ []) (hk : n + passes * items.length ≤ 4294967296)
    {fuel : Nat} (hfuel : (2 * passes - 1) * items.length < fuel) (s : σ) :
    ∃ x s', Annealing.compressAnnealing lvl ⟨.fin alpha, .fin d⟩ draw rows fs n items passes fuel s
        = .ok (some (x, s')) ∧
      Reached lvl ⟨.fin alpha, .fin d⟩ fs rows x.inference (n + x.added) ∧
      (∀ i, x.inference.assignments i ≠ none ↔ i ∈ items) ∧
      x.added = x.removed + items.length ∧
      passes * (items.length - 1) ≤ x.added ∧ x.added ≤ passes * items.length := by
  obtain ⟨_, Sm, Coh, dat, hs⟩ := library_sound hf hcard
  let X : Ctx ι R S G V := ⟨lvl, alpha, d, rows, fs, Sm, Coh, dat⟩
  have hX : X.Ok := ⟨ha, hd0, hd1, hcard, hs⟩
  obtain ⟨w, hw, hinv⟩ := Ctx.inv_init hX hn (by omega)
  have hwin : Annealing.Window X items passes n
      (⟨passes, 0, 0, ⟨w, fun _ => none⟩⟩ : Annealing ι R S G V XR) :=
    ⟨hinv, .init hw, le_refl _, by simp, by simp, by simp only; omega, le_refl _, by simp⟩
  obtain ⟨y, s', h1, h2, h3, h4⟩ :=
    Annealing.loop_of hX hdraw hnd hne hp hk fuel hwin (by simpa using hfuel) s
  refine ⟨y, s', ?_, h2.reached, ?_, h4, ?_, (h2.bounds hp).1⟩
  · unfold Annealing.compressAnnealing
    rw [distAssert0_of hp, Res.ok_bind,
      show (FullMixture.raw fs).init lvl ⟨.fin alpha, .fin d⟩ n = .ok w from hw, Res.ok_bind]
    exact h1
  · intro i
    have hpos : 0 < items.length := List.length_pos_iff.mpr hne
    rw [h2.assigned]
    constructor
    · rintro ⟨t, _, _, h⟩; exact List.mem_of_getElem? h
    · intro hi
      obtain ⟨q, hq⟩ := List.mem_iff_getElem?.mp hi
      have hql := (List.getElem?_eq_some_iff.mp hq).1
      -- the number congruent to `q` in the window
      let t := y.removed + (q + items.length - y.removed % items.length) % items.length
      have hlt : (q + items.length - y.removed % items.length) % items.length < items.length :=
        Nat.mod_lt _ hpos
      refine ⟨t, by omega, by omega, ?_⟩
      have hr := Nat.mod_lt y.removed hpos
      have : t % items.length = q := by
        simp only [t]
        rw [Nat.add_mod, Nat.mod_mod, ← Nat.add_mod]
        have e : y.removed + (q + items.length - y.removed % items.length) =
            q + items.length * (y.removed / items.length + 1) := by
          have := Nat.div_add_mod y.removed items.length
          rw [Nat.mul_add]
          omega
        rw [e, Nat.add_mul_mod_self_left, Nat.mod_eq_of_lt hql]
      rw [this]; exact hq
  · have h5 := h2.state
    have h6 : (y.added : Int) = y.removed + items.length := by exact_mod_cast h4
    have hpos : 1 ≤ items.length := List.length_pos_iff.mpr hne
    have : (passes : Int) * ((items.length : Int) - 1) ≤ y.added := by nlinarith
    have h7 : ((items.length - 1 : ℕ) : Int) = (items.length : Int) - 1 := by omega
    have h8 : ((passes * (items.length - 1) : ℕ) : Int) ≤ (y.added : Int) := by
      rw [Nat.cast_mul, h7]; exact this
    exact_mod_cast h8

omit [Fintype ι] hd0 hd1 hf hcard ha in
/-- With no samples the loop never ends. -/
theorem C67_no_samples {draw : List XR → σ → Res (Nat × σ)} {m : PitmanYor XR} {n passes : Nat}
    (hp : 1 ≤ passes) {w : FullMixture R S G V XR} (hw : (FullMixture.raw fs).init lvl m n = .ok w)
    (fuel : Nat) (s : σ) :
    Annealing.compressAnnealing lvl m draw rows fs n ([] : List ι) passes fuel s = .ok none := by
  unfold Annealing.compressAnnealing
  rw [distAssert0_of hp, Res.ok_bind, hw, Res.ok_bind]
  induction fuel with
  | zero => rfl
  | succ fuel ih =>
    rw [Annealing.loop]
    have : Annealing.step lvl m draw rows [] passes
        (⟨passes, 0, 0, ⟨w, fun _ => none⟩⟩ : Annealing ι R S G V XR) s =
        .ok (some (⟨passes, 0, 0, ⟨w, fun _ => none⟩⟩, s)) := by
      unfold Annealing.step
      rw [if_pos (by simp)]
      rfl
    rw [this]
    exact ih

end

/-- The hypotheses are met: the example's 10000 points, 10 passes and 10 empty groups. -/
example (rows : Fin 10000 → ℝ × ℝ) :
    LibraryFeatures 0 rows ([(0, 1 / 10, 1 / 100, 1, Prod.fst), (0, 1 / 10, 1 / 100, 1, Prod.snd)].map
      (nichFeature 0)) ∧ 1 ≤ 10 ∧ (List.finRange 10000).Nodup ∧ List.finRange 10000 ≠ [] ∧
    10 + 10 * (List.finRange 10000).length ≤ 4294967296 := by
  refine ⟨.nich _ ?_, by norm_num, List.nodup_finRange _, by simp, by simp⟩
  intro x hx
  simp only [List.mem_cons, List.not_mem_nil, or_false] at hx
  rcases hx with rfl | rfl <;> norm_num

end Dist
