import Verif.Props.Sampling
import Verif.Lemmas.DPDShared
import Verif.Model.BB
import Verif.Model.DD

/-! # Probability vectors and value samplers: properties C46 and C58 -/

namespace Dist

open Spec FloatOps FloatNotation

variable {σ : Type}

/-! ## C46 -/

theorem dirichletLoop_eq {F : Type} [FloatOps F] (rng : Rng F σ) (as : List F) :
    ∀ (s : σ) (t : F), (dirichletLoop rng as s t).1 = gammaDraws rng s as := by
  induction as with
  | nil => intro s t; rfl
  | cons a as ih =>
    intro s t
    simp only [dirichletLoop, gammaDraws]
    split_ifs
    · simp only [ih]
    · simp only [ih]

theorem gammaDraws_fin {rng : Rng XR σ} (hr : NonnegGamma rng) (as : List XR) :
    ∀ s, ∃ g : List ℝ, gammaDraws rng s as = g.map XR.fin ∧ g.length = as.length ∧
      ∀ x ∈ g, 0 ≤ x := by
  induction as with
  | nil => intro s; exact ⟨[], rfl, rfl, by simp⟩
  | cons a as ih =>
    intro s
    simp only [gammaDraws]
    split_ifs
    · obtain ⟨x, hx, ex⟩ := hr s a (lit 1 1)
      obtain ⟨g, eg, lg, hg⟩ := ih (rng.gamma s a (lit 1 1)).2
      refine ⟨x :: g, by rw [ex, eg]; rfl, by simp [lg], ?_⟩
      intro y hy
      rcases List.mem_cons.mp hy with rfl | hy
      exacts [hx, hg y hy]
    · obtain ⟨g, eg, lg, hg⟩ := ih s
      refine ⟨0 :: g, by rw [eg, XR.ofInt_eq]; simp, by simp [lg], ?_⟩
      intro y hy
      rcases List.mem_cons.mp hy with rfl | hy
      exacts [le_refl _, hg y hy]

theorem dirichletLoop_total (rng : Rng XR σ) (as : List XR) :
    ∀ (s : σ) (t : ℝ) (g : List ℝ), gammaDraws rng s as = g.map XR.fin →
      (dirichletLoop rng as s (.fin t)).2.1 = .fin (t + g.sum) := by
  induction as with
  | nil =>
    intro s t g hg
    have : g = [] := by
      rw [gammaDraws] at hg; exact List.map_eq_nil_iff.mp hg.symm
    subst this; simp [dirichletLoop]
  | cons a as ih =>
    intro s t g hg
    rw [gammaDraws] at hg
    simp only [dirichletLoop]
    split_ifs at hg ⊢ with h
    · obtain ⟨x, g', rfl, ex, eg⟩ := List.map_eq_cons_iff.mp hg.symm
      rw [← ex, XR.fin_add, ih _ _ g' eg.symm, List.sum_cons, add_assoc]
    · obtain ⟨x, g', rfl, ex, eg⟩ := List.map_eq_cons_iff.mp hg.symm
      rw [XR.ofInt_eq] at ex
      have hx : x = 0 := by simpa using XR.fin_inj.mp ex
      subst hx
      simp only
      rw [ih _ _ g' eg.symm, List.sum_cons, zero_add]

/-- **C46, Dirichlet.** For every stream of nonnegative gamma draws `g`: if they are not
all zero, `sample_dirichlet` returns `g_i / sum g`, nonnegative entries summing to 1; if
they are all zero (or there are no positive parameters) every entry is NaN. -/
theorem C46_dirichlet (rng : Rng XR σ) (hr : NonnegGamma rng) (s : σ) (alphas : List XR) :
    ∃ g : List ℝ, gammaDraws rng s alphas = g.map XR.fin ∧ g.length = alphas.length ∧
      (∀ x ∈ g, 0 ≤ x) ∧
      ((∃ x ∈ g, x ≠ 0) → ∃ p : List ℝ, (sampleDirichlet rng s alphas).1 = p.map XR.fin ∧
        p = g.map (· / g.sum) ∧ (∀ x ∈ p, 0 ≤ x) ∧ p.sum = 1) ∧
      ((∀ x ∈ g, x = 0) → ∀ x ∈ (sampleDirichlet rng s alphas).1, x = XR.nan) := by
  obtain ⟨g, eg, lg, hg⟩ := gammaDraws_fin hr alphas s
  have e1 := dirichletLoop_eq rng alphas s (lit 0 1)
  have e2 := dirichletLoop_total rng alphas s 0 g eg
  have l0 : (lit 0 1 : XR) = .fin 0 := by rw [XR.lit_eq]; simp
  have eD : (sampleDirichlet rng s alphas).1 =
      (g.map XR.fin).map fun p => p * (lit 1 1 / XR.fin g.sum) := by
    rw [← eg, ← e1, ← zero_add g.sum, ← e2, ← l0]; rfl
  have l1 : (lit 1 1 : XR) = .fin 1 := by rw [XR.lit_eq]; simp
  refine ⟨g, eg, lg, hg, ?_, ?_⟩
  · rintro ⟨x, hx, hx0⟩
    have hpos : 0 < g.sum :=
      lt_of_lt_of_le (lt_of_le_of_ne (hg x hx) (Ne.symm hx0)) (List.single_le_sum hg x hx)
    refine ⟨_, ?_, rfl, ?_, ?_⟩
    · rw [eD, l1, XR.fin_div _ _ hpos.ne', List.map_map, List.map_map]
      refine List.map_congr_left fun y _ => ?_
      simp only [Function.comp, XR.fin_mul]
      congr 1; ring
    · intro y hy
      obtain ⟨z, hz, rfl⟩ := List.mem_map.mp hy
      exact div_nonneg (hg z hz) hpos.le
    · have : ∀ (l : List ℝ) (t : ℝ), (l.map fun y => y / t).sum = l.sum / t := by
        intro l t
        induction l with
        | nil => simp
        | cons y ys ih => simp only [List.map_cons, List.sum_cons, ih]; ring
      rw [this, div_self hpos.ne']
  · intro h x hx
    have h0 : g.sum = 0 := List.sum_eq_zero h
    rw [eD, h0, l1, XR.fin_div_zero] at hx
    obtain ⟨y, _, rfl⟩ := List.mem_map.mp hx
    simp

theorem dirichletSafeLoop_eq (rng : Rng XR σ) (m : ℝ) (as : List ℝ) (ha : ∀ a ∈ as, 0 < a + m) :
    ∀ (s : σ) (t : ℝ) (g : List ℝ),
      gammaDraws rng s (as.map fun a => XR.fin (a + m)) = g.map XR.fin →
      ∃ s', dirichletSafeLoop rng (.fin m) (as.map XR.fin) s (.fin t) =
        .ok (g.map .fin, .fin (t + g.sum), s') := by
  induction as with
  | nil =>
    intro s t g hg
    have : g = [] := by
      rw [List.map_nil, gammaDraws] at hg; exact List.map_eq_nil_iff.mp hg.symm
    subst this; exact ⟨s, by simp [dirichletSafeLoop]⟩
  | cons a as ih =>
    intro s t g hg
    have hpos : lt (ofInt 0) (XR.fin (a + m)) = true := by
      rw [XR.ofInt_eq, XR.lt_fin]; simpa using ha a (by simp)
    rw [List.map_cons, gammaDraws, if_pos hpos] at hg
    obtain ⟨x, g', rfl, ex, eg⟩ := List.map_eq_cons_iff.mp hg.symm
    obtain ⟨s', e⟩ := ih (fun b hb => ha b (by simp [hb])) _ (t + x) g' eg.symm
    refine ⟨s', ?_⟩
    rw [List.map_cons, dirichletSafeLoop]
    simp only [XR.fin_add]
    rw [distAssert0_of hpos, Res.ok_bind, ← ex, XR.fin_add, e, Res.ok_bind, List.sum_cons,
      add_assoc]
    rfl

/-- **C46, safe Dirichlet.** For a bound `m >= 0`, parameters with `alpha + m > 0` and
nonnegative gamma draws not all zero, the safe variant returns entries of at least
`m / (1 + m * dim)` summing to 1. -/
theorem C46_dirichlet_safe (rng : Rng XR σ) (hr : NonnegGamma rng) (s : σ) (alphas : List ℝ)
    (m : ℝ) (hm : 0 ≤ m) (ha : ∀ a ∈ alphas, 0 < a + m) :
    ∃ g : List ℝ, gammaDraws rng s (alphas.map fun a => XR.fin (a + m)) = g.map XR.fin ∧
      ((∃ x ∈ g, x ≠ 0) → ∃ (p : List ℝ) (s' : σ),
        sampleDirichletSafe rng s (alphas.map .fin) (.fin m) = .ok (p.map .fin, s') ∧
        p.length = alphas.length ∧ (∀ x ∈ p, m / (1 + m * alphas.length) ≤ x) ∧ p.sum = 1) := by
  obtain ⟨g, eg, lg, hg⟩ := gammaDraws_fin hr (alphas.map fun a => XR.fin (a + m)) s
  rw [List.length_map] at lg
  refine ⟨g, eg, ?_⟩
  rintro ⟨x, hx, hx0⟩
  have hpos : 0 < g.sum :=
    lt_of_lt_of_le (lt_of_le_of_ne (hg x hx) (Ne.symm hx0)) (List.single_le_sum hg x hx)
  obtain ⟨s', e⟩ := dirichletSafeLoop_eq rng m alphas ha s 0 g eg
  have hm0 : le (ofInt 0) (XR.fin m) = true := by rw [XR.ofInt_eq, XR.le_fin]; simpa using hm
  have l0 : (lit 0 1 : XR) = .fin 0 := by rw [XR.lit_eq]; simp
  have l1 : (lit 1 1 : XR) = .fin 1 := by rw [XR.lit_eq]; simp
  have hd : (0:ℝ) < 1 + m * alphas.length := by positivity
  refine ⟨g.map fun y => y * (1 / g.sum / (1 + m * alphas.length)) + m / (1 + m * alphas.length),
    s', ?_, by simp [lg], ?_, ?_⟩
  · rw [sampleDirichletSafe, distAssert0_of hm0, Res.ok_bind, l0, e, Res.ok_bind, l1, zero_add]
    simp only [List.length_map, XR.ofInt_eq, XR.fin_mul, XR.fin_add, Int.cast_natCast]
    rw [XR.fin_div _ _ hpos.ne', XR.fin_div _ _ hd.ne', XR.fin_div _ _ hd.ne', List.map_map,
      List.map_map, Res.pure_eq]
    refine congrArg (fun l => Res.ok (l, s')) (List.map_congr_left fun y _ => ?_)
    simp only [Function.comp, XR.fin_mul, XR.fin_add]
  · intro y hy
    obtain ⟨z, hz, rfl⟩ := List.mem_map.mp hy
    have := hg z hz
    have : 0 ≤ z * (1 / g.sum / (1 + m * alphas.length)) := by positivity
    linarith
  · have : ∀ (l : List ℝ) (c d : ℝ), (l.map fun y => y * c + d).sum = l.sum * c + l.length * d := by
      intro l c d
      induction l with
      | nil => simp
      | cons y ys ih =>
        simp only [List.map_cons, List.sum_cons, ih, List.length_cons, Nat.cast_succ]; ring
    rw [this, lg]
    field_simp

/-- **C46, beta.** For all parameters and nonnegative gamma draws `sample_beta` returns a
number in `[0, 1]`; with a positive first parameter and a bound `m >= 0` the safe variant
returns a number between `m / (1 + m)` and 1. -/
theorem C46_beta (rng : Rng XR σ) (hr : NonnegGamma rng) (s : σ) (alpha beta : XR) :
    (∃ (p : ℝ) (s' : σ), sampleBeta rng s alpha beta = (.fin p, s') ∧ 0 ≤ p ∧ p ≤ 1) ∧
    ∀ (a m : ℝ), alpha = .fin a → 0 < a → 0 ≤ m → ∃ (p : ℝ) (s' : σ),
      sampleBetaSafe rng s alpha beta (.fin m) = .ok (.fin p, s') ∧ m / (1 + m) ≤ p ∧ p ≤ 1 := by
  obtain ⟨p, s', h0, h1, e⟩ := DPD.sampleBeta_exact hr s alpha beta
  refine ⟨⟨p, s', e, h0, h1⟩, ?_⟩
  rintro a m rfl ha hm
  have hd : 0 < 1 + m := by linarith
  refine ⟨(p + m) / (1 + m), s', ?_, ?_, ?_⟩
  · have m0 : le (ofInt 0) (XR.fin m) = true := by rw [XR.ofInt_eq, XR.le_fin]; simpa using hm
    have a0 : lt (ofInt 0) (XR.fin a) = true := by rw [XR.ofInt_eq, XR.lt_fin]; simpa using ha
    rw [sampleBetaSafe, distAssert0_of m0, Res.ok_bind, distAssert0_of a0, Res.ok_bind, e]
    have l1 : (lit 1 1 : XR) = .fin 1 := by rw [XR.lit_eq]; simp
    simp only [l1, XR.fin_add, Res.pure_eq]
    rw [XR.fin_div _ _ hd.ne']
  · exact div_le_div_of_nonneg_right (by linarith) hd.le
  · rw [div_le_one hd]; linarith

/-- Non-triviality: with gamma draws equal to their shape parameter, `sample_dirichlet` of
parameters 1, 0, 3 is 1/4, 0, 3/4 and a draw vector of zeros gives NaN. -/
example : ∃ rng : Rng XR Unit, NonnegGamma rng ∧
    (sampleDirichlet rng () (([1, 0, 3] : List ℝ).map XR.fin)).1 =
      ([1 / 4, 0, 3 / 4] : List ℝ).map XR.fin := by
  refine ⟨⟨fun s => (.nan, s), fun s a _ => (a, s),
    fun s a _ => (match a with | .fin r => .fin |r| | .nan => .fin 0, s), fun s _ _ => (.nan, s),
    fun s _ => (.nan, s), fun s _ => (0, s), fun s _ _ => (0, s)⟩, ?_, ?_⟩
  · rintro s (_ | r) b
    exacts [⟨0, le_refl _, rfl⟩, ⟨|r|, abs_nonneg r, rfl⟩]
  · have h0 : lt (ofInt 0) (XR.fin 0) = false := by
      rw [XR.ofInt_eq, XR.lt_fin_false]; simp
    have h1 : lt (ofInt 0) (XR.fin 1) = true := by rw [XR.ofInt_eq, XR.lt_fin]; simp
    have h3 : lt (ofInt 0) (XR.fin 3) = true := by rw [XR.ofInt_eq, XR.lt_fin]; simp
    have l0 : (lit 0 1 : XR) = .fin 0 := by rw [XR.lit_eq]; simp
    have l1 : (lit 1 1 : XR) = .fin 1 := by rw [XR.lit_eq]; simp
    simp only [sampleDirichlet, dirichletLoop, List.map_cons, List.map_nil, h0, h1, h3, if_true,
      Bool.false_eq_true, if_false, l0, l1, XR.fin_add]
    simp only [XR.ofInt_eq]
    rw [XR.fin_div _ _ (by norm_num)]
    simp only [XR.fin_mul]
    norm_num

/-! ## C58 -/

theorem posterior_length {F : Type} [FloatOps F] (as : List F) :
    ∀ cs : List Int, as.length ≤ cs.length →
      ∃ xs, DD.posterior as cs = .ok xs ∧ xs.length = as.length := by
  induction as with
  | nil => intro cs _; exact ⟨[], rfl, rfl⟩
  | cons a as ih =>
    rintro (_ | ⟨c, cs⟩) h
    · simp at h
    · obtain ⟨xs, e, l⟩ := ih cs (by simpa using h)
      exact ⟨(a + ofInt c) :: xs, by rw [DD.posterior, e]; rfl, by simp [l]⟩

theorem sampleDirichlet_length {F : Type} [FloatOps F] (rng : Rng F σ) (s : σ) (as : List F) :
    (sampleDirichlet rng s as).1.length = as.length := by
  have h : ∀ (as : List F) (s : σ), (gammaDraws rng s as).length = as.length := by
    intro as
    induction as with
    | nil => intro s; rfl
    | cons a as ih => intro s; rw [gammaDraws]; split_ifs <;> simp [ih]
  have : (sampleDirichlet rng s as).1.length =
      (dirichletLoop rng as s (lit 0 1)).1.length := by
    unfold sampleDirichlet; exact List.length_map _
  rw [this, dirichletLoop_eq, h]

/-- **C58, DD.** For every float type and stream, the Dirichlet-discrete value sampler
returns an index below the dimension. -/
theorem C58_dd {F : Type} [FloatOps F] (rng : Rng F σ) (s : σ) (sh : DD.Shared F) (g : DD.Group)
    (hd : 0 < sh.alphas.length) (hg : sh.alphas.length ≤ g.counts.length) :
    ∃ (v : Nat) (s' : σ), g.sampleValue rng s sh = .ok (v, s') ∧ v < sh.alphas.length := by
  obtain ⟨xs, e, l⟩ := posterior_length sh.alphas g.counts hg
  have hl := sampleDirichlet_length rng s xs
  obtain ⟨i, ei, hi⟩ := C42_index rng (sampleDirichlet rng s xs).2 (sampleDirichlet rng s xs).1
    (by intro h; rw [h] at hl; simp at hl; omega)
  exact ⟨i, _, by rw [DD.Group.sampleValue, e, Res.ok_bind]; exact ei, by omega⟩

/-- **C58, DPD.** For every float type, stream and visiting order, the Dirichlet-process
value sampler returns a value of the shared table or, only if `beta0 > 0`, OTHER.  It
throws exactly if there is nothing to sample from. -/
theorem C58_dpd {F : Type} [FloatOps F] (rng : Rng F σ) (s : σ) (sh : DPD.Shared F)
    (g : DPD.Group) (ks : List UInt32) (hks : sh.betas.Enum ks) :
    (sh.betas.keys = ∅ ∧ lt (ofInt 0) sh.beta0 = false ∧ g.sampleValue rng s sh ks = .fail) ∨
    ∃ (v : UInt32) (s' : σ), g.sampleValue rng s sh ks = .ok (v, s') ∧
      (v ∈ sh.betas.keys ∨ v = DPD.other ∧ lt (ofInt 0) sh.beta0 = true) := by
  by_cases hT : DPD.samplerTable sh g ks = []
  · left
    rw [DPD.samplerTable, List.append_eq_nil_iff, List.map_eq_nil_iff] at hT
    obtain ⟨h1, h2⟩ := hT
    have hb : lt (ofInt 0) sh.beta0 = false := by
      cases h : lt (ofInt 0) sh.beta0
      · rfl
      · rw [h] at h2; simp at h2
    refine ⟨?_, hb, ?_⟩
    · ext k
      simp only [Finset.notMem_empty, iff_false]
      intro hk
      obtain ⟨b, hb⟩ := (FMap.mem_keys_iff _ _).mp hk
      have : (k, b) ∈ sh.betas.entries ks :=
        List.mem_filterMap.mpr ⟨k, (hks.mem k).mpr hk, by rw [hb]; rfl⟩
      rw [h1] at this; simp at this
    · have : DPD.samplerTable sh g ks = [] := by
        rw [DPD.samplerTable, h1, hb]; simp
      rw [DPD.Group.sampleValue, this]; rfl
  · right
    have hl := sampleDirichlet_length rng s ((DPD.samplerTable sh g ks).map Prod.snd)
    obtain ⟨i, ei, hi⟩ := C42_index rng
      (sampleDirichlet rng s ((DPD.samplerTable sh g ks).map Prod.snd)).2
      (sampleDirichlet rng s ((DPD.samplerTable sh g ks).map Prod.snd)).1 (by
        intro h; rw [h] at hl; simp at hl; exact hT (List.length_eq_zero_iff.mp hl.symm))
    have hi' : i < (DPD.samplerTable sh g ks).length := by
      rw [hl, List.length_map] at hi; exact hi
    refine ⟨((DPD.samplerTable sh g ks)[i]).1, (rng.unif01
      (sampleDirichlet rng s ((DPD.samplerTable sh g ks).map Prod.snd)).2).2, ?_, ?_⟩
    · rw [DPD.Group.sampleValue]
      simp only
      rw [ei, Res.ok_bind]
      simp only
      rw [getAt_of (by simpa using hi'), Res.ok_bind, List.getElem_map]
      rfl
    · have hmem := List.getElem_mem hi'
      generalize (DPD.samplerTable sh g ks)[i] = e at hmem
      rw [DPD.samplerTable, List.mem_append] at hmem
      rcases hmem with h | h
      · obtain ⟨⟨k, b⟩, hk, rfl⟩ := List.mem_map.mp h
        obtain ⟨k', hk', e⟩ := List.mem_filterMap.mp hk
        left
        cases hlk : sh.betas.lookup k' with
        | none => rw [hlk] at e; simp at e
        | some b' =>
          rw [hlk] at e
          simp only [Option.map_some, Option.some.injEq, Prod.mk.injEq] at e
          obtain ⟨rfl, rfl⟩ := e
          exact (hks.mem _).mp hk'
      · right
        split_ifs at h with hb
        · rw [List.mem_singleton] at h
          exact ⟨by rw [h], hb⟩
        · simp at h

/-- **C58, BB.** If the posterior parameters are positive and the gamma draws `x`, `y`
made for them are not both zero, the coin sampler returns `true` exactly if its uniform
draw is below `x / (x + y)`. -/
theorem C58_bb (rng : Rng XR σ) (hr : NonnegGamma rng) (s : σ) (alpha beta : ℝ) (g : BB.Group)
    (ha : 0 < alpha + g.heads) (hb : 0 < beta + g.tails) :
    ∃ (x y : ℝ) (s₁ s₂ : σ), 0 ≤ x ∧ 0 ≤ y ∧
      rng.gamma s (.fin (alpha + g.heads)) (.fin 1) = (.fin x, s₁) ∧
      rng.gamma s₁ (.fin (beta + g.tails)) (.fin 1) = (.fin y, s₂) ∧
      (x + y ≠ 0 → ∀ u s₃, Draws rng s₂ (.fin u) s₃ →
        g.sampleValue rng s ⟨.fin alpha, .fin beta⟩ = .ok (decide (u < x / (x + y)), s₃)) := by
  obtain ⟨x, hx, ex⟩ := hr s (.fin (alpha + g.heads)) (.fin 1)
  rcases h1 : rng.gamma s (.fin (alpha + g.heads)) (.fin 1) with ⟨x', s₁⟩
  rw [h1] at ex
  obtain rfl : x' = .fin x := ex
  obtain ⟨y, hy, ey⟩ := hr s₁ (.fin (beta + g.tails)) (.fin 1)
  rcases h2 : rng.gamma s₁ (.fin (beta + g.tails)) (.fin 1) with ⟨y', s₂⟩
  rw [h2] at ey
  obtain rfl : y' = .fin y := ey
  refine ⟨x, y, s₁, s₂, hx, hy, rfl, h2, ?_⟩
  intro hxy u s₃ hu
  have l0 : (lit 0 1 : XR) = .fin 0 := by rw [XR.lit_eq]; simp
  have l1 : (lit 1 1 : XR) = .fin 1 := by rw [XR.lit_eq]; simp
  have pa : lt (ofInt 0) (XR.fin (alpha + g.heads)) = true := by
    rw [XR.ofInt_eq, XR.lt_fin]; simpa using ha
  have pb : lt (ofInt 0) (XR.fin (beta + g.tails)) = true := by
    rw [XR.ofInt_eq, XR.lt_fin]; simpa using hb
  have hD : sampleDirichlet rng s [XR.fin alpha + ofInt g.heads, XR.fin beta + ofInt g.tails] =
      ([.fin (x / (x + y)), .fin (y / (x + y))], s₂) := by
    simp only [sampleDirichlet, dirichletLoop]
    rw [XR.ofInt_eq g.heads, XR.ofInt_eq g.tails, XR.fin_add, XR.fin_add, if_pos pa, if_pos pb]
    simp only [l1, l0, h1, h2, XR.fin_add, zero_add]
    rw [XR.fin_div _ _ hxy]
    simp [XR.fin_mul, div_eq_mul_inv]
  rw [BB.Group.sampleValue, BB.samplerInit]
  simp only [hD]
  have : (getAt [XR.fin (x / (x + y)), XR.fin (y / (x + y))] 0) = .ok (.fin (x / (x + y))) := rfl
  rw [this, Res.ok_bind]
  simp only [Res.pure_eq, Res.ok_bind, sampleBernoulli]
  have hu' : rng.unif01 s₂ = (.fin u, s₃) := hu
  simp only [hu']
  congr 2

/-- Non-triviality: a group with three heads and no tails, gamma draws equal to their shape
parameters, uniform prior and the draw 1/2: the sampler says heads. -/
example (rng : Rng XR Unit) (hu : Draws rng () (.fin (1 / 2)) ())
    (hg : ∀ s (r : ℝ) b, rng.gamma s (.fin r) b = (.fin |r|, ())) (hr : NonnegGamma rng) :
    BB.Group.sampleValue rng () ⟨XR.fin 1, XR.fin 1⟩ ⟨3, 0⟩ = .ok (true, ()) := by
  obtain ⟨x, y, s₁, s₂, _, _, ex, ey, h⟩ := C58_bb rng hr () 1 1 ⟨3, 0⟩ (by norm_num) (by norm_num)
  rw [hg] at ex ey
  have hx : x = 4 := by
    have := XR.fin_inj.mp (congrArg Prod.fst ex); rw [← this]; norm_num
  have hy : y = 1 := by
    have := XR.fin_inj.mp (congrArg Prod.fst ey); rw [← this]; norm_num
  subst hx hy
  rw [h (by norm_num) _ _ hu]
  norm_num

end Dist
