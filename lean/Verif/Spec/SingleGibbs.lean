import Verif.Model.Single
import Verif.Spec.Gibbs

/-! # Inference in single precision: what is claimed

The features and the clustering of `Verif.Spec.Gibbs` with the same hyperparameters, but with
every operation rounded to single precision. -/

namespace Dist.Spec

open MeasureTheory FloatNotation

variable {R σ : Type} [MeasurableSpace σ] {lib : Libm}

/-- The Beta-Bernoulli feature `bbFeature` in single precision. -/
noncomputable def bbSingle (lib : Libm) (lvl : Nat) (x : ℝ × ℝ × (R → Bool)) :
    FeatureModel R (BB.Cache (Single lib)) BB.Group Bool (Single lib) :=
  ⟨x.2.2, BB.ops, BB.valueScorer lvl ⟨⟨x.1⟩, ⟨x.2.1⟩⟩, ⟨[], []⟩,
    fun g => .ok (g.scoreData ⟨⟨x.1⟩, ⟨x.2.1⟩⟩)⟩

/-- The Dirichlet-Discrete feature `ddFeature` in single precision. -/
noncomputable def ddSingle (lib : Libm) (lvl : Nat) {dim : Nat} (x : (Fin dim → ℝ) × (R → Fin dim)) :
    FeatureModel R (DD.Cache (Single lib)) DD.Group (Fin dim) (Single lib) :=
  let sh : DD.Shared (Single lib) := ⟨List.ofFn fun i => ⟨x.1 i⟩⟩
  let vs := DD.valueScorer lvl sh
  ⟨x.2, ⟨DD.Group.init dim, fun g v => g.addValue lvl v.val, fun g v => g.removeValue lvl v.val⟩,
    ⟨vs.resize, vs.addGroup, vs.removeGroup, vs.updateGroup,
      fun s i g v => vs.addValue s i g v.val, fun s i g v => vs.removeValue s i g v.val,
      vs.updateAll, fun s gs i v => vs.scoreValueGroup s gs i v.val,
      fun s gs v accum => vs.scoreValue s gs v.val accum⟩,
    ⟨some (sh.alphas.foldl (· + ·) (FloatOps.ofInt 0)), List.replicate dim [], []⟩,
    fun g => g.scoreData sh⟩

/-- The Dirichlet-Process-Discrete feature `dpdFeature` in single precision. -/
noncomputable def dpdSingle (lib : Libm) (lvl : Nat) {K : Finset UInt32}
    (x : DPD.Shared ℝ × (DPD.Group → List UInt32) × (R → {v // v ∈ K})) :
    FeatureModel R (DPD.Cache (Single lib)) DPD.Group {v // v ∈ K} (Single lib) :=
  let sh : DPD.Shared (Single lib) := ⟨⟨x.1.gamma⟩, ⟨x.1.alpha⟩, ⟨x.1.beta0⟩,
    x.1.betas.mapValues fun _ b => ⟨b⟩, x.1.counts⟩
  let vs := DPD.valueScorer lvl sh
  ⟨x.2.2, ⟨SparseCounter.raw.clear, fun g v => DPD.Group.addValue lvl sh g v.val,
      fun g v => DPD.Group.removeValue lvl sh g v.val⟩,
    ⟨vs.resize, vs.addGroup, vs.removeGroup, vs.updateGroup,
      fun s i g v => vs.addValue s i g v.val, fun s i g v => vs.removeValue s i g v.val,
      vs.updateAll, fun s gs i v => vs.scoreValueGroup s gs i v.val,
      fun s gs v accum => vs.scoreValue s gs v.val accum⟩,
    DPD.Cache.raw, fun g => DPD.Group.scoreData lvl sh g (x.2.1 g)⟩

/-- Features in single precision, the same features in exact arithmetic, and the error of their
scores in millionths: any number of features of one of three models, with hyperparameters between
`2^-40` and `2^40`.  The dimension of a Dirichlet-Discrete model is at most 256, the `max_dim` of
lp/models/_dd_h.pxd:38.  The concentration of a Dirichlet-Process-Discrete model is at least
`2^-20`, the weights of its values are at least `2^-40` and at most 1, and `OTHER` is not among
its values. -/
inductive SingleFeatures {R : Type} (lib : Libm) (lvl : Nat) : {S S' G V : Type} →
    List (FeatureModel R S' G V (Single lib)) → List (FeatureModel R S G V XR) → Nat → Prop
  | bb (l : List (ℝ × ℝ × (R → Bool))) :
      (∀ x ∈ l, (1 / 2 ^ 40 ≤ x.1 ∧ x.1 ≤ 2 ^ 40) ∧ 1 / 2 ^ 40 ≤ x.2.1 ∧ x.2.1 ≤ 2 ^ 40) →
      SingleFeatures lib lvl (l.map (bbSingle lib lvl)) (l.map (bbFeature lvl)) 125
  | dd {dim : Nat} (l : List ((Fin dim → ℝ) × (R → Fin dim))) : 0 < dim → dim ≤ 256 →
      (∀ x ∈ l, ∀ i, 1 / 2 ^ 40 ≤ x.1 i ∧ x.1 i ≤ 2 ^ 40) →
      SingleFeatures lib lvl (l.map (ddSingle lib lvl)) (l.map (ddFeature lvl)) 315
  | dpd {K : Finset UInt32}
      (l : List (DPD.Shared ℝ × (DPD.Group → List UInt32) × (R → {v // v ∈ K}))) :
      (∀ x ∈ l, (1 / 2 ^ 20 ≤ x.1.alpha ∧ x.1.alpha ≤ 2 ^ 40) ∧
        (∀ v b, x.1.betas.lookup v = some b → 1 / 2 ^ 40 ≤ b ∧ b ≤ 1) ∧
        K ⊆ x.1.betas.keys ∧ DPD.other ∉ x.1.betas.keys ∧
        ∀ g : DPD.Group, g.map.Enum (x.2.1 g)) →
      SingleFeatures lib lvl (l.map (dpdSingle lib lvl)) (l.map (dpdFeature lvl)) 255

/-- A generator whose uniform draws are numbers of `[0, 1]` within `2^-23` of ideal ones. -/
def NearUniform (I : IdealRng σ) (rng : Rng (Single lib) σ) : Prop :=
  ∃ ρ : ℝ → ℝ, Measurable ρ ∧ (∀ v, 0 ≤ ρ v ∧ ρ v ≤ 1) ∧
    (∀ v, 0 ≤ v → v < 1 → |ρ v - v| ≤ 1 / 2 ^ 23) ∧
    ∀ s, rng.unif01 s = (⟨ρ (I.unif s).1⟩, (I.unif s).2)

/-- A way of drawing an index from at most `N` scores that always gives one, leaves a fresh state
and gives the index `p` with a probability within `r * q + t` of `q`, the probability proportional
to the exponential of its score. -/
def NearSoftmaxDraw (N : Nat) (r t : ℝ) (P : Measure σ)
    (draw : List (Single lib) → σ → Res (Nat × σ)) : Prop :=
  ∀ x : List ℝ, x ≠ [] → x.length ≤ N → (∀ y ∈ x, ∀ z ∈ x, y - z ≤ 10 ^ 9) →
    (∀ s, ∃ p s', draw (x.map Single.mk) s = .ok (p, s') ∧ p < x.length) ∧
    ∃ w : Fin x.length → ℝ, (∀ p, 0 ≤ w p) ∧ ∑ p, w p = 1 ∧
      (∀ p, |w p - Real.exp x[p] / (x.map Real.exp).sum| ≤
        r * (Real.exp x[p] / (x.map Real.exp).sum) + t) ∧
      ∀ (p : Fin x.length) (B : Set σ), MeasurableSet B →
        MeasurableSet {s | ∃ s' ∈ B, draw (x.map Single.mk) s = .ok (p.1, s')} ∧
        P.real {s | ∃ s' ∈ B, draw (x.map Single.mk) s = .ok (p.1, s')} = w p * P.real B

/-- The error of the scores of a mixture of `K` features in single precision, the scores of each
feature being within `e` millionths. -/
noncomputable def scoreError (e K : Nat) : ℝ :=
  (260 + (e + 10) * K + 2 * K ^ 2) / 10 ^ 6

/-- The error of one step of the inference loops. -/
noncomputable def stepError (N e K : Nat) (r t : ℝ) : ℝ :=
  r + N * t + (Real.exp (2 * scoreError e K) - 1)

end Dist.Spec
