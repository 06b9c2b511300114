import Verif.Props.SampleGroupNich
import Verif.Props.HighPrecisionReal

/-!
# C62: `sample_group` of the `hp` flavor

With positive hyperparameters the Cython flavor makes the draws of the C++ flavor, whatever the
source of random numbers; the laws of the C++ flavor carry over.
-/

namespace Dist

open Spec FloatOps FloatNotation MeasureTheory

variable {σ : Type}

/-- **C62 (hp, Dirichlet-discrete).** -/
theorem C62_hp_dd (rng : Rng XR σ) (s : σ) (alphas : List ℝ) (hd : 0 < alphas.length)
    (hle : alphas.length ≤ 256) (hpos : ∀ a ∈ alphas, 0 < a) (size : Int) :
    Hp.DD.sampleGroup rng s (Hp.DD.shared alphas) size =
      DD.sampleGroup rng s ⟨alphas.map XR.fin⟩ size := by
  obtain ⟨ta, hsh, hsl⟩ := Hp.DD.shared_eq alphas hle
  have hlen' : (alphas.map XR.fin).length =
      (List.replicate (alphas.map XR.fin).length (0 : Int)).length := by simp
  obtain ⟨ps, e1, e2, e3, e4⟩ := Dbg.DD.posterior_of (alphas.map XR.fin) _ hlen'
  have hps : ps = alphas.map XR.fin := by
    apply List.ext_getElem?
    intro i
    by_cases hi : i < alphas.length
    · rw [e4 i (XR.fin alphas[i]) 0 (by simp [hi]) (by simp [hi])]
      simp [hi]
    · rw [List.getElem?_eq_none (by simp at e2; omega), List.getElem?_eq_none (by simp; omega)]
  subst hps
  have hp : ∀ a ∈ alphas.map XR.fin, lt (ofInt 0) a = true := by
    intro a ha
    obtain ⟨b, hb, rfl⟩ := List.mem_map.mp ha
    rw [XR.ofInt_eq, XR.lt_fin]
    simpa using hpos b hb
  unfold Hp.DD.sampleGroup Hp.DD.samplerPrior DD.sampleGroup
  rw [hsh]
  simp only [e1]
  rw [if_pos (by simp), List.take_left' (by simp)]
  simp only [Res.ok_bind, Res.pure_eq, Hp.sampleDirichlet, sampleDirichlet,
    Hp.dirichlet_same rng _ s _ hp]
  have hl := sampleDirichlet_length rng s (alphas.map XR.fin)
  simp only [sampleDirichlet, List.length_map] at hl
  congr 1
  funext n
  congr 1
  funext s'
  rw [Hp.sampleDiscrete, sampleDiscrete, if_neg (by rw [List.length_map, hl]; omega),
    distAssert0_of (by rw [List.length_map, hl]; exact hd)]
  rfl

/-- Two categories. -/
example : ∃ alphas : List ℝ, 0 < alphas.length ∧ alphas.length ≤ 256 ∧ ∀ a ∈ alphas, 0 < a :=
  ⟨[1, 2], by simp, by simp, by simp⟩

/-- **C62 (hp, Dirichlet-discrete), finding.** With no categories the first value is read outside
the array; the C++ flavor raises. -/
theorem C62_hp_dd_empty (rng : Rng XR σ) (s : σ) :
    Hp.DD.sampleGroup rng s (Hp.DD.shared []) 1 = .ub ∧
    DD.sampleGroup rng s (⟨[]⟩ : DD.Shared XR) 1 = .fail := by
  have e : Hp.cInt 1 = .ok 1 := sampleGroup_size (n := 1) (by omega)
  constructor
  · obtain ⟨t, h, -⟩ := Hp.DD.shared_eq [] (by simp)
    rw [Hp.DD.sampleGroup, e, Res.ok_bind, Hp.DD.samplerPrior, h]
    simp only [List.length_nil, Nat.zero_le, if_true, List.take_zero]
    rfl
  · rw [DD.sampleGroup, e]; rfl

/-- **C62 (hp, Gamma-Poisson).** -/
theorem C62_hp_gp (rng : Rng XR σ) (s : σ) (a b : ℝ) (hb : 0 < b) (size : Int) :
    Hp.GP.sampleGroup rng s ⟨XR.fin a, XR.fin b⟩ size =
      GP.sampleGroup rng s ⟨XR.fin a, XR.fin b⟩ size := by
  unfold Hp.GP.sampleGroup Hp.GP.samplerInit GP.sampleGroup
  simp only [GP.Shared.plusGroup, GP.u32, XR.ofInt_eq, XR.fin_add, XR.lit_eq]
  have e : ((((0 : UInt32).toNat : Int)) : ℝ) = 0 := by simp
  rw [e, add_zero, add_zero, Hp.cyDiv_eq, Dbg.pyDiv_fin hb.ne', XR.fin_div _ _ hb.ne']
  rfl

/-- **C62 (hp, normal-inverse-chi-squared).** Unless the chi-squared draw is exactly zero. -/
theorem C62_hp_nich (rng : Rng XR σ) (s : σ) (mu kappa sigmasq nu c : ℝ) (hk : 0 < kappa)
    (hv : 0 < nu) (hc : (rng.chisq s (XR.fin nu)).1 = XR.fin c) (hc0 : c ≠ 0) (size : Int) :
    Hp.NICH.sampleGroup rng s (NICH.real mu kappa sigmasq nu) size =
      NICH.sampleGroup rng s (NICH.real mu kappa sigmasq nu) size := by
  have hz : (⟨0, ofInt 0, ofInt 0⟩ : NICH.Group XR) = NICH.mk 0 0 0 := by
    simp [NICH.mk, XR.ofInt_eq]
  unfold Hp.NICH.sampleGroup Hp.NICH.samplerInit NICH.sampleGroup
  rw [hz, NICH.plus_eq hk hv 0 le_rfl 0 0]
  have e1 : 1 / nu * (nu * sigmasq) = sigmasq := by field_simp
  simp only [NICH.real, Int.cast_zero, add_zero, mul_zero, zero_mul, zero_div,
    mul_div_cancel_left₀ _ hk.ne', e1, hc, XR.fin_mul, Hp.cyDiv_eq, Dbg.pyDiv_fin hc0,
    Dbg.pyDiv_fin hk.ne', Res.ok_bind, Res.pure_eq, XR.fin_div _ _ hc0, XR.fin_div _ _ hk.ne']
  rfl

/-- **C62 (hp, normal-inverse-chi-squared).** A chi-squared draw of exactly zero raises. -/
theorem C62_hp_nich_zero (rng : Rng XR σ) (s : σ) (sh : NICH.Shared XR)
    (hc : (rng.chisq s sh.nu).1 = XR.fin 0) (n : Nat) (hn : n ≤ 2147483647) :
    Hp.NICH.sampleGroup rng s sh n = .fail := by
  unfold Hp.NICH.sampleGroup Hp.NICH.samplerInit
  rw [sampleGroup_size hn, Res.ok_bind]
  simp only [hc, Hp.cyDiv]
  rw [if_pos (by rw [XR.ofInt_eq]; simp [eqf, XR.le_fin])]
  rfl

/-- The law of the Cython Dirichlet-discrete `sample_group`. -/
theorem C62_hp_dd_law [MeasurableSpace σ] (I : IdealRng σ) (lvl dim : Nat) (hd : 0 < dim)
    (hle : dim ≤ 256) (a : Fin dim → ℝ) (ha : ∀ i, 0 < a i) (xs : List (Fin dim))
    (hl : xs.length ≤ 2147483647) {B : Set σ} (hB : MeasurableSet B) :
    ∃ g x, addAll (DD.opsFin lvl dim) (DD.Group.init dim) xs = .ok g ∧
      g.scoreData (DD.real a) = .ok (.fin x) ∧
      I.P {s | ∃ s' ∈ B, Hp.DD.sampleGroup I.toRng s (Hp.DD.shared (List.ofFn a)) xs.length =
        .ok (xs.map Fin.val, s')} = ENNReal.ofReal (Real.exp x) * I.P B := by
  obtain ⟨g, x, h1, h2, h3⟩ := C62_dd I lvl dim hd a ha xs hl hB
  refine ⟨g, x, h1, h2, ?_⟩
  rw [← h3]
  have e : ∀ s, Hp.DD.sampleGroup I.toRng s (Hp.DD.shared (List.ofFn a)) xs.length =
      DD.sampleGroup I.toRng s (DD.real a) xs.length := by
    intro s
    rw [C62_hp_dd I.toRng s (List.ofFn a) (by simpa using hd) (by simpa using hle) (by
      intro b hb
      obtain ⟨j, rfl⟩ := (List.mem_ofFn' _ _).mp hb
      exact ha j), List.map_ofFn]
    rfl
  simp_rw [e]

/-- The law of the Cython Gamma-Poisson `sample_group`. -/
theorem C62_hp_gp_law [MeasurableSpace σ] (I : IdealRng σ) (a b : ℝ) (ha : 0 < a) (hb : 0 < b)
    (xs : List UInt32) (hl : xs.length ≤ 2147483647) (hsum : totalValue xs < 2 ^ 32) {B : Set σ}
    (hB : MeasurableSet B) :
    ∃ g x, addAll GP.ops (GP.Group.init : GP.Group XR) xs = .ok g ∧
      g.scoreData (GP.real a b) = .fin x ∧
      I.P {s | ∃ s' ∈ B, Hp.GP.sampleGroup I.toRng s (GP.real a b) xs.length =
        .ok (xs.map fun v => (v.toNat : Int), s')} = ENNReal.ofReal (Real.exp x) * I.P B := by
  obtain ⟨g, x, h1, h2, h3⟩ := C62_gp I a b ha hb xs hl hsum hB
  refine ⟨g, x, h1, h2, ?_⟩
  rw [← h3]
  have e : ∀ s, Hp.GP.sampleGroup I.toRng s (GP.real a b) xs.length =
      GP.sampleGroup I.toRng s (GP.real a b) xs.length := fun s => C62_hp_gp I.toRng s a b hb _
  simp_rw [e]

/-- The law of the Cython normal-inverse-chi-squared `sample_group`. -/
theorem C62_hp_nich_law [MeasurableSpace σ] (I : IdealRng σ) (mu kappa sigmasq nu : ℝ)
    (hk : 0 < kappa) (hs : 0 < sigmasq) (hv : 0 < nu) (n : ℕ) (hn : n ≤ 2147483647)
    {A : Set (Fin n → ℝ)} (hA : MeasurableSet A) {B : Set σ} (hB : MeasurableSet B) :
    ∃ f : (Fin n → ℝ) → ℝ,
      (∀ x, ∃ g, addAll NICH.opsReal NICH.Group.init (List.ofFn x) = .ok g ∧
        g.scoreData (NICH.real mu kappa sigmasq nu) = .fin (f x)) ∧
      I.P {s | ∃ x ∈ A, ∃ s' ∈ B, Hp.NICH.sampleGroup I.toRng s (NICH.real mu kappa sigmasq nu) n =
          .ok (List.ofFn fun i => XR.fin (x i), s')} =
        (∫⁻ x in A, ENNReal.ofReal (Real.exp (f x))) * I.P B := by
  obtain ⟨f, h1, h2⟩ := C62_nich I mu kappa sigmasq nu hk hs hv n hn hA hB
  refine ⟨f, h1, ?_⟩
  rw [← h2]
  have hchi : Measurable fun s => I.chisq (nu, s) := I.chisq_meas.comp measurable_prodMk_left
  haveI := ProbabilityTheory.isProbabilityMeasure_gammaMeasure (by positivity : 0 < nu / 2)
    (by norm_num : (0 : ℝ) < 1 / 2)
  have hcpos := (I.chisq_law nu hv).ae hchi (p := fun y => 0 < y) (gamma_pos_ae _ _)
  apply measure_congr
  filter_upwards [hcpos] with s hcs
  apply propext
  have e := C62_hp_nich I.toRng s mu kappa sigmasq nu (I.chisq (nu, s)).1 hk hv rfl hcs.ne' n
  show (∃ x ∈ A, ∃ s' ∈ B, Hp.NICH.sampleGroup I.toRng s _ _ = _) ↔ _
  rw [e]
  rfl

end Dist
