import Verif.Lemmas.GammaMoments
import Verif.Lemmas.SampleLoop

/-! # Many Poisson draws given a mean drawn once -/

namespace Dist

open Spec FloatOps FloatNotation MeasureTheory ProbabilityTheory

variable {σ : Type} [MeasurableSpace σ]

theorem poisson_prod {m : ℝ} (hm : 0 < m) (ns : List ℕ) :
    (ns.map fun v => ENNReal.ofReal (Real.exp (-m) * m ^ v / v.factorial)).prod =
      ENNReal.ofReal (Real.exp (-(ns.map fun v : ℕ => Real.log v.factorial).sum)) *
        ENNReal.ofReal (m ^ (ns.sum : ℝ) * Real.exp (-(ns.length * m))) := by
  induction ns with
  | nil => simp
  | cons v ns ih =>
    have hf : (0 : ℝ) < v.factorial := by exact_mod_cast v.factorial_pos
    rw [List.map_cons, List.prod_cons, ih, ← ENNReal.ofReal_mul (by positivity),
      ← ENNReal.ofReal_mul (by positivity), ← ENNReal.ofReal_mul (by positivity)]
    congr 1
    rw [List.map_cons, List.sum_cons, List.sum_cons, List.length_cons, neg_add, Real.exp_add,
      Real.exp_neg (Real.log _), Real.exp_log hf, Nat.cast_add, Real.rpow_add hm,
      Real.rpow_natCast m v, Nat.cast_add, Nat.cast_one, add_mul, one_mul, neg_add, Real.exp_add]
    field_simp

/-- **Drawing a mean from a gamma law once and then values from the Poisson law with that mean.** -/
theorem gp_many (I : IdealRng σ) {a b : ℝ} (ha : 0 < a) (hb : 0 < b) (ns : List ℕ) {B : Set σ}
    (hB : MeasurableSet B) :
    I.P {s | ∃ s' ∈ B, sampleLoop
        (fun s₁ => .ok (I.toRng.poisson s₁ (.fin (I.gamma ((a, 1 / b), s)).1))) ns.length
        (I.gamma ((a, 1 / b), s)).2 = .ok (ns.map fun v : ℕ => (v : Int), s')} =
      ENNReal.ofReal (Real.exp (Real.log (Real.Gamma (a + ns.sum)) - Real.log (Real.Gamma a) +
        (a * Real.log b - (a + ns.sum) * Real.log (b + ns.length)) -
        (ns.map fun v : ℕ => Real.log v.factorial).sum)) * I.P B := by
  let d : σ → ℝ × σ := fun s => I.gamma ((a, 1 / b), s)
  have hd : Measurable d := I.gamma_meas.comp measurable_prodMk_left
  have hlaw : HasLaw I.P d (gammaMeasure a (1 / (1 / b))) := I.gamma_law a (1 / b) ha (by positivity)
  rw [one_div_one_div] at hlaw
  have hset : {s | ∃ s' ∈ B, sampleLoop
        (fun s₁ => .ok (I.toRng.poisson s₁ (.fin (I.gamma ((a, 1 / b), s)).1))) ns.length
        (I.gamma ((a, 1 / b), s)).2 = .ok (ns.map fun v : ℕ => (v : Int), s')} =
      d ⁻¹' iterSet (drawStep I.poisson) (Set.univ ×ˢ B) (ns.map fun v => {v}) := by
    ext s
    show _ ↔ ((d s).1, (d s).2) ∈
      iterSet (drawStep I.poisson) (Set.univ ×ˢ B) (ns.map fun v => {v})
    rw [← drawStep_values (emb := fun v : ℕ => (v : Int)) Nat.cast_injective
      (eval := fun s₁ => .ok (I.toRng.poisson s₁ (.fin (d s).1))) (fun s => rfl)]
    rfl
  rw [hset, iterSet_law I.P hd hlaw (p := fun A => MeasurableSet A)
    (fun A C hA hC => drawStep_meas I.poisson_meas A C hA hC)
    (k := fun m A => poissonMeasure m.toNNReal A) (by
      filter_upwards [gamma_pos_ae a b] with m hm A C hA hC
      exact drawStep_prob I.P I.poisson_meas (I.poisson_law m hm) A C hA hC) hB _ (by
      intro A hA
      obtain ⟨v, _, rfl⟩ := List.mem_map.mp hA
      exact measurableSet_singleton v)]
  congr 1
  have e : ∀ᵐ m ∂gammaMeasure a b,
      ((ns.map fun v => ({v} : Set ℕ)).map fun A => poissonMeasure m.toNNReal A).prod =
        ENNReal.ofReal (Real.exp (-(ns.map fun v : ℕ => Real.log v.factorial).sum)) *
        ENNReal.ofReal (m ^ (ns.sum : ℝ) * Real.exp (-(ns.length * m))) := by
    filter_upwards [gamma_pos_ae a b] with m hm
    rw [List.map_map, ← poisson_prod hm]
    congr 1
    apply List.map_congr_left
    intro v _
    simp only [Function.comp, poissonMeasure_singleton, Real.coe_toNNReal _ hm.le]
  rw [lintegral_congr_ae e, lintegral_const_mul _ (by fun_prop),
    gamma_moment ha hb (by positivity) (by positivity), ← ENNReal.ofReal_mul (by positivity)]
  congr 1
  have hb2 : 0 < b + (ns.length : ℝ) := by positivity
  have hG1 := Real.Gamma_pos_of_pos ha
  have hG2 : 0 < Real.Gamma (a + (ns.sum : ℝ)) := Real.Gamma_pos_of_pos (by positivity)
  rw [sub_eq_add_neg _ (List.sum _), Real.exp_add, mul_comm]
  congr 1
  rw [Real.exp_add, Real.exp_sub, Real.exp_log hG1, Real.exp_log hG2, Real.exp_sub,
    mul_comm a, mul_comm (a + (ns.sum : ℝ)) (Real.log _), ← Real.rpow_def_of_pos hb,
    ← Real.rpow_def_of_pos hb2, Real.rpow_neg hb2.le]
  have : 0 < (b + (ns.length : ℝ)) ^ (a + (ns.sum : ℝ)) := by positivity
  field_simp

end Dist
