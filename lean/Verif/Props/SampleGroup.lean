import Mathlib.Data.Bool.Count
import Verif.Lemmas.DirichletMany
import Verif.Lemmas.IdealRngExists
import Verif.Lemmas.PoissonMany
import Verif.Lemmas.Hp
import Verif.Props.BB
import Verif.Props.DD
import Verif.Props.GP
import Verif.Props.Samplers

/-!
# C62: `sample_group` draws data sets with the probability `score_data` reports

Under the laws of `Spec.IdealRng`, `sample_group(shared, n)` returns a list of `n` values with
probability `exp(score_data)` of the group that holds them, and the remaining stream of random
numbers is independent of the list.
-/

namespace Dist

open Spec FloatOps FloatNotation MeasureTheory ProbabilityTheory

variable {σ : Type} [MeasurableSpace σ]

theorem exp_log_gammas {n : ℕ} (a c : Fin n → ℝ) (ha : ∀ i, 0 < a i) (hc : ∀ i, 0 ≤ c i) {A N : ℝ}
    (hA : 0 < A) (hN : 0 ≤ N) :
    Real.exp (∑ i, (Real.log (Real.Gamma (a i + c i)) - Real.log (Real.Gamma (a i))) +
        (Real.log (Real.Gamma A) - Real.log (Real.Gamma (A + N)))) =
      Real.Gamma A / Real.Gamma (A + N) * ∏ i, Real.Gamma (a i + c i) / Real.Gamma (a i) := by
  have hg : ∀ i, 0 < Real.Gamma (a i) := fun i => Real.Gamma_pos_of_pos (ha i)
  have hg' : ∀ i, 0 < Real.Gamma (a i + c i) := fun i =>
    Real.Gamma_pos_of_pos (by have := ha i; have := hc i; linarith)
  rw [Real.exp_add, Real.exp_sum, mul_comm]
  congr 1
  · rw [Real.exp_sub, Real.exp_log (Real.Gamma_pos_of_pos hA),
      Real.exp_log (Real.Gamma_pos_of_pos (by linarith))]
  · apply Finset.prod_congr rfl
    intro i _
    rw [Real.exp_sub, Real.exp_log (hg i), Real.exp_log (hg' i)]

theorem sampleGroup_size {n : ℕ} (h : n ≤ 2147483647) : Hp.cInt (n : Int) = .ok (n : Int) :=
  Hp.cInt_of (by unfold InInt32 int32Min int32Max; omega)

theorem gamma_three : Real.Gamma 3 = 2 := by
  have h := Real.Gamma_nat_eq_factorial 2
  rw [show ((2 : ℕ) : ℝ) + 1 = 3 by norm_num] at h
  rw [h]; norm_num [Nat.factorial]

theorem gamma_four : Real.Gamma 4 = 6 := by
  have h := Real.Gamma_nat_eq_factorial 3
  rw [show ((3 : ℕ) : ℝ) + 1 = 4 by norm_num] at h
  rw [h]; norm_num [Nat.factorial]

/-- **C62 (Dirichlet-discrete).** -/
theorem C62_dd (I : IdealRng σ) (lvl dim : Nat) (hd : 0 < dim) (a : Fin dim → ℝ)
    (ha : ∀ i, 0 < a i) (xs : List (Fin dim)) (hl : xs.length ≤ 2147483647) {B : Set σ}
    (hB : MeasurableSet B) :
    ∃ g x, addAll (DD.opsFin lvl dim) (DD.Group.init dim) xs = .ok g ∧
      g.scoreData (DD.real a) = .ok (.fin x) ∧
      I.P {s | ∃ s' ∈ B, DD.sampleGroup I.toRng s (DD.real a) xs.length =
        .ok (xs.map Fin.val, s')} = ENNReal.ofReal (Real.exp x) * I.P B := by
  haveI : Nonempty (Fin dim) := ⟨⟨0, hd⟩⟩
  have hA : 0 < ∑ j, a j := Finset.sum_pos (fun k _ => ha k) Finset.univ_nonempty
  obtain ⟨g, hg, rfl, -⟩ := addAll_summarises (DD.summarises lvl dim) xs hl
  refine ⟨_, _, hg, DD.scoreData_eq a ha _ _ (fun i => ?_) hA ?_, ?_⟩
  · have := ha i; positivity
  · positivity
  have h := dirichlet_many I dim a ha xs hB
  have e := exp_log_gammas a (fun i => (xs.count i : ℝ)) ha (fun i => by positivity) hA
    (N := xs.length) (by positivity)
  simp only [Multiset.coe_count, Multiset.coe_card, Int.cast_natCast]
  rw [e, ← h]
  have hp : DD.posterior (DD.real a).alphas (List.replicate (DD.real a).alphas.length 0) =
      .ok (List.ofFn fun i => XR.fin (a i)) := by
    have := DD.posterior_eq a (fun _ => 0)
    simp only [DD.real, List.length_ofFn] at this ⊢
    rw [List.ofFn_const] at this
    simpa using this
  have e2 : ∀ s, DD.sampleGroup I.toRng s (DD.real a) xs.length =
      sampleLoop (fun s₁ => sampleDiscrete I.toRng s₁
        (sampleDirichlet I.toRng s (List.ofFn fun i => XR.fin (a i))).1) xs.length
        (sampleDirichlet I.toRng s (List.ofFn fun i => XR.fin (a i))).2 := by
    intro s
    rw [DD.sampleGroup, sampleGroup_size hl, Res.ok_bind, hp, Res.ok_bind]
    rfl
  simp_rw [e2]

/-- Non-triviality: two categories, a uniform prior: the same category twice has probability
`1 / 3`. -/
example : ∃ I : IdealRng Supply, I.P {s | ∃ s', DD.sampleGroup I.toRng s
    (DD.real fun _ : Fin 2 => 1) 2 = .ok ([0, 0], s')} = ENNReal.ofReal (1 / 3) := by
  obtain ⟨I⟩ := idealRng_exists
  refine ⟨I, ?_⟩
  obtain ⟨g, x, h1, h2, h3⟩ := C62_dd I 0 2 (by norm_num) (fun _ => 1) (by simp) [0, 0]
    (by simp) MeasurableSet.univ
  have e : addAll (DD.opsFin 0 2) (DD.Group.init 2) [0, 0] = .ok ⟨2, [2, 0]⟩ := rfl
  have hg := Res.ok.inj (h1.symm.trans e)
  subst hg
  have h4 := DD.scoreData_eq (fun _ : Fin 2 => 1) (by simp) ![2, 0] 2
    (by intro i; fin_cases i <;> norm_num) (by norm_num) (by norm_num)
  have e5 : (⟨2, [2, 0]⟩ : DD.Group) = DD.mk 2 ![2, 0] := rfl
  rw [e5, h4] at h2
  have h6 : x = Real.log (1 / 3) := by
    rw [← XR.fin_inj.mp (Res.ok.inj h2)]
    norm_num [Fin.sum_univ_two, gamma_three, gamma_four, Real.Gamma_two]
    rw [show (6 : ℝ) = 2 * 3 by norm_num, Real.log_mul (by norm_num) (by norm_num), one_div,
      Real.log_inv]
    ring
  rw [h6, Real.exp_log (by norm_num)] at h3
  simpa using h3

/-- **C62 (Beta-Bernoulli).** -/
theorem C62_bb (I : IdealRng σ) (a b : ℝ) (ha : 0 < a) (hb : 0 < b) (xs : List Bool)
    (hl : xs.length ≤ 2147483647) {B : Set σ} (hB : MeasurableSet B) :
    ∃ g x, addAll BB.ops BB.Group.init xs = .ok g ∧ g.scoreData (BB.real a b) = .fin x ∧
      I.P {s | ∃ s' ∈ B, BB.sampleGroup I.toRng s (BB.real a b) xs.length = .ok (xs, s')} =
        ENNReal.ofReal (Real.exp x) * I.P B := by
  obtain ⟨g, hg, rfl, -⟩ := addAll_summarises BB.summarises xs hl
  refine ⟨_, _, hg, BB.scoreData_eq ha hb _ (by simp; positivity) (by simp; positivity), ?_⟩
  let p : Fin 2 → ℝ := ![a, b]
  have hp : ∀ i, 0 < p i := by
    intro i; fin_cases i
    · exact ha
    · exact hb
  have hx : (List.ofFn fun i => XR.fin (p i)) = [XR.fin a + ofInt 0, XR.fin b + ofInt 0] := by
    simp [p, List.ofFn_succ, XR.ofInt_eq]
  let idx : Bool → Fin 2 := fun v => if v then 0 else 1
  have hinj : Function.Injective idx := by decide
  have h := dirichlet_many I 2 p hp (xs.map idx) hB
  have e := exp_log_gammas p (fun i => ((xs.map idx).count i : ℝ)) hp (fun i => by positivity)
    (A := a + b) (by positivity) (N := xs.length) (by positivity)
  have hc : ∀ v, (xs.map idx).count (idx v) = xs.count v := fun v =>
    List.count_map_of_injective xs idx hinj v
  have hs : ∑ i, p i = a + b := by rw [Fin.sum_univ_two]; rfl
  rw [hs, List.length_map] at h
  rw [← e, Fin.sum_univ_two] at h
  have h0 : (xs.map idx).count 0 = xs.count true := hc true
  have h1 : (xs.map idx).count 1 = xs.count false := hc false
  rw [h0, h1] at h
  have hlen : (xs.count true : ℝ) + xs.count false = xs.length := by
    have := List.count_false_add_count_true xs
    exact_mod_cast (by omega : xs.count true + xs.count false = xs.length)
  have e3 : (a + (xs.count true : ℝ)) + (b + xs.count false) = a + b + xs.length := by
    rw [← hlen]; ring
  simp only [Multiset.coe_count, Int.cast_natCast]
  rw [e3]
  have e2 : ∀ s s', BB.sampleGroup I.toRng s (BB.real a b) xs.length = .ok (xs, s') ↔
      sampleLoop (fun s₁ => sampleDiscrete I.toRng s₁
        (sampleDirichlet I.toRng s (List.ofFn fun i => XR.fin (p i))).1) xs.length
        (sampleDirichlet I.toRng s (List.ofFn fun i => XR.fin (p i))).2 =
          .ok ((xs.map idx).map Fin.val, s') := by
    intro s s'
    rw [BB.sampleGroup, sampleGroup_size hl, Res.ok_bind, BB.samplerInit]
    simp only [BB.real]
    rw [hx]
    have hl := sampleDirichlet_length I.toRng s [XR.fin a + ofInt 0, XR.fin b + ofInt 0]
    rcases hD : sampleDirichlet I.toRng s [XR.fin a + ofInt 0, XR.fin b + ofInt 0] with ⟨ps, s₁⟩
    rw [hD] at hl
    obtain ⟨q₀, q₁, rfl⟩ : ∃ q₀ q₁, ps = [q₀, q₁] := List.length_eq_two.mp hl
    have h0 : getAt [q₀, q₁] 0 = .ok q₀ := rfl
    rw [h0]
    simp only [Res.ok_bind, Res.pure_eq, List.map_map]
    refine sampleLoop_congr (fun _ => True) (ok := Fin.val ∘ idx) ?_ xs (fun _ _ => trivial) _ _ _
    intro v _ s s'
    have h1 : sampleDiscrete I.toRng s [q₀, q₁] =
        .ok (if lt (XR.fin (I.unif s).1 - q₀) (ofInt 0) then 0 else 1, (I.unif s).2) := by
      rw [sampleDiscrete, distAssert0_of (by simp), Res.ok_bind]
      rfl
    rw [h1]
    simp only [sampleBernoulli, IdealRng.toRng, Res.ok.injEq, Prod.mk.injEq]
    have h2 : lt (XR.fin (I.unif s).1 - q₀) (ofInt 0) = lt (XR.fin (I.unif s).1) q₀ := by
      cases q₀ with
      | nan => rfl
      | fin q =>
        rw [XR.fin_sub, XR.ofInt_eq, Bool.eq_iff_iff, XR.lt_fin, XR.lt_fin]
        simp
    rw [h2]
    cases v <;> cases lt (XR.fin (I.unif s).1) q₀ <;> simp [idx]
  simp_rw [e2]
  exact h

/-- Non-triviality: a uniform prior: `true` twice has probability `1 / 3`. -/
example : ∃ I : IdealRng Supply, I.P {s | ∃ s', BB.sampleGroup I.toRng s (BB.real 1 1) 2 =
    .ok ([true, true], s')} = ENNReal.ofReal (1 / 3) := by
  obtain ⟨I⟩ := idealRng_exists
  refine ⟨I, ?_⟩
  obtain ⟨g, x, h1, h2, h3⟩ := C62_bb I 1 1 one_pos one_pos [true, true] (by simp)
    MeasurableSet.univ
  have e : addAll BB.ops BB.Group.init [true, true] = .ok ⟨2, 0⟩ := rfl
  have hg := Res.ok.inj (h1.symm.trans e)
  subst hg
  rw [BB.scoreData_eq one_pos one_pos _ (by norm_num) (by norm_num)] at h2
  have h6 : x = Real.log (1 / 3) := by
    rw [← XR.fin_inj.mp h2]
    norm_num [gamma_three, gamma_four, Real.Gamma_two]
    rw [show (6 : ℝ) = 2 * 3 by norm_num, Real.log_mul (by norm_num) (by norm_num), one_div,
      Real.log_inv]
    ring
  rw [h6, Real.exp_log (by norm_num)] at h3
  simpa using h3

/-- **C62 (Gamma-Poisson).** -/
theorem C62_gp (I : IdealRng σ) (a b : ℝ) (ha : 0 < a) (hb : 0 < b) (xs : List UInt32)
    (hl : xs.length ≤ 2147483647) (hsum : totalValue xs < 2 ^ 32) {B : Set σ}
    (hB : MeasurableSet B) :
    ∃ g x, addAll GP.ops (GP.Group.init : GP.Group XR) xs = .ok g ∧
      g.scoreData (GP.real a b) = .fin x ∧
      I.P {s | ∃ s' ∈ B, GP.sampleGroup I.toRng s (GP.real a b) xs.length =
        .ok (xs.map fun v => (v.toNat : Int), s')} = ENNReal.ofReal (Real.exp x) * I.P B := by
  obtain ⟨g, hg, rfl, -⟩ := addAll_summarises GP.summarises xs hl
  refine ⟨_, _, hg, GP.scoreData_eq ha hb _ _ _, ?_⟩
  set ns := xs.map UInt32.toNat with hns
  have hlen : ns.length = xs.length := by simp [hns]
  have hS : totalValue xs = ns.sum := by simp [totalValue, hns]
  have hF : totalLogFact xs = (ns.map fun v : ℕ => Real.log v.factorial).sum := by
    simp [totalLogFact, hns, Function.comp_def]
  have hc1 : (UInt32.ofNat (Multiset.card (xs : Multiset UInt32))).toNat = xs.length := by
    rw [Multiset.coe_card, UInt32.toNat_ofNat', Nat.mod_eq_of_lt (by omega)]
  have hc2 : (UInt32.ofNat (totalValue xs)).toNat = ns.sum := by
    rw [UInt32.toNat_ofNat', Nat.mod_eq_of_lt hsum, hS]
  have h := gp_many I ha hb ns hB
  rw [hlen] at h
  rw [hc1, hc2, hF, ← h]
  congr 1
  ext s
  have : GP.sampleGroup I.toRng s (GP.real a b) xs.length =
      sampleLoop (fun s₁ => .ok (I.toRng.poisson s₁ (.fin (I.gamma ((a, 1 / b), s)).1))) xs.length
        (I.gamma ((a, 1 / b), s)).2 := by
    rw [GP.sampleGroup, sampleGroup_size hl, Res.ok_bind]
    simp only [GP.Shared.plusGroup, GP.u32, XR.ofInt_eq, XR.fin_add, XR.lit_eq, GP.real]
    have h0 : b + ((((0 : UInt32).toNat : Int) : ℝ)) ≠ 0 := by simp [hb.ne']
    rw [XR.fin_div _ _ h0]
    simp [IdealRng.toRng]
  simp only [Set.mem_setOf_eq, this, hns, List.map_map]
  rfl

/-- Non-triviality: an exponential prior: two zeros have probability `1 / 3`. -/
example : ∃ I : IdealRng Supply, I.P {s | ∃ s', GP.sampleGroup I.toRng s (GP.real 1 1) 2 =
    .ok ([0, 0], s')} = ENNReal.ofReal (1 / 3) := by
  obtain ⟨I⟩ := idealRng_exists
  refine ⟨I, ?_⟩
  obtain ⟨g, x, h1, h2, h3⟩ := C62_gp I 1 1 one_pos one_pos [0, 0] (by simp) (by simp [totalValue])
    MeasurableSet.univ
  have e : addAll GP.ops (GP.Group.init : GP.Group XR) [0, 0] = .ok ⟨2, 0, .fin 0⟩ := by
    simp [addAll, GP.ops, GP.Group.init, GP.Group.addValue, GP.logFact, XR.logFactorial_eq]
  have hg := Res.ok.inj (h1.symm.trans e)
  subst hg
  rw [GP.scoreData_eq one_pos one_pos] at h2
  have h6 : x = Real.log (1 / 3) := by
    rw [← XR.fin_inj.mp h2]
    norm_num [show (2 : UInt32).toNat = 2 from rfl]
    rw [one_div, Real.log_inv]
  rw [h6, Real.exp_log (by norm_num)] at h3
  simpa using h3

end Dist
