import Verif.Lemmas.Factor
import Verif.Model.BB
import Verif.Model.DD
import Verif.Model.Clustering

/-!
# C75: predictive probabilities in single precision

The theorems are about `Single lib`: every operation rounds to the nearest single-precision number
and `fast_log` is the table-driven one, applied to the bit pattern of its argument.
-/

namespace Dist

open FloatOps FloatNotation

namespace Single

variable {lib : Libm}

/-! ## Beta-Bernoulli -/

theorem range_add {a : ℝ} {n : ℤ} (h1 : 1 / 2 ^ 40 ≤ a) (h2 : a ≤ 2 ^ 40) (hn : 0 ≤ n) (hn' : n < 2 ^ 31) :
    Factor (2 * ulp) (nearest (a + nearest (n : ℝ))) (a + n) ∧ 1 / 2 ^ 40 ≤ a + n ∧ a + n ≤ 2 ^ 41 := by
  have hn0 : (0 : ℝ) ≤ n := by exact_mod_cast hn
  have hn1 : (n : ℝ) < 2 ^ 31 := by exact_mod_cast hn'
  have ha : 0 ≤ a := le_trans (by positivity) h1
  have hf := ((Factor.refl ha).mono Factor.ulp_nonneg).add (Factor.ofInt hn)
  have hlow : (1 : ℝ) / 2 ^ 126 ≤ a + nearest (n : ℝ) := by
    have := (Factor.ofInt hn).nonneg'
    have e : (1 : ℝ) / 2 ^ 126 ≤ 1 / 2 ^ 40 := by norm_num
    linarith
  refine ⟨by simpa [two_mul] using hf.rnd (Or.inr hlow), by linarith, by linarith⟩

theorem ratio_log {δ ε r s x y : ℝ} (h : Factor δ r x) (h' : Factor ε s y) (hd : δ ≤ 1 / 4)
    (he : ε ≤ 1 / 4) (hx1 : 1 / 2 ^ 44 ≤ x) (hx2 : x ≤ 2 ^ 60) (hy1 : 1 / 2 ^ 60 ≤ y) (hy2 : y ≤ 2 ^ 80) :
    |logf (nearest (r / s)) - Real.log (x / y)| ≤ 1 / 2 ^ 13 + ulp + (δ + ε) := by
  have hy0 : 0 < y := lt_of_lt_of_le (by positivity) hy1
  have hx0 : 0 < x := lt_of_lt_of_le (by positivity) hx1
  have hf := h.div h' hy0
  have h1 := hf.half (by linarith)
  have h2 := hf.double (by linarith)
  refine logf_factor hf ?_ ?_
  · refine le_trans ?_ h1
    rw [div_div, le_div_iff₀ (by positivity)]
    calc 1 / 2 ^ 126 * (y * 2) ≤ 1 / 2 ^ 126 * (2 ^ 80 * 2) := by gcongr
      _ ≤ 1 / 2 ^ 44 := by norm_num
      _ ≤ x := hx1
  · refine lt_of_le_of_lt h2 ?_
    have : x / y ≤ 2 ^ 60 / (1 / 2 ^ 60) := by gcongr
    calc x / y * 2 ≤ 2 ^ 60 / (1 / 2 ^ 60) * 2 := by gcongr
      _ < 2 ^ 127 := by norm_num

theorem ulp_small {k : ℝ} (hk : k ≤ 1000) : k * ulp ≤ 1 / 4 := by
  unfold ulp
  nlinarith

/-- **C75 (Beta-Bernoulli).** Hyperparameters between `2^-40` and `2^40` and any counts of an
`int`: each score the library computes is within `1.25e-4` of the logarithm of the exact
predictive probability, and the two probabilities sum to one within `2.5e-4`. -/
theorem C75_bb (a b : ℝ) (g : BB.Group) (ha1 : 1 / 2 ^ 40 ≤ a) (ha2 : a ≤ 2 ^ 40)
    (hb1 : 1 / 2 ^ 40 ≤ b) (hb2 : b ≤ 2 ^ 40) (hh : 0 ≤ g.heads) (hh' : g.heads < 2 ^ 31)
    (ht : 0 ≤ g.tails) (ht' : g.tails < 2 ^ 31) :
    let score (v : Bool) : ℝ := (g.scoreValue (⟨⟨a⟩, ⟨b⟩⟩ : BB.Shared (Single lib)) v).val
    |score true - Real.log ((a + g.heads) / (a + g.heads + (b + g.tails)))| ≤ 125 / 10 ^ 6 ∧
    |score false - Real.log ((b + g.tails) / (a + g.heads + (b + g.tails)))| ≤ 125 / 10 ^ 6 ∧
    |Real.exp (score true) + Real.exp (score false) - 1| ≤ 250 / 10 ^ 6 := by
  intro score
  obtain ⟨fa, la, ua⟩ := range_add ha1 ha2 hh hh'
  obtain ⟨fb, lb, ub⟩ := range_add hb1 hb2 ht ht'
  set x := a + (g.heads : ℝ) with hx
  set y := b + (g.tails : ℝ) with hy
  have e40 : (1 : ℝ) / 2 ^ 60 ≤ 1 / 2 ^ 40 := by norm_num
  have e44 : (1 : ℝ) / 2 ^ 44 ≤ 1 / 2 ^ 40 := by norm_num
  have e80 : (2 : ℝ) ^ 60 ≤ 2 ^ 80 := by norm_num
  have hx0 : 0 < x := lt_of_lt_of_le (by positivity) la
  have hy0 : 0 < y := lt_of_lt_of_le (by positivity) lb
  have fs : Factor (3 * ulp) (nearest (nearest (a + nearest (g.heads : ℝ)) +
      nearest (b + nearest (g.tails : ℝ)))) (x + y) := by
    have h := fa.add fb
    have h2 := h.half (ulp_small (by norm_num) |>.trans (by norm_num))
    have h3 := h.rnd (Or.inr (le_trans (by
      have : (1 : ℝ) / 2 ^ 126 ≤ 1 / 2 ^ 40 / 2 := by norm_num
      linarith) h2))
    exact h3.mono (le_of_eq (by ring))
  have k1 := ratio_log fa fs (ulp_small (by norm_num)) (ulp_small (by norm_num)) (by linarith)
    (by linarith) (by linarith) (by linarith)
  have k2 := ratio_log fb fs (ulp_small (by norm_num)) (ulp_small (by norm_num)) (by linarith)
    (by linarith) (by linarith) (by linarith)
  have hnum : 1 / 2 ^ 13 + ulp + (2 * ulp + 3 * ulp) ≤ 125 / 10 ^ 6 := by unfold ulp; norm_num
  have s1 : |score true - Real.log (x / (x + y))| ≤ 125 / 10 ^ 6 := by
    have e : score true = logf (nearest (nearest (a + nearest (g.heads : ℝ)) /
        nearest (nearest (a + nearest (g.heads : ℝ)) + nearest (b + nearest (g.tails : ℝ))))) := by
      simp only [score, BB.Group.scoreValue, BB.Scorer.init, BB.Scorer.eval, if_true,
        Bool.false_eq_true, if_false, val_log, val_div, val_add, val_ofInt]
    rw [e]
    exact k1.trans hnum
  have s2 : |score false - Real.log (y / (x + y))| ≤ 125 / 10 ^ 6 := by
    have e : score false = logf (nearest (nearest (b + nearest (g.tails : ℝ)) /
        nearest (nearest (a + nearest (g.heads : ℝ)) + nearest (b + nearest (g.tails : ℝ))))) := by
      simp only [score, BB.Group.scoreValue, BB.Scorer.init, BB.Scorer.eval, if_true,
        Bool.false_eq_true, if_false, val_log, val_div, val_add, val_ofInt]
    rw [e]
    exact k2.trans hnum
  refine ⟨s1, s2, ?_⟩
  have := sum_exp_near (Finset.univ : Finset Bool) score
    (fun v => (if v then x else y) / (x + y)) (ε := 125 / 10 ^ 6) (by norm_num) (by norm_num)
    (by intro v _; cases v <;> simp <;> positivity)
    (by intro v _; cases v; exacts [by simpa using s2, by simpa using s1])
    (by simp; field_simp)
  rw [Fintype.sum_bool] at this
  linarith

/-- The hypotheses are met by the example of the code (bb.hpp:70-75) and a million tosses. -/
example : |((⟨400000, 600000⟩ : BB.Group).scoreValue (⟨⟨1 / 2⟩, ⟨2⟩⟩ : BB.Shared (Single lib)) true).val -
    Real.log ((1 / 2 + 400000) / (1 / 2 + 400000 + (2 + 600000)))| ≤ 125 / 10 ^ 6 := by
  have := (C75_bb (lib := lib) (1 / 2) 2 ⟨400000, 600000⟩ (by norm_num) (by norm_num) (by norm_num)
    (by norm_num) (by norm_num) (by norm_num) (by norm_num) (by norm_num)).1
  simpa using this

/-! ## Dirichlet-Discrete -/

/-- Summing a list one addition at a time. -/
theorem sum_factor {δ : ℝ} (hδ : 0 ≤ δ) (l : List (Single lib × ℝ)) :
    ∀ (k : ℕ) (acc : Single lib) (x : ℝ), (∀ p ∈ l, Factor δ p.1.val p.2 ∧ 1 / 2 ^ 40 ≤ p.2) →
      Factor (δ + k * ulp) acc.val x → δ + (k + l.length) * ulp ≤ 1 / 4 →
      Factor (δ + (k + l.length) * ulp) ((l.map Prod.fst).foldl (· + ·) acc).val
        (x + (l.map Prod.snd).sum) := by
  induction l with
  | nil => intro k acc x _ h _; simpa using h
  | cons p l ih =>
    intro k acc x hl hacc hb
    obtain ⟨hp, hp1⟩ := hl p (by simp)
    have hu := Factor.ulp_nonneg
    have hlen : δ + (((k + 1 : ℕ) : ℝ) + l.length) * ulp = δ + (k + ((p :: l).length : ℕ)) * ulp := by
      push_cast [List.length_cons]; ring
    have hk : δ ≤ δ + k * ulp := by have : (0 : ℝ) ≤ k * ulp := by positivity
                                    linarith
    have hadd := hacc.add (hp.mono hk)
    have hkb : δ + k * ulp ≤ 1 / 2 := by
      have : (0 : ℝ) ≤ ((p :: l).length : ℕ) * ulp := by positivity
      have : (0 : ℝ) ≤ ((p :: l).length : ℕ) * ulp := by positivity
      nlinarith
    have hh := hadd.half hkb
    have hx := hacc.nonneg
    have hr := hadd.rnd (Or.inr (le_trans (by
      have : (1 : ℝ) / 2 ^ 126 ≤ 1 / 2 ^ 40 / 2 := by norm_num
      linarith) hh))
    have := ih (k + 1) (acc + p.1) (x + p.2) (fun q hq => hl q (by simp [hq]))
      (by rw [val_add]; exact hr.mono (le_of_eq (by push_cast; ring))) (by rw [hlen]; exact hb)
    rw [hlen] at this
    simpa [add_assoc] using this

/-- `alphas[value] + counts[value]` for every value. -/
theorem posterior_single {n : ℕ} (a : Fin n → ℝ) (c : Fin n → ℤ) :
    DD.posterior (List.ofFn fun i => (⟨a i⟩ : Single lib)) (List.ofFn c) =
      .ok (List.ofFn fun i => ⟨nearest (a i + nearest (c i : ℝ))⟩) := by
  induction n with
  | zero => simp [DD.posterior]
  | succ n ih =>
    rw [List.ofFn_succ, List.ofFn_succ, List.ofFn_succ]
    simp only [DD.posterior, ih (fun i => a i.succ) (fun i => c i.succ), Res.ok_bind, Res.pure_eq]
    rfl

/-- **C75 (Dirichlet-Discrete).** At most 256 values (the `max_dim` of lp/models/_dd_h.pxd:38), hyperparameters between `2^-40`
and `2^40` and any counts of an `int`: each score is within `1.9e-4` of the logarithm of the exact
predictive probability, and the probabilities sum to one within `3.8e-4`. -/
theorem C75_dd (lvl n : ℕ) (hn : 0 < n) (hn' : n ≤ 256) (a : Fin n → ℝ) (c : Fin n → ℤ) (s : ℤ)
    (ha : ∀ i, 1 / 2 ^ 40 ≤ a i ∧ a i ≤ 2 ^ 40) (hc : ∀ i, 0 ≤ c i ∧ c i < 2 ^ 31) :
    ∃ score : Fin n → ℝ,
      (∀ v : Fin n, (⟨s, List.ofFn c⟩ : DD.Group).scoreValue lvl
        (⟨List.ofFn fun i => ⟨a i⟩⟩ : DD.Shared (Single lib)) (v : ℕ) = .ok ⟨score v⟩) ∧
      (∀ v, |score v - Real.log ((a v + c v) / ∑ i, (a i + c i))| ≤ 190 / 10 ^ 6) ∧
      |∑ v, Real.exp (score v) - 1| ≤ 380 / 10 ^ 6 := by
  let r : Fin n → ℝ := fun i => nearest (a i + nearest (c i : ℝ))
  let total : Single lib := (List.ofFn fun i => (⟨r i⟩ : Single lib)).foldl (· + ·) (ofInt 0)
  have hr : ∀ i, Factor (2 * ulp) (r i) (a i + c i) ∧ 1 / 2 ^ 40 ≤ a i + c i ∧ a i + c i ≤ 2 ^ 41 :=
    fun i => range_add (ha i).1 (ha i).2 (hc i).1 (hc i).2
  have hn256 : (n : ℝ) ≤ 256 := by exact_mod_cast hn'
  have hu := Factor.ulp_nonneg
  have hbound : 2 * ulp + (((0 : ℕ) : ℝ) + (n : ℕ)) * ulp ≤ 1 / 4 := by
    have := ulp_small (k := 2 + n) (by linarith)
    push_cast
    linarith
  have htot : Factor (2 * ulp + n * ulp) total.val (∑ i, (a i + c i)) := by
    have := sum_factor (lib := lib) (δ := 2 * ulp) (by positivity)
      (List.ofFn fun i => ((⟨r i⟩ : Single lib), a i + (c i : ℝ))) 0 (ofInt 0) 0 (by
        intro p hp
        obtain ⟨i, rfl⟩ := (List.mem_ofFn' _ _).1 hp
        exact ⟨(hr i).1, (hr i).2.1⟩) (by
        rw [val_ofInt, Int.cast_zero, Factor.nearest_zero]
        exact (Factor.refl le_rfl).mono (by positivity)) (by simpa using hbound)
    rw [List.map_ofFn, List.map_ofFn, List.sum_ofFn, zero_add] at this
    simp only [Function.comp_def, List.length_ofFn] at this
    simpa [total] using this
  have hsum1 : 1 / 2 ^ 40 ≤ ∑ i, (a i + (c i : ℝ)) := by
    have h0 := Finset.single_le_sum (f := fun i => a i + (c i : ℝ)) (s := Finset.univ)
      (fun i _ => le_trans (by positivity) (hr i).2.1) (Finset.mem_univ (⟨0, hn⟩ : Fin n))
    exact (hr ⟨0, hn⟩).2.1.trans h0
  have hsum2 : ∑ i, (a i + (c i : ℝ)) ≤ 2 ^ 60 := by
    calc ∑ i, (a i + (c i : ℝ)) ≤ ∑ _i : Fin n, (2 : ℝ) ^ 41 := Finset.sum_le_sum fun i _ => (hr i).2.2
      _ = n * 2 ^ 41 := by simp
      _ ≤ 256 * 2 ^ 41 := by gcongr
      _ ≤ 2 ^ 60 := by norm_num
  have hpos : 0 < ∑ i, (a i + (c i : ℝ)) := lt_of_lt_of_le (by positivity) hsum1
  have e40 : (1 : ℝ) / 2 ^ 60 ≤ 1 / 2 ^ 40 := by norm_num
  have e44 : (1 : ℝ) / 2 ^ 44 ≤ 1 / 2 ^ 40 := by norm_num
  have e80 : (2 : ℝ) ^ 60 ≤ 2 ^ 80 := by norm_num
  have e41 : (2 : ℝ) ^ 41 ≤ 2 ^ 60 := by norm_num
  have hacc : ∀ v, |logf (nearest (r v / total.val)) -
      Real.log ((a v + c v) / ∑ i, (a i + (c i : ℝ)))| ≤ 190 / 10 ^ 6 := by
    intro v
    have := ratio_log (hr v).1 htot (ulp_small (by norm_num)) (by push_cast at hbound; linarith)
      (by linarith [(hr v).2.1]) (by linarith [(hr v).2.2]) (by linarith) (by linarith)
    refine this.trans ?_
    have h1 : (n : ℝ) * ulp ≤ 256 * ulp := by gcongr
    have h2 : 1 / 2 ^ 13 + ulp + (2 * ulp + (2 * ulp + 256 * ulp)) ≤ 190 / 10 ^ 6 := by
      unfold ulp; norm_num
    linarith
  refine ⟨fun v => logf (nearest (r v / total.val)), ?_, hacc, ?_⟩
  · intro v
    have hv : ((v : ℕ) : ℤ) < (((⟨List.ofFn fun i => ⟨a i⟩⟩ : DD.Shared (Single lib)).alphas.length : ℕ) : ℤ) := by
      simp
    simp only [DD.Group.scoreValue, DD.Scorer.init, DD.Scorer.eval]
    rw [posterior_single, distAssert_of hv]
    simp only [Res.ok_bind, Res.pure_eq, DD.readAt]
    rw [if_pos (by omega), Int.toNat_natCast,
      getAt_of (by simp : (v : ℕ) < (List.ofFn fun i => (⟨nearest (a i + nearest (c i : ℝ))⟩ : Single lib)).length)]
    simp only [Res.ok_bind, List.getElem_ofFn]
    rfl
  · have := sum_exp_near (Finset.univ : Finset (Fin n)) (fun v => logf (nearest (r v / total.val)))
      (fun v => (a v + c v) / ∑ i, (a i + (c i : ℝ))) (ε := 190 / 10 ^ 6) (by norm_num) (by norm_num)
      (fun v _ => div_pos (lt_of_lt_of_le (by positivity) (hr v).2.1) hpos) (fun v _ => hacc v)
      (by rw [← Finset.sum_div, div_self hpos.ne'])
    refine this.trans (by norm_num)

/-- The hypotheses are met by 256 values with alphas 1/2 (as in dd.hpp:77-84) and any counts. -/
example (c : Fin 256 → ℤ) (hc : ∀ i, 0 ≤ c i ∧ c i < 2 ^ 31) : ∃ score : Fin 256 → ℝ,
    (∀ v : Fin 256, (⟨0, List.ofFn c⟩ : DD.Group).scoreValue 0
      (⟨List.ofFn fun _ : Fin 256 => ⟨1 / 2⟩⟩ : DD.Shared (Single lib)) (v : ℕ) = .ok ⟨score v⟩) ∧
    |∑ v, Real.exp (score v) - 1| ≤ 380 / 10 ^ 6 := by
  obtain ⟨score, h1, -, h3⟩ := C75_dd (lib := lib) 0 256 (by norm_num) le_rfl (fun _ => 1 / 2) c 0
    (fun _ => by norm_num) hc
  exact ⟨score, h1, h3⟩

end Single

end Dist
