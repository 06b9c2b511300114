import Verif.Props.SinglePrecision
import Verif.Props.PitmanYor

/-! # C75 for the Pitman-Yor clustering -/

namespace Dist

open FloatOps FloatNotation PitmanYor

namespace Single

variable {lib : Libm}

/-- `group_size - d`. -/
theorem size_sub {n : ℕ} {d : ℝ} (hn : 1 ≤ n) (h0 : 0 ≤ d) (h1 : d ≤ 1 - 1 / 2 ^ 24) :
    Factor (2 * ulp) (nearest (((n : ℕ) : ℤ) : ℝ) - d) ((n : ℝ) - d) := by
  have hn1 : (1 : ℝ) ≤ n := by exact_mod_cast hn
  have hd1 : d ≤ 1 := h1.trans (by norm_num)
  have hpos : 0 ≤ (n : ℝ) - d := by linarith
  have hu := Factor.ulp_nonneg
  rcases Nat.lt_or_ge n 4 with h | h
  · rw [nearest.int (m := ((n : ℕ) : ℤ)) (by rw [Nat.abs_cast]; norm_num; omega)]
    exact (Factor.refl hpos).mono (by positivity)
  · have hf := Factor.ofInt (n := ((n : ℕ) : ℤ)) (by omega)
    have hn4 : (4 : ℝ) ≤ n := by exact_mod_cast h
    push_cast at hf ⊢
    obtain ⟨-, l, u⟩ := hf
    have e1 : Real.exp (-ulp) ≤ 1 := Real.exp_le_one_iff.2 (by linarith)
    have e2 : (1 : ℝ) / 2 ≤ Real.exp (-ulp) := by
      have := Real.add_one_le_exp (-ulp)
      have : ulp ≤ 1 / 2 := by unfold ulp; norm_num
      linarith
    have e3 : (1 : ℝ) ≤ Real.exp ulp := Real.one_le_exp hu
    have s1 : Real.exp (-(2 * ulp)) = Real.exp (-ulp) * Real.exp (-ulp) := by
      rw [← Real.exp_add]; congr 1; ring
    have s2 : Real.exp (2 * ulp) = Real.exp ulp * Real.exp ulp := by
      rw [← Real.exp_add]; congr 1; ring
    refine ⟨hpos, ?_, ?_⟩
    · rw [s1]
      set t := Real.exp (-ulp)
      have h2 : d * (1 + t) ≤ n * t := by
        calc d * (1 + t) ≤ 1 * (1 + 1) := by gcongr
          _ ≤ 4 * (1 / 2) := by norm_num
          _ ≤ n * t := by gcongr
      nlinarith [mul_nonneg (sub_nonneg.2 e1) (sub_nonneg.2 h2)]
    · rw [s2]
      set t := Real.exp ulp
      have h2 : d * (1 + t) ≤ n * t := by
        calc d * (1 + t) ≤ 1 * (t + t) := by gcongr
          _ = 2 * t := by ring
          _ ≤ n * t := by gcongr; linarith
      nlinarith [mul_nonneg (sub_nonneg.2 e3) (sub_nonneg.2 h2)]

/-- `alpha + d * nonempty`. -/
theorem new_table {alpha d : ℝ} {K : ℕ} (ha1 : 1 / 2 ^ 40 ≤ alpha) (hd : d = 0 ∨ 1 / 2 ^ 40 ≤ d) :
    Factor (3 * ulp) (nearest (alpha + nearest (d * nearest (((K : ℕ) : ℤ) : ℝ)))) (alpha + d * K) := by
  have hu := Factor.ulp_nonneg
  have ha : 0 ≤ alpha := le_trans (by positivity) ha1
  have hd0 : 0 ≤ d := by
    rcases hd with h | h
    · rw [h]
    · exact le_trans (by positivity) h
  have hK := Factor.ofInt (n := ((K : ℕ) : ℤ)) (by omega)
  have hm := (Factor.refl hd0).mul hK
  rw [zero_add] at hm
  have hr : Factor (ulp + ulp) (nearest (d * nearest (((K : ℕ) : ℤ) : ℝ))) (d * (((K : ℕ) : ℤ) : ℝ)) := by
    refine hm.rnd ?_
    rcases hd with h | h
    · left; rw [h, zero_mul]
    · rcases Nat.eq_zero_or_pos K with hk | hk
      · left; rw [hk]; simp
      · right
        have hk1 : (1 : ℝ) ≤ (((K : ℕ) : ℤ) : ℝ) := by push_cast; exact_mod_cast hk
        have := hm.half (by unfold ulp; norm_num)
        refine le_trans ?_ this
        have h2 : 1 / 2 ^ 40 * 1 ≤ d * (((K : ℕ) : ℤ) : ℝ) := by gcongr
        have h3 : (1 : ℝ) / 2 ^ 126 ≤ 1 / 2 ^ 40 / 2 := by norm_num
        linarith
  have hadd := ((Factor.refl ha).mono (by positivity : (0 : ℝ) ≤ ulp + ulp)).add hr
  have hh := hadd.half (by unfold ulp; norm_num)
  have := hadd.rnd (Or.inr (le_trans (by
    have h0 := hr.nonneg
    have : (1 : ℝ) / 2 ^ 126 ≤ 1 / 2 ^ 40 / 2 := by norm_num
    linarith) hh))
  push_cast at this ⊢
  exact this.mono (le_of_eq (by ring))

/-- **C75 (Pitman-Yor).** `alpha` between `2^-40` and `2^40`, a discount `d` in `[0, 1)` that is zero
or at least `2^-40`, and any reachable driver with an empty group, fewer than `2^31` customers and
groups: `score_value` computes finite scores, each within `1.25e-4` of the logarithm of the exact
probability of that group, and the probabilities sum to one within `2.5e-4`. -/
theorem C75_pitman_yor (lvl : Nat) (alpha d : ℝ) (ha1 : 1 / 2 ^ 40 ≤ alpha) (ha2 : alpha ≤ 2 ^ 40)
    (hd0 : d = 0 ∨ 1 / 2 ^ 40 ≤ d) (hd1 : d ≤ 1 - 1 / 2 ^ 24) (D : Driver) (hD : D.Reachable lvl)
    (l : List Nat) (hl : D.counts = l.map Int.ofNat) (h0 : 0 ∈ l) (hs : l.sum < 2 ^ 31)
    (hlen : l.length < 2 ^ 31) :
    ∃ score : Nat → ℝ, D.scoreValue lvl l.length
        (fun a b c e => .ok (scoreAddValue (⟨⟨alpha⟩, ⟨d⟩⟩ : PitmanYor (Single lib)) a b c e)) =
        .ok (l.map fun n : Nat => ⟨score n⟩) ∧
      (∀ n ∈ l, n ≠ 0 → |score n - Real.log ((n - d) / (l.sum + alpha))| ≤ 125 / 10 ^ 6) ∧
      |score 0 - Real.log ((alpha + d * ((l.length - l.count 0 : ℕ) : ℝ)) /
        ((l.sum + alpha) * (l.count 0 : ℕ)))| ≤ 125 / 10 ^ 6 ∧
      |(l.map fun n : Nat => Real.exp (score n)).sum - 1| ≤ 250 / 10 ^ 6 := by
  have hu := Factor.ulp_nonneg
  have h1 := C12_score_value lvl D hD l hl
    (scoreAddValue (⟨⟨alpha⟩, ⟨d⟩⟩ : PitmanYor (Single lib)))
  have hlen' : D.counts.length = l.length := by rw [hl]; simp
  rw [hlen'] at h1
  have hcl := List.count_le_length (a := 0) (l := l)
  have hcp : 0 < l.count 0 := List.count_pos_iff.mpr h0
  have hK : ((l.length : Int) - (l.count 0 : Nat)) = ((l.length - l.count 0 : ℕ) : Int) := by omega
  rw [hK] at h1
  set K := l.length - l.count 0 with hKdef
  set E := l.count 0 with hE
  have hd0' : 0 ≤ d := by
    rcases hd0 with h | h
    · rw [h]
    · exact le_trans (by positivity) h
  have hE1 : (1 : ℝ) ≤ E := by exact_mod_cast hcp
  have hE2 : (E : ℝ) ≤ 2 ^ 31 := by exact_mod_cast (hcl.trans hlen.le)
  have hK2 : (K : ℝ) ≤ 2 ^ 31 := by exact_mod_cast ((Nat.sub_le _ _).trans hlen.le)
  have hK0 : (0 : ℝ) ≤ K := by positivity
  have hS2 : (l.sum : ℝ) ≤ 2 ^ 31 := by exact_mod_cast hs.le
  have hS0 : (0 : ℝ) ≤ l.sum := by positivity
  set S : ℝ := (l.sum : ℝ) + alpha with hSdef
  have hSl : 1 / 2 ^ 40 ≤ S := by linarith
  have hSu : S ≤ 2 ^ 41 := by
    have : (2 : ℝ) ^ 31 + 2 ^ 40 ≤ 2 ^ 41 := by norm_num
    linarith
  have hSpos : 0 < S := lt_of_lt_of_le (by positivity) hSl
  have fS : Factor (2 * ulp) (nearest (nearest (((l.sum : ℕ) : ℤ) : ℝ) + alpha)) S := by
    have := (range_add (n := ((l.sum : ℕ) : ℤ)) ha1 ha2 (by omega) (by omega)).1
    rw [add_comm alpha, add_comm alpha] at this
    simp only [Int.cast_natCast] at this ⊢
    exact this
  have fSE : Factor (4 * ulp) (nearest (nearest (nearest (((l.sum : ℕ) : ℤ) : ℝ) + alpha) *
      nearest (((E : ℕ) : ℤ) : ℝ))) (S * E) := by
    have hm := fS.mul (Factor.ofInt (n := ((E : ℕ) : ℤ)) (by omega))
    have hh := hm.half (by unfold ulp; norm_num)
    have hse : 1 / 2 ^ 40 * 1 ≤ S * (((E : ℕ) : ℤ) : ℝ) := by push_cast; gcongr
    have := hm.rnd (Or.inr (le_trans (by
      have : (1 : ℝ) / 2 ^ 126 ≤ 1 / 2 ^ 40 / 2 := by norm_num
      linarith) hh))
    push_cast at this ⊢
    exact this.mono (le_of_eq (by ring))
  have fN := new_table (alpha := alpha) (d := d) (K := K) ha1 hd0
  let score : Nat → ℝ := fun n => if n = 0 then
      logf (nearest (nearest (alpha + nearest (d * nearest (((K : ℕ) : ℤ) : ℝ))) /
        nearest (nearest (nearest (((l.sum : ℕ) : ℤ) : ℝ) + alpha) * nearest (((E : ℕ) : ℤ) : ℝ))))
    else logf (nearest (nearest (nearest (((n : ℕ) : ℤ) : ℝ) - d) /
        nearest (nearest (((l.sum : ℕ) : ℤ) : ℝ) + alpha)))
  have hnum : ∀ k : ℝ, k ≤ 7 → 1 / 2 ^ 13 + ulp + k * ulp ≤ 125 / 10 ^ 6 := by
    intro k hk
    have : k * ulp ≤ 7 * ulp := by gcongr
    have : 1 / 2 ^ 13 + ulp + 7 * ulp ≤ 125 / 10 ^ 6 := by unfold ulp; norm_num
    linarith
  have e40 : (1 : ℝ) / 2 ^ 60 ≤ 1 / 2 ^ 40 := by norm_num
  have e44 : (1 : ℝ) / 2 ^ 44 ≤ 1 / 2 ^ 40 := by norm_num
  have e80 : (2 : ℝ) ^ 60 ≤ 2 ^ 80 := by norm_num
  have e24 : (1 : ℝ) / 2 ^ 44 ≤ 1 / 2 ^ 24 := by norm_num
  have e41 : (2 : ℝ) ^ 41 ≤ 2 ^ 60 := by norm_num
  have e31 : (2 : ℝ) ^ 31 ≤ 2 ^ 60 := by norm_num
  have hdK : 0 ≤ d * K := by positivity
  have hdK2 : d * K ≤ 1 * 2 ^ 31 := by
    gcongr
    exact hd1.trans (by norm_num)
  have s0 : |score 0 - Real.log ((alpha + d * K) / (S * E))| ≤ 125 / 10 ^ 6 := by
    have e : score 0 = logf (nearest (nearest (alpha + nearest (d * nearest (((K : ℕ) : ℤ) : ℝ))) /
        nearest (nearest (nearest (((l.sum : ℕ) : ℤ) : ℝ) + alpha) * nearest (((E : ℕ) : ℤ) : ℝ)))) :=
      if_pos rfl
    rw [e]
    have := ratio_log fN fSE (ulp_small (by norm_num)) (ulp_small (by norm_num)) (by linarith)
      (by
        have : (2 : ℝ) ^ 40 + 1 * 2 ^ 31 ≤ 2 ^ 60 := by norm_num
        linarith)
      (by
        have : 1 / 2 ^ 40 * 1 ≤ S * E := by gcongr
        linarith)
      (by
        have h2 : (2 : ℝ) ^ 41 * 2 ^ 31 ≤ 2 ^ 80 := by norm_num
        have h3 : S * E ≤ 2 ^ 41 * 2 ^ 31 := by gcongr
        linarith)
    refine this.trans ((le_of_eq (by ring)).trans (hnum 7 le_rfl))
  have sn : ∀ n ∈ l, n ≠ 0 → |score n - Real.log ((n - d) / S)| ≤ 125 / 10 ^ 6 := by
    intro n hn hn0
    have e : score n = logf (nearest (nearest (nearest (((n : ℕ) : ℤ) : ℝ) - d) /
        nearest (nearest (((l.sum : ℕ) : ℤ) : ℝ) + alpha))) := if_neg hn0
    have hn1 : 1 ≤ n := Nat.one_le_iff_ne_zero.2 hn0
    have hn1' : (1 : ℝ) ≤ n := by exact_mod_cast hn1
    have hnle : (n : ℝ) ≤ l.sum := by exact_mod_cast List.le_sum_of_mem hn
    have fs := size_sub hn1 hd0' hd1
    have hh := fs.half (by unfold ulp; norm_num)
    have fr := fs.rnd (Or.inr (le_trans (by
      have : (1 : ℝ) / 2 ^ 126 ≤ 1 / 2 ^ 24 / 2 := by norm_num
      linarith) hh))
    rw [e]
    have := ratio_log fr fS ((le_of_eq (by ring)).trans (ulp_small (k := 3) (by norm_num)))
      (ulp_small (by norm_num)) (by linarith) (by linarith) (by linarith) (by linarith)
    refine this.trans ((le_of_eq (by ring)).trans (hnum 5 (by norm_num)))
  refine ⟨score, ?_, sn, s0, ?_⟩
  · rw [h1]
    congr 1
    apply List.map_congr_left
    intro n hn
    simp only [scoreAddValue]
    by_cases hn0 : n = 0
    · subst hn0
      simp only [Nat.cast_zero, if_true, score]
      rfl
    · rw [if_neg (by exact_mod_cast hn0)]
      simp only [score, if_neg hn0]
      rfl
  · let p : Nat → ℝ := fun n => (if n = 0 then (alpha + d * K) / (S * E) else 0) +
          (if n = 0 then (0 : ℝ) else (n : ℝ) - d) / S
    have hp0 : p 0 = (alpha + d * K) / (S * E) := by simp [p]
    have hpn : ∀ n, n ≠ 0 → p n = ((n : ℝ) - d) / S := by intro n hn; simp [p, hn]
    have hsum : (l.map p).sum = 1 := by
      simp only [p]
      rw [List.sum_map_add, sum_map_empty_aux]
      have hdiv : (l.map fun n : Nat => (if n = 0 then (0 : ℝ) else (n : ℝ) - d) / S).sum =
          (l.map fun n : Nat => if n = 0 then (0 : ℝ) else (n : ℝ) - d).sum / S := by
        simp only [div_eq_mul_inv]; exact List.sum_map_mul_right l _ _
      rw [hdiv, sum_map_exp_aux, ← hE, ← hKdef]
      have : (E : ℝ) ≠ 0 := by positivity
      field_simp
      rw [hSdef]
      ring
    have := sum_exp_near (Finset.univ : Finset (Fin l.length)) (fun i => score l[(i : ℕ)])
      (fun i => p l[(i : ℕ)])
      (ε := 125 / 10 ^ 6) (by norm_num) (by norm_num)
      (by
        intro i _
        by_cases hi : l[(i : ℕ)] = 0
        · rw [hi, hp0]
          have : 0 < alpha := lt_of_lt_of_le (by positivity) ha1
          positivity
        · rw [hpn _ hi]
          have : (1 : ℝ) ≤ (l[(i : ℕ)] : ℕ) := by exact_mod_cast Nat.one_le_iff_ne_zero.2 hi
          have h24 : (0 : ℝ) < 1 / 2 ^ 24 := by positivity
          refine div_pos ?_ hSpos
          linarith)
      (by
        intro i _
        by_cases hi : l[(i : ℕ)] = 0
        · rw [hi, hp0]; exact s0
        · rw [hpn _ hi]; exact sn _ (List.getElem_mem _) hi)
      (by rw [Fin.sum_univ_fun_getElem l p]; exact hsum)
    rw [Fin.sum_univ_fun_getElem l (fun n => Real.exp (score n))] at this
    refine this.trans (by norm_num)

/-- The hypotheses are met by three nonempty and two empty groups with a discount of one half. -/
example (D : Driver) (hD : D.Reachable 0) (hl : D.counts = [3, 0, 1, 7, 0].map Int.ofNat) :
    ∃ score : Nat → ℝ, D.scoreValue 0 5
        (fun a b c e => .ok (scoreAddValue (⟨⟨1⟩, ⟨1 / 2⟩⟩ : PitmanYor (Single lib)) a b c e)) =
        .ok [⟨score 3⟩, ⟨score 0⟩, ⟨score 1⟩, ⟨score 7⟩, ⟨score 0⟩] := by
  obtain ⟨score, h, -⟩ := C75_pitman_yor (lib := lib) 0 1 (1 / 2) (by norm_num) (by norm_num)
    (by norm_num) (by norm_num) D hD [3, 0, 1, 7, 0] hl (by decide) (by decide) (by decide)
  exact ⟨score, h⟩

end Single

end Dist
