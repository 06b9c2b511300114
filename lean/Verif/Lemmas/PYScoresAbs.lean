import Verif.Base.XA
import Verif.Lemmas.PYScores
import Verif.Props.PitmanYor

/-! Pitman-Yor scores for negative concentration, with the logarithm and log-gamma function of
the library (`XA`). -/

namespace Dist

open Spec FloatOps FloatNotation

namespace PitmanYor

variable {alpha d : ℝ}

/-- Parameters as exact numbers. -/
abbrev exA (alpha d : ℝ) : PitmanYor XA := ⟨XA.fin alpha, XA.fin d⟩

open XA in
theorem scoreLoop_extends (counts : List Nat) (s : XR) (s' : XA) (h : Extends s s') (n k : Nat) :
    Extends (scoreLoop (ex alpha d) counts s n k) (scoreLoop (exA alpha d) counts s' n k) := by
  induction counts generalizing s s' n k with
  | nil => exact h
  | cons c cs ih =>
    have ha := Extends.fin alpha
    have hd := Extends.fin d
    unfold scoreLoop
    split_ifs with h0 h1 h2
    · exact ih _ _ h n k
    · exact ih _ _ (h.add (((ha.add (hd.mul (.ofInt k))).div (ha.add (.ofInt n))).log)) _ _
    · exact ih _ _ (h.add ((((ha.add (hd.mul (.ofInt k))).mul ((Extends.ofInt 1).sub hd)).div
        ((ha.add (.ofInt n)).mul ((ha.add (.ofInt n)).add (.ofInt 1)))).log)) _ _
    · exact ih _ _ (((h.add (ha.add (hd.mul (.ofInt k))).log).add
        ((((Extends.ofInt 1).sub hd).add (.ofInt _)).lgamma.sub ((Extends.ofInt 1).sub hd).lgamma)).sub
        (((ha.add (.ofInt n)).add (.ofInt c)).lgamma.sub (ha.add (.ofInt n)).lgamma)) _ _

theorem lgamma_total_neg (h1 : -1 < alpha) (h0 : alpha ≠ 0) (c : Nat) :
    Real.log (Real.Gamma (alpha + ((c + 1 : Nat) : ℝ))) - Real.log (Real.Gamma alpha) =
      Real.log alpha + totalTerm alpha (c + 1) := by
  have h := lgamma_total (alpha := alpha) (n := 1) (by push_cast; linarith) (by omega) c
  have e1 : (alpha + ((c + 1 : Nat) : ℝ)) = alpha + ((1 : Nat) : ℝ) + c := by push_cast; ring
  have e2 : totalTerm alpha 1 = 0 := by simp [totalTerm]
  have hG : Real.Gamma alpha ≠ 0 := by
    apply Real.Gamma_ne_zero
    intro m hm
    rcases m with _ | m
    · exact h0 (by simpa using hm)
    · have : (0 : ℝ) ≤ m := Nat.cast_nonneg m
      push_cast at hm; linarith
  have e3 : Real.log (Real.Gamma (alpha + ((1 : Nat) : ℝ))) = Real.log alpha + Real.log (Real.Gamma alpha) := by
    push_cast
    rw [Real.Gamma_add_one h0, Real.log_mul h0 hG]
  rw [e1, add_comm c 1]
  linarith

/-- `score_counts` for every admissible `alpha` other than 0. -/
theorem scoreCountsA_eq (hp : Admissible alpha d) (h0 : alpha ≠ 0) (counts : List Nat) :
    scoreCounts (exA alpha d) counts = XA.fin (logEppf alpha d counts) := by
  obtain ⟨hd0, hd1, had⟩ := id hp
  by_cases hf : Fine alpha counts
  · exact scoreLoop_extends counts _ _ (.ofInt 0) 0 0 _ (by
      have := scoreCounts_eq hp counts hf
      exact this)
  · -- negative `alpha`, and a first group of three or more
    rw [C15_empty_groups]
    have hne : logEppf alpha d counts = logEppf alpha d (counts.filter fun c => c ≠ 0) :=
      logEppf_perm (by simp)
    rw [hne]
    have hpos : ∀ c ∈ counts.filter fun c => c ≠ 0, c ≠ 0 := by
      intro c hc; simpa using (List.mem_filter.mp hc).2
    unfold Fine at hf
    rw [not_or] at hf
    obtain ⟨hneg, hbig⟩ := hf
    generalize (counts.filter fun c => c ≠ 0) = cs at hbig hpos ⊢
    cases cs with
    | nil => exact absurd ⟨h0, by simp⟩ hbig
    | cons c cs =>
      have hc3 : ¬ c ≤ 2 := by
        intro h
        exact hbig ⟨h0, by simp; omega⟩
      have h1d : 0 < 1 - d := by linarith
      have hnpole : ∀ {x : ℝ}, 0 < x → ∀ n : ℕ, x ≠ -n := by
        intro x hx n hn
        have : (0 : ℝ) ≤ n := Nat.cast_nonneg n
        linarith
      have hapole : ∀ n : ℕ, alpha ≠ -n := by
        intro m hm
        rcases m with _ | m
        · exact h0 (by simpa using hm)
        · have : (0 : ℝ) ≤ m := Nat.cast_nonneg m
          push_cast at hm; linarith
      obtain ⟨c', rfl⟩ : ∃ c', c = c' + 1 := ⟨c - 1, by omega⟩
      have hcr : (2 : ℝ) ≤ c' := by exact_mod_cast (by omega : 2 ≤ c')
      -- the rest of the loop is unexceptional
      have hrest := scoreLoop_extends (alpha := alpha) (d := d) cs
        (.fin (sizeTerm d c' - totalTerm alpha (c' + 1))) _ (.fin _) (0 + (c' + 1)) (0 + 1) _
        (scoreLoop_eq hp cs _ (0 + (c' + 1)) (0 + 1) (by omega) (by omega) (by omega))
      unfold scoreCounts scoreLoop
      rw [if_neg (by omega), if_neg (by omega), if_neg (by omega)]
      simp only [lgammaRatio, XA.ofInt_eq, Nat.cast_zero, Int.cast_zero, mul_zero, add_zero, XA.fin_mul,
        XA.fin_add, XA.fin_sub, Int.cast_one, Int.cast_natCast, Nat.add_sub_cancel]
      rw [XA.log_fin h0, XA.lgamma_fin (hnpole h1d), XA.lgamma_fin (hnpole (by linarith)),
        XA.lgamma_fin hapole, XA.lgamma_fin (hnpole (by push_cast; linarith))]
      simp only [XA.fin_add, XA.fin_sub]
      rw [lgamma_size hd1, lgamma_total_neg (by linarith) h0]
      have e : 0 + Real.log alpha + sizeTerm d c' - (Real.log alpha + totalTerm alpha (c' + 1)) =
          sizeTerm d c' - totalTerm alpha (c' + 1) := by ring
      rw [e, hrest]
      congr 1
      have hff : ((c' + 1) :: cs).filter (fun c => c ≠ 0) = (c' + 1) :: cs.filter fun c => c ≠ 0 := by
        simp
      rw [logEppf, hff]
      have hK1 : tableTerm alpha d (0 + 1) = 0 := by simp [tableTerm]
      rw [hK1]
      simp only [List.length_cons, List.map_cons, List.sum_cons, Nat.add_sub_cancel]
      rw [zero_add (c' + 1), zero_add 1, add_comm 1]
      ring

theorem seatingScoreA_eq (hp : Admissible alpha d) (h0 : alpha ≠ 0) (a : List Nat) :
    seatingScore (exA alpha d) a = XA.fin (logSeq alpha d a) := by
  have key : XA.Extends (seatingScore (ex alpha d) a) (seatingScore (exA alpha d) a) := by
    induction a using List.reverseRecOn with
    | nil => exact XA.Extends.ofInt 0
    | append_singleton a x ih =>
      rw [seatingScore_append, seatingScore_append]
      refine ih.add ?_
      have ha := XA.Extends.fin alpha
      have hd := XA.Extends.fin d
      unfold scoreAddValue
      split_ifs
      · exact ((ha.add (hd.mul (.ofInt _))).div (((XA.Extends.ofInt _).add ha).mul (.ofInt _))).log
      · exact (((XA.Extends.ofInt _).sub hd).div ((XA.Extends.ofInt _).add ha)).log
  exact key _ (seatingScore_eq hp h0 a)

end PitmanYor
end Dist
