import Verif.Lemmas.HalfStep
import Verif.Lemmas.LgammaCheck

/-!
# The polynomials of `fast_lgamma_nu` against `log Γ(ν/2 + 1/2) - log Γ(ν/2)`

The octaves `[2^c, 2^(c+1)]`, `c = -4, …, 31`, are numbered by `t = c + 4` and cut into eight pieces.
Small arguments are first moved to the right, where the asymptotic formula is good.
-/

namespace Dist.LG

open Enc Special

/-- The argument of the series for `log z`. -/
def lnArg (z : ℕ) : ℚ := 1 - (z : ℚ) / 2 ^ Nat.log2 (z * 3 / 2)

/-- `log z`, to 7 digits. -/
def lnApprox (z : ℕ) : ℚ := (Nat.log2 (z * 3 / 2) : ℚ) * ln2 - logSeries (lnArg z) 16

def lnOk (z : ℕ) : Bool :=
  decide (0 < z) && decide (|lnArg z| ≤ 1 / 3) && decide (Nat.log2 (z * 3 / 2) ≤ 50)

theorem lnApprox_error {z : ℕ} (h : lnOk z = true) :
    |Real.log z - (lnApprox z : ℝ)| ≤ 2 / 10 ^ 8 := by
  unfold lnOk at h
  unfold lnApprox
  simp only [Bool.and_eq_true, decide_eq_true_eq] at h
  obtain ⟨⟨hz, hx⟩, hk⟩ := h
  have hlog : Real.log z = (Nat.log2 (z * 3 / 2) : ℝ) * Real.log 2 +
      Real.log (1 - (lnArg z : ℝ)) := by
    have hz' : (0 : ℝ) < z := by exact_mod_cast hz
    have : (1 : ℝ) - (lnArg z : ℝ) = z / 2 ^ Nat.log2 (z * 3 / 2) := by
      unfold lnArg; push_cast; ring
    rw [this, Real.log_div hz'.ne' (by positivity), Real.log_pow]
    ring
  generalize Nat.log2 (z * 3 / 2) = k at *
  generalize lnArg z = x at *
  have hxr : |(x : ℝ)| ≤ 1 / 3 := by
    have := (Rat.cast_le (K := ℝ)).2 hx
    push_cast at this
    exact this
  have h1 := Real.abs_log_sub_add_sum_range_le (x := (x : ℝ)) (by linarith) 16
  rw [← logSeries_cast] at h1
  have h2 : |(x : ℝ)| ^ (16 + 1) / (1 - |(x : ℝ)|) ≤ 15 / 10 ^ 9 := by
    have ha : |(x : ℝ)| ^ (16 + 1) ≤ (1 / 3) ^ 17 := by gcongr
    rw [div_le_iff₀ (by linarith)]
    refine ha.trans (le_trans ?_ (mul_le_mul_of_nonneg_left
      (by linarith : (2 : ℝ) / 3 ≤ 1 - |(x : ℝ)|) (by norm_num)))
    norm_num
  have h3 := ln2_error
  have hk' : (k : ℝ) ≤ 50 := by exact_mod_cast hk
  have h4 : |(k : ℝ) * (Real.log 2 - (ln2 : ℝ))| ≤ 50 * (1 / 10 ^ 15) := by
    rw [abs_mul, abs_of_nonneg (Nat.cast_nonneg k)]
    refine mul_le_mul hk' ?_ (abs_nonneg _) (by norm_num)
    push_cast at h3
    exact h3
  have h5 := h1.trans h2
  rw [hlog]
  push_cast
  rw [abs_le] at h4 h5 ⊢
  norm_num at h4 h5 ⊢
  constructor <;> linarith

/-- The middle of a piece, half its width. -/
def nuMid (t j : ℕ) : ℚ := 2 ^ t * (17 + 2 * j) / 256
def nuRad (t : ℕ) : ℚ := 2 ^ t / 256

/-- `log (ν + k)`. -/
def nuLog (t j k : ℕ) : Enc :=
  Enc.log (nuRad t) (nuMid t j + k) (lnApprox (2 ^ t * (17 + 2 * j) + 256 * k) - 8 * ln2)
    (3 / 10 ^ 8) 6

theorem nuMid_rad (t j : ℕ) : 0 < nuRad t ∧ nuRad t < nuMid t j := by
  have h : (0 : ℚ) < 2 ^ t := by positivity
  have hj : (0 : ℚ) ≤ j := by positivity
  unfold nuRad nuMid
  constructor
  · positivity
  · nlinarith

theorem nuLog_holds {t j k : ℕ} (h : lnOk (2 ^ t * (17 + 2 * j) + 256 * k) = true) :
    Holds (nuRad t) (nuLog t j k) fun w => Real.log (nuMid t j + w + k) := by
  obtain ⟨h0, h1⟩ := nuMid_rad t j
  have hk : (0 : ℚ) ≤ k := by positivity
  have herr : |Real.log ((nuMid t j + k : ℚ) : ℝ) -
      ((lnApprox (2 ^ t * (17 + 2 * j) + 256 * k) - 8 * ln2 : ℚ) : ℝ)| ≤
      ((3 / 10 ^ 8 : ℚ) : ℝ) := by
    have e1 := lnApprox_error h
    have e2 := ln2_error
    have e3 : Real.log ((nuMid t j + k : ℚ) : ℝ) =
        Real.log ((2 ^ t * (17 + 2 * j) + 256 * k : ℕ) : ℝ) - 8 * Real.log 2 := by
      have : ((nuMid t j + k : ℚ) : ℝ) = ((2 ^ t * (17 + 2 * j) + 256 * k : ℕ) : ℝ) / 2 ^ 8 := by
        unfold nuMid; push_cast; ring
      rw [this, Real.log_div (by positivity) (by positivity), Real.log_pow]
      norm_num
    rw [e3, Rat.cast_sub]
    generalize Real.log ((2 ^ t * (17 + 2 * j) + 256 * k : ℕ) : ℝ) = u at *
    generalize lnApprox _ = v at *
    push_cast at e2 ⊢
    rw [abs_le] at e1 e2 ⊢
    norm_num at e1 e2 ⊢
    constructor <;> linarith
  have H := Enc.log_holds (h := nuRad t) (m := nuMid t j + k) h0.le (by linarith) herr 6
  intro w hw
  have := H w hw
  push_cast at this
  show |Real.log (nuMid t j + w + k) - _| ≤ _
  rw [add_right_comm]
  exact this

/-- The alternating sum of logarithms. -/
def nuShift (t j : ℕ) : ℕ → Enc
  | 0 => ⟨[], 0⟩
  | n + 1 => add (nuShift t j n) (smul ((-1) ^ n) (nuLog t j n))

theorem nuShift_holds {t j : ℕ} (n : ℕ)
    (h : ∀ k < n, lnOk (2 ^ t * (17 + 2 * j) + 256 * k) = true) :
    Holds (nuRad t) (nuShift t j n) fun w =>
      ∑ k ∈ Finset.range n, (-1) ^ k * Real.log (nuMid t j + w + k) := by
  induction n with
  | zero => intro w _; simp [nuShift]
  | succ n ih =>
    have h2 := add_holds (ih fun k hk => h k (by omega))
      (smul_holds ((-1) ^ n) (nuLog_holds (h n (by omega))))
    intro w hw
    have := h2 w hw
    push_cast at this
    simp only [Finset.sum_range_succ]
    exact this

/-- How far the argument is moved. -/
def nuSteps (t : ℕ) : ℕ := if t < 8 then 5 else 0

/-- The polynomial of an octave; two octaves share one. -/
def nuCoeffs (t : ℕ) : List ℚ := ((lgammaNuCoeff3.drop (t / 2 * 4)).take 4).reverse.map dec

/-- The polynomial minus the function. -/
def nuErr (t j : ℕ) : Enc :=
  let N := nuSteps t
  let M := nuMid t j
  let h := nuRad t
  add (add (ofPoly (pshift M (nuCoeffs t))) (smul (-1) (nuShift t j (2 * N))))
    (add (add (smul (-1 / 2) (nuLog t j (2 * N))) (ofPoly [ln2 / 2]))
      (add (smul (1 / 4) (Enc.inv h (M + (2 * N : ℕ)) 6))
        ⟨[], 2 / (9 * (M - h + (2 * N : ℕ)) ^ 3) + 1 / 10 ^ 15⟩))

def nuOk (t j : ℕ) : Bool :=
  ((List.range (2 * nuSteps t + 1)).all fun k => lnOk (2 ^ t * (17 + 2 * j) + 256 * k)) &&
    decide (2 ≤ nuMid t j - nuRad t + (2 * nuSteps t : ℕ)) &&
    pcheck (16 / 1000 - (nuErr t j).e) 4 (nuRad t) (nuErr t j).p

theorem nuErr_holds {t j : ℕ}
    (hok : ∀ k < 2 * nuSteps t + 1, lnOk (2 ^ t * (17 + 2 * j) + 256 * k) = true)
    (hbig : 2 ≤ nuMid t j - nuRad t + (2 * nuSteps t : ℕ)) :
    Holds (nuRad t) (nuErr t j) fun w =>
      peval (nuCoeffs t) (nuMid t j + w) - halfStep ((nuMid t j + w) / 2) := by
  obtain ⟨h0, h1⟩ := nuMid_rad t j
  unfold nuErr
  generalize nuSteps t = N at *
  simp only
  have hsh := nuShift_holds (t := t) (j := j) (2 * N) fun k hk => hok k (by omega)
  have hlog := nuLog_holds (hok (2 * N) (by omega))
  have hinv := Enc.inv_holds (h := nuRad t) (m := nuMid t j + (2 * N : ℕ)) h0.le
    (by have : (0 : ℚ) ≤ (2 * N : ℕ) := by positivity
        linarith) 6
  have hlast : Holds (nuRad t) ⟨[], 2 / (9 * (nuMid t j - nuRad t + (2 * N : ℕ)) ^ 3) + 1 / 10 ^ 15⟩
      fun w => -(halfStep ((nuMid t j + w) / 2 + N) -
        (Real.log ((nuMid t j + w) / 2 + N) / 2 - 1 / (8 * ((nuMid t j + w) / 2 + N)))) +
        (Real.log 2 - ln2) / 2 := by
    intro w hw
    have hw' := abs_le.1 hw
    have hb : (2 : ℝ) ≤ (nuMid t j : ℝ) - nuRad t + 2 * N := by
      have := (Rat.cast_le (K := ℝ)).2 hbig
      push_cast at this
      exact this
    have hx : 1 ≤ ((nuMid t j : ℝ) + w) / 2 + N := by linarith
    have hA := halfStep_asymp hx
    have h3 : 1 / (36 * (((nuMid t j : ℝ) + w) / 2 + N) ^ 3) ≤
        2 / (9 * ((nuMid t j : ℝ) - nuRad t + 2 * N) ^ 3) := by
      have hp : (0 : ℝ) < (nuMid t j : ℝ) - nuRad t + 2 * N := by linarith
      rw [div_le_div_iff₀ (by positivity) (by positivity)]
      have : ((nuMid t j : ℝ) - nuRad t + 2 * N) ^ 3 ≤ ((nuMid t j : ℝ) + w + 2 * N) ^ 3 := by
        gcongr; linarith
      have e : ((nuMid t j : ℝ) + w) / 2 + N = ((nuMid t j : ℝ) + w + 2 * N) / 2 := by ring
      rw [e, div_pow]
      linarith
    have hl := ln2_error
    simp only [peval_nil, sub_zero]
    push_cast at hl ⊢
    rw [abs_le] at hA hl ⊢
    constructor <;> linarith
  have H := add_holds (add_holds (ofPoly_holds (h := nuRad t) (pshift (nuMid t j) (nuCoeffs t)))
    (smul_holds (-1) hsh)) (add_holds (add_holds (smul_holds (-1 / 2) hlog) (ofPoly_holds [ln2 / 2]))
      (add_holds (smul_holds (1 / 4) hinv) hlast))
  intro w hw
  have := H w hw
  refine le_trans (le_of_eq ?_) this
  congr 1
  refine congrArg (· - _) ?_
  have hw' := abs_le.1 hw
  have hpos : (0 : ℝ) < nuMid t j + w := by
    have : (0 : ℝ) < (nuMid t j : ℝ) - nuRad t := by
      have : (0 : ℚ) < nuMid t j - nuRad t := by linarith
      exact_mod_cast this
    linarith
  have hsum := halfStep_shift hpos N
  have hx : (0 : ℝ) < (nuMid t j + w) / 2 + N := by positivity
  have hl2 : Real.log ((nuMid t j + w) / 2 + N) =
      Real.log (nuMid t j + w + (2 * N : ℕ)) - Real.log 2 := by
    rw [← Real.log_div (by positivity) two_ne_zero]
    congr 1
    push_cast
    ring
  have hi : 1 / (8 * (((nuMid t j : ℝ) + w) / 2 + N)) =
      1 / 4 * ((nuMid t j : ℝ) + w + (2 * N : ℕ))⁻¹ := by
    push_cast
    field_simp
    ring
  simp only []
  rw [hsum, hi, hl2]
  simp only [peval_pshift, peval_cons, peval_nil]
  push_cast
  rw [show (nuMid t j : ℝ) + 2 * N + w = nuMid t j + w + 2 * N by ring]
  simp only [one_div]
  ring

theorem nu_piece {t j : ℕ} (h : nuOk t j = true) {y : ℝ} (hy : |y - (nuMid t j : ℝ)| ≤ nuRad t) :
    |peval (nuCoeffs t) y - halfStep (y / 2)| ≤ 16 / 1000 := by
  unfold nuOk at h
  simp only [Bool.and_eq_true, decide_eq_true_eq, List.all_eq_true, List.mem_range] at h
  obtain ⟨⟨hok, hbig⟩, hp⟩ := h
  have h1 := nuErr_holds hok hbig (y - nuMid t j) hy
  have h2 := pcheck_sound 4 hp hy
  simp only [add_sub_cancel] at h1
  push_cast at h2
  have e : peval (nuCoeffs t) y - halfStep (y / 2) =
      (peval (nuCoeffs t) y - halfStep (y / 2) - peval (nuErr t j).p (y - nuMid t j)) +
        peval (nuErr t j).p (y - nuMid t j) := by ring
  rw [e]
  refine (abs_add_le _ _).trans ?_
  linarith

theorem nu_allOk : ∀ t ∈ List.range 36, ∀ j ∈ List.range 8, nuOk t j = true := by
  decide +kernel

/-- **The polynomials are accurate** to sixteen thousandths. -/
theorem nu_accurate {t : ℕ} (ht : t < 36) {y : ℝ} (h1 : 2 ^ t / 16 ≤ y) (h2 : y < 2 ^ (t + 1) / 16) :
    |peval (nuCoeffs t) y - halfStep (y / 2)| ≤ 16 / 1000 := by
  have hp : (0 : ℝ) < 2 ^ t / 16 := by positivity
  have hx0 : 0 ≤ (y / (2 ^ t / 16) - 1) * 8 := by
    have : 1 ≤ y / (2 ^ t / 16) := (one_le_div hp).2 h1
    linarith
  obtain ⟨j, hj⟩ : ∃ j : ℕ, j = ⌊(y / (2 ^ t / 16) - 1) * 8⌋₊ := ⟨_, rfl⟩
  have hj1 : (j : ℝ) ≤ (y / (2 ^ t / 16) - 1) * 8 := hj ▸ Nat.floor_le hx0
  have hj2 : (y / (2 ^ t / 16) - 1) * 8 < j + 1 := hj ▸ Nat.lt_floor_add_one _
  have e : y / (2 ^ t / 16) * (2 ^ t / 16) = y := div_mul_cancel₀ _ hp.ne'
  have hj8 : j < 8 := by
    have : y / (2 ^ t / 16) < 2 := by rw [div_lt_iff₀ hp]; rw [pow_succ] at h2; linarith
    have : (j : ℝ) < 8 := by linarith
    exact_mod_cast this
  refine nu_piece (nu_allOk t (List.mem_range.2 ht) j (List.mem_range.2 hj8)) ?_
  unfold nuMid nuRad
  push_cast
  set q := y / (2 ^ t / 16)
  rw [← e, abs_le]
  constructor <;> nlinarith

end Dist.LG
