import Mathlib.Analysis.Real.Pi.Bounds
import Verif.Lemmas.Enclose
import Verif.Lemmas.LogBound
import Verif.Lemmas.StirlingReal
import Verif.Model.Special

/-!
# The polynomials of `fast_lgamma` against `log Γ`

Each octave `[2^c, 2^(c+1)]` is cut into eight pieces.  On each of them the difference between the
polynomial and Stirling's formula is enclosed, and the kernel bounds the enclosure.
-/

namespace Dist.LG

open Enc Special

/-- The value of a literal. -/
def dec (t : Int × Int) : ℚ :=
  if 0 ≤ t.2 then t.1 * 10 ^ t.2.toNat else t.1 / 10 ^ (-t.2).toNat

def ln2 : ℚ := 693147180559945 / 10 ^ 15

/-- `log 17`, `log 19`, …, `log 31`. -/
def lnOdd : List ℚ := [2833213344056216 / 10 ^ 15, 2944438979166440 / 10 ^ 15,
  3044522437723423 / 10 ^ 15, 3135494215929150 / 10 ^ 15, 3218875824868201 / 10 ^ 15,
  3295836866004329 / 10 ^ 15, 3367295829986474 / 10 ^ 15, 3433987204485146 / 10 ^ 15]

/-- `log (2π) / 2`. -/
def half2pi : ℚ := 918938533 / 10 ^ 9

theorem ln2_error : |Real.log 2 - (ln2 : ℝ)| ≤ ((1 / 10 ^ 15 : ℚ) : ℝ) := by
  have h : logCheck (1 / 10 ^ 15) 2 ln2 = true := by decide +kernel
  simpa using logCheck_sound h

theorem lnOdd_error {j : ℕ} (hj : j < 8) :
    |Real.log (17 + 2 * j : ℕ) - (lnOdd.getD j 0 : ℝ)| ≤ ((1 / 10 ^ 15 : ℚ) : ℝ) := by
  have h : ∀ j ∈ List.range 8, logCheck (1 / 10 ^ 15) (17 + 2 * j) (lnOdd.getD j 0) = true := by
    decide +kernel
  exact logCheck_sound (h j (List.mem_range.2 hj))

theorem half2pi_error : |Real.log (2 * Real.pi) / 2 - (half2pi : ℝ)| ≤ 1 / 10 ^ 6 := by
  have h1 : logCheck (1 / 10 ^ 9) 3141592 (14960240236 / 10 ^ 9) = true := by decide +kernel
  have h2 : logCheck (1 / 10 ^ 9) 3141593 (14960240554 / 10 ^ 9) = true := by decide +kernel
  have h3 : logCheck (1 / 10 ^ 9) 1000000 (13815510558 / 10 ^ 9) = true := by decide +kernel
  have h1 := abs_le.1 (logCheck_sound h1)
  have h2 := abs_le.1 (logCheck_sound h2)
  have h3 := abs_le.1 (logCheck_sound h3)
  have h4 := abs_le.1 ln2_error
  push_cast at h1 h2 h3 h4
  unfold ln2 at h4
  push_cast at h4
  have l1 : Real.log 3141592 - Real.log 1000000 ≤ Real.log Real.pi := by
    rw [← Real.log_div (by norm_num) (by norm_num)]
    exact Real.log_le_log (by norm_num) (by have := Real.pi_gt_d6; norm_num at this ⊢; linarith)
  have l2 : Real.log Real.pi ≤ Real.log 3141593 - Real.log 1000000 := by
    rw [← Real.log_div (by norm_num) (by norm_num)]
    exact Real.log_le_log Real.pi_pos (by have := Real.pi_lt_d6; norm_num at this ⊢; linarith)
  rw [Real.log_mul two_ne_zero Real.pi_pos.ne', abs_le]
  unfold half2pi
  push_cast
  norm_num at h1 h2 h3 h4 ⊢
  constructor <;> linarith

/-- The middle of a piece. -/
def mid (c j : ℕ) : ℚ := 2 ^ c * (17 + 2 * j) / 16

/-- Half its width. -/
def rad (c : ℕ) : ℚ := 2 ^ c / 16

/-- `log` of the middle. -/
def lnMid (c j : ℕ) : ℚ := lnOdd.getD j 0 + ((c : ℚ) - 4) * ln2

theorem lnMid_error (c : ℕ) {j : ℕ} (hj : j < 8) :
    |Real.log (mid c j : ℚ) - (lnMid c j : ℝ)| ≤ (((c + 5) / 10 ^ 15 : ℚ) : ℝ) := by
  have h1 := lnOdd_error hj
  have h2 := ln2_error
  have e : Real.log (mid c j : ℚ) = Real.log (17 + 2 * j : ℕ) + ((c : ℝ) - 4) * Real.log 2 := by
    have : ((mid c j : ℚ) : ℝ) = (17 + 2 * j : ℕ) * 2 ^ c / 2 ^ 4 := by
      unfold mid; push_cast; ring
    rw [this, Real.log_div (by positivity) (by positivity),
      Real.log_mul (by positivity) (by positivity), Real.log_pow, Real.log_pow]
    push_cast; ring
  have e2 : Real.log (mid c j : ℚ) - (lnMid c j : ℝ) =
      (Real.log (17 + 2 * j : ℕ) - (lnOdd.getD j 0 : ℝ)) +
        ((c : ℝ) - 4) * (Real.log 2 - (ln2 : ℝ)) := by
    rw [e, lnMid]; push_cast; ring
  rw [e2]
  refine (abs_add_le _ _).trans ?_
  rw [abs_mul]
  have hc : |(c : ℝ) - 4| ≤ c + 4 := by
    have : (0 : ℝ) ≤ c := by positivity
    rw [abs_le]; constructor <;> linarith
  have h3 := mul_le_mul hc h2 (abs_nonneg _) (by positivity)
  push_cast at h1 h3 ⊢
  refine (add_le_add h1 h3).trans (le_of_eq ?_)
  ring

/-- The polynomial of an octave. -/
def coeffs (c : ℕ) : List ℚ := ((lgammaCoeff5.drop (6 * c)).take 6).reverse.map dec

/-- The polynomial minus `log Γ`. -/
def errEnc (c j : ℕ) : Enc :=
  let M := mid c j
  let h := rad c
  let P := ofPoly (pshift M (coeffs c))
  let L := Enc.log h M (lnMid c j) ((c + 5) / 10 ^ 15) 6
  let V := Enc.inv h M 6
  let V3 := mul h V (mul h V V)
  add (add (add P (mul h (ofPoly [1 / 2 - M, -1]) L)) (ofPoly [M - half2pi, 1]))
    (add (add (smul (-1 / 12) V) (smul (1 / 360) V3)) ⟨[], 1 / (1260 * (M - h) ^ 5) + 1 / 10 ^ 6⟩)

/-- The check of one piece. -/
def pieceOk (c j : ℕ) : Bool :=
  pcheck ((mid c j - rad c) / 10 ^ 5 - (errEnc c j).e) 4 (rad c) (errEnc c j).p

theorem mid_rad (c j : ℕ) : 0 < rad c ∧ 2 ^ c ≤ mid c j - rad c := by
  have h : (0 : ℚ) < 2 ^ c := by positivity
  have hj : (0 : ℚ) ≤ j := by positivity
  unfold rad mid
  constructor
  · positivity
  · nlinarith

theorem errEnc_holds (c : ℕ) {j : ℕ} (hj : j < 8) : Holds (rad c) (errEnc c j) fun w =>
    peval (coeffs c) (mid c j + w) - Real.log (Real.Gamma (mid c j + w)) := by
  obtain ⟨hr, hm⟩ := mid_rad c j
  have h1c : (1 : ℚ) ≤ 2 ^ c := one_le_pow₀ (by norm_num)
  have hlog := Enc.log_holds (h := rad c) (m := mid c j) hr.le (by linarith) (lnMid_error c hj) 6
  have hinv := Enc.inv_holds (h := rad c) (m := mid c j) hr.le (by linarith) 6
  have hlast : Holds (rad c) ⟨[], 1 / (1260 * (mid c j - rad c) ^ 5) + 1 / 10 ^ 6⟩ fun w =>
      phi2 (mid c j + w) - rest (mid c j + w) - (Real.log (2 * Real.pi) / 2 - half2pi) := by
    intro w hw
    have hw' := abs_le.1 hw
    have h1 : (1 : ℝ) ≤ (mid c j : ℝ) - rad c := by
      have : (1 : ℚ) ≤ mid c j - rad c := by linarith
      exact_mod_cast this
    have hx : (1 : ℝ) ≤ mid c j + w := by linarith
    obtain ⟨s1, s2⟩ := stirling hx
    rw [phi3] at s2
    have h5 : 1 / (1260 * ((mid c j : ℝ) + w) ^ 5) ≤ 1 / (1260 * ((mid c j : ℝ) - rad c) ^ 5) := by
      have : (0 : ℝ) < (mid c j : ℝ) - rad c := by linarith
      gcongr
      linarith
    have hp := abs_le.1 half2pi_error
    simp only [peval_nil, sub_zero]
    push_cast
    rw [abs_le]
    constructor <;> linarith
  have H := add_holds (add_holds (add_holds (ofPoly_holds (h := rad c) (pshift (mid c j) (coeffs c)))
    (mul_holds (ofPoly_holds [1 / 2 - mid c j, -1]) hlog)) (ofPoly_holds [mid c j - half2pi, 1]))
    (add_holds (add_holds (smul_holds (-1 / 12) hinv)
      (smul_holds (1 / 360) (mul_holds hinv (mul_holds hinv hinv)))) hlast)
  intro w hw
  have := H w hw
  refine le_trans (le_of_eq ?_) this
  congr 1
  unfold errEnc
  refine congrArg (· - _) ?_
  have hw' := abs_le.1 hw
  have hpos : (0 : ℝ) < mid c j + w := by
    have : (0 : ℚ) < mid c j - rad c := by linarith
    have : (0 : ℝ) < (mid c j : ℝ) - rad c := by exact_mod_cast this
    linarith
  simp only [peval_pshift, peval_cons, peval_nil]
  unfold phi2 rest
  push_cast
  field_simp
  ring

theorem piece_sound {c j : ℕ} (hj : j < 8) (h : pieceOk c j = true) {y : ℝ}
    (hy : |y - (mid c j : ℝ)| ≤ rad c) :
    |peval (coeffs c) y - Real.log (Real.Gamma y)| ≤ y / 10 ^ 5 := by
  have h1 := errEnc_holds c hj (y - mid c j) hy
  have h2 := pcheck_sound 4 h hy
  simp only [add_sub_cancel] at h1
  push_cast at h2
  have h3 := abs_le.1 hy
  have h4 : ((mid c j : ℝ) - rad c) / 10 ^ 5 ≤ y / 10 ^ 5 := by
    gcongr; linarith
  have e : peval (coeffs c) y - Real.log (Real.Gamma y) =
      (peval (coeffs c) y - Real.log (Real.Gamma y) - peval (errEnc c j).p (y - mid c j)) +
        peval (errEnc c j).p (y - mid c j) := by ring
  rw [e]
  refine (abs_add_le _ _).trans ?_
  linarith

theorem allOk : ∀ c ∈ List.range 31, ∀ j ∈ List.range 8,
    c = 0 ∧ j < 2 ∨ pieceOk (c + 1) j = true := by
  decide +kernel

/-- **The polynomials are accurate.** -/
theorem poly_accurate {c : ℕ} (hc1 : 1 ≤ c) (hc2 : c ≤ 31) {y : ℝ} (h1 : 2 ^ c ≤ y)
    (h2 : y < 2 ^ (c + 1)) (h3 : 5 / 2 ≤ y) :
    |peval (coeffs c) y - Real.log (Real.Gamma y)| ≤ y / 10 ^ 5 := by
  have hp : (0 : ℝ) < 2 ^ c := by positivity
  have hx0 : 0 ≤ (y / 2 ^ c - 1) * 8 := by
    have : 1 ≤ y / 2 ^ c := (one_le_div hp).2 h1
    linarith
  obtain ⟨j, hj⟩ : ∃ j : ℕ, j = ⌊(y / 2 ^ c - 1) * 8⌋₊ := ⟨_, rfl⟩
  have hj1 : (j : ℝ) ≤ (y / 2 ^ c - 1) * 8 := hj ▸ Nat.floor_le hx0
  have hj2 : (y / 2 ^ c - 1) * 8 < j + 1 := hj ▸ Nat.lt_floor_add_one _
  have e : y / 2 ^ c * 2 ^ c = y := div_mul_cancel₀ _ hp.ne'
  have hj8 : j < 8 := by
    have : y / 2 ^ c < 2 := by rw [div_lt_iff₀ hp]; rw [pow_succ] at h2; linarith
    have : (j : ℝ) < 8 := by linarith
    exact_mod_cast this
  have hy : |y - (mid c j : ℝ)| ≤ rad c := by
    unfold mid rad
    push_cast
    set q := y / 2 ^ c
    rw [← e, abs_le]
    constructor <;> nlinarith
  refine piece_sound hj8 ?_ hy
  have hall := allOk (c - 1) (List.mem_range.2 (by omega)) j (List.mem_range.2 hj8)
  rw [Nat.sub_add_cancel hc1] at hall
  rcases hall with ⟨hc, hj3⟩ | h
  · exfalso
    have hc' : c = 1 := by omega
    subst hc'
    have hj3' : (j : ℝ) ≤ 1 := by exact_mod_cast (by omega : j ≤ 1)
    norm_num at hj2
    linarith
  · exact h

end Dist.LG
