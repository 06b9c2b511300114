import Mathlib.Analysis.SpecialFunctions.Log.Deriv
import Mathlib.Tactic.Linarith
import Mathlib.Tactic.Positivity

/-!
# Enclosing functions by polynomials with rational coefficients

A function on `[-h, h]` is enclosed by a polynomial and a bound on the error.  The operations are
computed in rational arithmetic, so that the kernel can evaluate them.
-/

namespace Dist.Enc

/-- The value of a polynomial. -/
noncomputable def peval (p : List ℚ) (w : ℝ) : ℝ := p.foldr (fun a r => a + w * r) 0

def padd : List ℚ → List ℚ → List ℚ
  | [], q => q
  | p, [] => p
  | a :: p, b :: q => (a + b) :: padd p q

def psmul (c : ℚ) (p : List ℚ) : List ℚ := p.map (c * ·)

def pmul : List ℚ → List ℚ → List ℚ
  | [], _ => []
  | a :: p, q => padd (psmul a q) (0 :: pmul p q)

/-- A bound for `|w| ≤ h`. -/
def pabs (h : ℚ) (p : List ℚ) : ℚ := p.foldr (fun a r => |a| + h * r) 0

/-- `p (w + s)` -/
def pshift (s : ℚ) : List ℚ → List ℚ
  | [] => []
  | a :: p => padd [a] (pmul [s, 1] (pshift s p))

@[simp] theorem peval_nil (w : ℝ) : peval [] w = 0 := rfl
@[simp] theorem peval_cons (a : ℚ) (p : List ℚ) (w : ℝ) : peval (a :: p) w = a + w * peval p w := rfl

theorem peval_padd (p q : List ℚ) (w : ℝ) : peval (padd p q) w = peval p w + peval q w := by
  induction p generalizing q with
  | nil => simp [padd]
  | cons a p ih =>
    cases q with
    | nil => simp [padd]
    | cons b q => simp only [padd, peval_cons, ih]; push_cast; ring

theorem peval_psmul (c : ℚ) (p : List ℚ) (w : ℝ) : peval (psmul c p) w = c * peval p w := by
  induction p with
  | nil => simp [psmul]
  | cons a p ih =>
    have : psmul c (a :: p) = (c * a) :: psmul c p := rfl
    rw [this, peval_cons, ih, peval_cons]; push_cast; ring

theorem peval_pmul (p q : List ℚ) (w : ℝ) : peval (pmul p q) w = peval p w * peval q w := by
  induction p with
  | nil => simp [pmul]
  | cons a p ih =>
    rw [pmul, peval_padd, peval_psmul, peval_cons, peval_cons, ih]; push_cast; ring

theorem peval_pshift (s : ℚ) (p : List ℚ) (w : ℝ) : peval (pshift s p) w = peval p (s + w) := by
  induction p with
  | nil => rfl
  | cons a p ih =>
    rw [pshift, peval_padd, peval_pmul, ih]; simp

theorem peval_le {h : ℚ} {w : ℝ} (hw : |w| ≤ h) (p : List ℚ) : |peval p w| ≤ pabs h p := by
  induction p with
  | nil => simp [pabs]
  | cons a p ih =>
    have : pabs h (a :: p) = |a| + h * pabs h p := rfl
    rw [this, peval_cons]
    push_cast
    refine (abs_add_le _ _).trans ?_
    rw [abs_mul]
    gcongr
    exact (abs_nonneg _).trans hw

/-- `|p| ≤ tol` on `[-h, h]`, by halving the interval. -/
def pcheck (tol : ℚ) : ℕ → ℚ → List ℚ → Bool
  | 0, h, p => decide (pabs h p ≤ tol)
  | n + 1, h, p => decide (pabs h p ≤ tol) ||
      (pcheck tol n (h / 2) (pshift (-(h / 2)) p) && pcheck tol n (h / 2) (pshift (h / 2) p))

theorem pcheck_sound {tol : ℚ} (n : ℕ) {h : ℚ} {p : List ℚ} (hc : pcheck tol n h p = true) {w : ℝ}
    (hw : |w| ≤ h) : |peval p w| ≤ tol := by
  have base : ∀ {h : ℚ} {p : List ℚ} {w : ℝ}, pabs h p ≤ tol → |w| ≤ h → |peval p w| ≤ tol :=
    fun h1 h2 => (peval_le h2 _).trans (by exact_mod_cast h1)
  induction n generalizing h p w with
  | zero => exact base (by simpa [pcheck] using hc) hw
  | succ n ih =>
    rw [pcheck, Bool.or_eq_true, Bool.and_eq_true, decide_eq_true_eq] at hc
    rcases hc with hc | ⟨h1, h2⟩
    · exact base hc hw
    · rw [abs_le] at hw
      rcases le_total w 0 with h0 | h0
      · have := ih h1 (w := w + h / 2) (by rw [abs_le]; push_cast; constructor <;> linarith)
        rw [peval_pshift] at this
        push_cast at this
        rwa [show -((h : ℝ) / 2) + (w + h / 2) = w by ring] at this
      · have := ih h2 (w := w - h / 2) (by rw [abs_le]; push_cast; constructor <;> linarith)
        rw [peval_pshift] at this
        push_cast at this
        rwa [show (h : ℝ) / 2 + (w - h / 2) = w by ring] at this

end Dist.Enc

/-- A polynomial and a bound on the error. -/
structure Dist.Enc where
  p : List ℚ
  e : ℚ

namespace Dist.Enc

/-- `f` is enclosed on `[-h, h]`. -/
def Holds (h : ℚ) (E : Enc) (f : ℝ → ℝ) : Prop := ∀ w : ℝ, |w| ≤ h → |f w - peval E.p w| ≤ E.e

def ofPoly (p : List ℚ) : Enc := ⟨p, 0⟩
def add (E F : Enc) : Enc := ⟨padd E.p F.p, E.e + F.e⟩
def smul (c : ℚ) (E : Enc) : Enc := ⟨psmul c E.p, |c| * E.e⟩
def mul (h : ℚ) (E F : Enc) : Enc :=
  ⟨pmul E.p F.p, E.e * pabs h F.p + F.e * pabs h E.p + E.e * F.e⟩

/-- `1/(m+w)`: the geometric series. -/
def invCoeffs (m : ℚ) : ℕ → ℚ → List ℚ
  | 0, _ => []
  | n + 1, a => a :: invCoeffs m n (-a / m)

def inv (h m : ℚ) (n : ℕ) : Enc := ⟨invCoeffs m n (1 / m), (h / m) ^ n / (m - h)⟩

/-- `log (1 + w/m)`: `w/m - (w/m)²/2 + …` from the `i`-th power on, without the factor `wⁱ`. -/
def logCoeffs (m : ℚ) : ℕ → ℕ → ℚ → List ℚ
  | 0, _, _ => []
  | n + 1, i, a => a / i :: logCoeffs m n (i + 1) (-a / m)

/-- `log (m+w)` if `l` is `log m` up to `e`. -/
def log (h m l e : ℚ) (n : ℕ) : Enc :=
  ⟨l :: logCoeffs m n 1 (1 / m), e + (h / m) ^ (n + 1) / (1 - h / m)⟩

variable {h : ℚ} {E F : Enc} {f g : ℝ → ℝ}

theorem ofPoly_holds (p : List ℚ) : Holds h (ofPoly p) (peval p) := fun w _ => by simp [ofPoly]

theorem add_holds (hE : Holds h E f) (hF : Holds h F g) : Holds h (add E F) fun w => f w + g w := by
  intro w hw
  rw [add, peval_padd]
  push_cast
  refine le_trans (le_of_eq ?_) ((abs_add_le _ _).trans (add_le_add (hE w hw) (hF w hw)))
  ring_nf

theorem smul_holds (c : ℚ) (hE : Holds h E f) : Holds h (smul c E) fun w => c * f w := by
  intro w hw
  rw [smul, peval_psmul]
  push_cast
  rw [← mul_sub, abs_mul]
  exact mul_le_mul_of_nonneg_left (hE w hw) (abs_nonneg _)

theorem mul_holds (hE : Holds h E f) (hF : Holds h F g) :
    Holds h (mul h E F) fun w => f w * g w := by
  intro w hw
  have h1 := hE w hw
  have h2 := hF w hw
  have h3 := peval_le hw E.p
  have h4 := peval_le hw F.p
  rw [mul, peval_pmul]
  push_cast
  have e : f w * g w - peval E.p w * peval F.p w =
      (f w - peval E.p w) * peval F.p w + (g w - peval F.p w) * peval E.p w +
        (f w - peval E.p w) * (g w - peval F.p w) := by ring
  have hE0 := (abs_nonneg _).trans h1
  have hF0 := (abs_nonneg _).trans h2
  rw [e]
  refine (abs_add_le _ _).trans (add_le_add ((abs_add_le _ _).trans (add_le_add ?_ ?_)) ?_)
  · rw [abs_mul]; exact mul_le_mul h1 h4 (abs_nonneg _) hE0
  · rw [abs_mul]; exact mul_le_mul h2 h3 (abs_nonneg _) hF0
  · rw [abs_mul]; exact mul_le_mul h1 h2 (abs_nonneg _) hE0

theorem peval_invCoeffs {m : ℚ} (hm : 0 < m) (n : ℕ) (a : ℚ) {w : ℝ} (hw : (m : ℝ) + w ≠ 0) :
    peval (invCoeffs m n a) w = a * m / (m + w) * (1 - (-w / m) ^ n) := by
  have hm' : (m : ℝ) ≠ 0 := by exact_mod_cast hm.ne'
  induction n generalizing a with
  | zero => simp [invCoeffs]
  | succ n ih =>
    rw [invCoeffs, peval_cons, ih, pow_succ]
    push_cast
    field_simp
    ring

theorem inv_holds {m : ℚ} (h0 : 0 ≤ h) (hm : h < m) (n : ℕ) :
    Holds h (inv h m n) fun w => 1 / (m + w) := by
  intro w hw
  have h0' : (0 : ℝ) ≤ h := by exact_mod_cast h0
  have hm' : (h : ℝ) < m := by exact_mod_cast hm
  have hmp : (0 : ℝ) < m := by linarith
  have hw' := abs_le.1 hw
  have hp : 0 < (m : ℝ) + w := by linarith
  rw [inv, peval_invCoeffs (by linarith) n _ hp.ne']
  push_cast
  have e : 1 / ((m : ℝ) + w) - 1 / m * m / (m + w) * (1 - (-w / m) ^ n) =
      (-w / m) ^ n / (m + w) := by
    field_simp; ring
  rw [e, abs_div, abs_pow, abs_div, abs_neg, abs_of_pos hmp, abs_of_pos hp]
  gcongr
  linarith

theorem peval_logCoeffs {m : ℚ} (n i : ℕ) (hi : i ≠ 0) (a : ℚ) (w : ℝ) :
    w ^ i * peval (logCoeffs m n i a) w =
      a * w ^ i * ∑ k ∈ Finset.range n, (-w / m) ^ k / ((i : ℝ) + k) := by
  induction n generalizing i a with
  | zero => simp [logCoeffs]
  | succ n ih =>
    rw [logCoeffs, peval_cons, Finset.sum_range_succ']
    have h1 := ih (i + 1) (by omega) (-a / m)
    have e : w ^ i * ((a / i : ℚ) + w * peval (logCoeffs m n (i + 1) (-a / m)) w) =
        w ^ i * (a / i : ℚ) + w ^ (i + 1) * peval (logCoeffs m n (i + 1) (-a / m)) w := by ring
    rw [e, h1, mul_add, Finset.mul_sum, Finset.mul_sum, add_comm]
    congr 1
    · refine Finset.sum_congr rfl fun k _ => ?_
      push_cast
      rw [show (i : ℝ) + (k + 1) = i + 1 + k by ring]
      ring
    · push_cast; simp; ring

theorem log_holds {m l e : ℚ} (h0 : 0 ≤ h) (hm : h < m) (hl : |Real.log m - l| ≤ e) (n : ℕ) :
    Holds h (log h m l e n) fun w => Real.log (m + w) := by
  intro w hw
  have h0' : (0 : ℝ) ≤ h := by exact_mod_cast h0
  have hm' : (h : ℝ) < m := by exact_mod_cast hm
  have hmp : (0 : ℝ) < m := by linarith
  have hw' := abs_le.1 hw
  have hx : |(-w / m : ℝ)| ≤ h / m := by
    rw [abs_div, abs_neg, abs_of_pos hmp]; gcongr
  have hx1 : (h : ℝ) / m < 1 := (div_lt_one hmp).2 hm'
  have h1 := Real.abs_log_sub_add_sum_range_le (x := -w / m) (by linarith) n
  have h2 : Real.log (m + w) = Real.log m + Real.log (1 - -w / m) := by
    rw [← Real.log_mul hmp.ne']
    · congr 1; field_simp; ring
    · have : -w / m < 1 := (le_abs_self _).trans_lt (by linarith)
      linarith
  have h3 := peval_logCoeffs (m := m) n 1 one_ne_zero (1 / m) w
  rw [pow_one] at h3
  rw [log, peval_cons, h3]
  have h4 : ((1 / m : ℚ) : ℝ) * w * ∑ k ∈ Finset.range n, (-w / m) ^ k / (((1 : ℕ) : ℝ) + k) =
      -∑ i ∈ Finset.range n, (-w / m) ^ (i + 1) / ((i : ℝ) + 1) := by
    rw [Finset.mul_sum, ← Finset.sum_neg_distrib]
    refine Finset.sum_congr rfl fun k _ => ?_
    push_cast
    rw [add_comm (1 : ℝ), pow_succ]
    ring
  rw [h4]
  show |Real.log (m + w) - _| ≤ _
  rw [h2]
  push_cast
  have e1 : Real.log m + Real.log (1 - -w / m) -
      (l + -∑ i ∈ Finset.range n, (-w / m) ^ (i + 1) / ((i : ℝ) + 1)) = (Real.log m - l) +
        (∑ i ∈ Finset.range n, (-w / m) ^ (i + 1) / ((i : ℝ) + 1) + Real.log (1 - -w / m)) := by ring
  rw [e1]
  refine (abs_add_le _ _).trans (add_le_add hl (h1.trans ?_))
  have h5 : 0 < 1 - |(-w / m : ℝ)| := by linarith
  gcongr

end Dist.Enc
