import Mathlib.Tactic.NormNum
import Mathlib.Tactic.Positivity
import Verif.Lemmas.PyClustering
import Verif.Props.Assignments
import Verif.Props.PYCache

/-! # C83: clustering mixtures seen from Python -/

namespace Dist.Py

open Spec Act FloatOps FloatNotation PitmanYor

variable {F : Type} [FloatOps F]

/-! ## Pitman-Yor -/

/-- **C83, initialisation.** `init(model, counts)` with counts that are not negative and whose
sum is an `int`, on any mixture object: with an empty group among them it succeeds and the
result does not depend on the object; the length and the empty group ids are those of `counts`.
Without an empty group it raises. -/
theorem C83_init (m : PitmanYor F) (l : List Nat) (hs : l.sum ≤ 2147483647) :
    (0 ∈ l → ∃ c, FreshWith (PYMixture.init m) l c ∧ c.driver.counts = l.map Int.ofNat ∧
      (∀ i, i ∈ c.driver.emptyIds ↔ l[i]? = some 0) ∧ c.driver.sampleSize = some (l.sum : Nat)) ∧
    (0 ∉ l → ∀ c0, ∃ c, PYMixture.init m (l.map Int.ofNat) c0 = .fail c) := by
  refine ⟨fun h0 => ⟨_, pyInit_canon m hs h0, rfl, fun i => Driver.mem_ofSizes, rfl⟩,
    fun h0 c0 => ⟨_, by rw [pyInit m l hs, if_neg h0]⟩⟩

/-- **C83, integers.** A count that is not a C `int` raises and leaves the mixture as it
was. -/
theorem C83_init_range (m : PitmanYor F) (zs : List Int) (h : ∃ z ∈ zs, ¬ InInt32 z)
    (c0 : Cached F) (d0 : Driver) :
    PYMixture.init m zs c0 = .fail c0 ∧ LEMixture.init zs d0 = .fail d0 := by
  constructor
  · unfold PYMixture.init; rw [asInts_bad zs h]; rfl
  · unfold LEMixture.init; rw [asInts_bad zs h]; rfl

/-- **C83, one call.** On a mixture holding group sizes `l`: `add_value` with any Python
integer adds to the group it names and returns whether a group was added, or, when it names no
group, raises and leaves the mixture as it was; `remove_value` likewise, raising also for an
empty group.  Afterwards the mixture is the one `init` makes for the new sizes. -/
theorem C83_call (m : PitmanYor F) (l : List Nat) (hs : l.sum < 2147483647)
    (hl : l.length ≤ 2147483648) (c : Cached F) (hc : FreshWith (PYMixture.init m) l c) (z : Int) :
    (0 ≤ z ∧ z < l.length → ∃ c', PYMixture.addValue m z c = .ok c' (l[z.toNat]? == some 0) ∧
      FreshWith (PYMixture.init m) (addTo l z.toNat 1) c') ∧
    (¬ (0 ≤ z ∧ z < l.length) → PYMixture.addValue m z c = .fail c) ∧
    (0 ≤ z ∧ l.getD z.toNat 0 ≠ 0 →
      ∃ c', PYMixture.removeValue m z c = .ok c' (l[z.toNat]? == some 1) ∧
        FreshWith (PYMixture.init m) (removeFrom l z.toNat 1) c') ∧
    (¬ (0 ≤ z ∧ l.getD z.toNat 0 ≠ 0) → PYMixture.removeValue m z c = .fail c) := by
  obtain ⟨h0, rfl⟩ := freshWith_eq m hs.le hc
  refine ⟨fun h => ?_, fun h => ?_, fun h => ?_, fun h => ?_⟩
  · have := sizes_inv h0 hs (.add z)
    simp only [PyCall.sizes, if_pos h] at this
    exact ⟨_, by rw [pyAdd m hs h0 hl, if_pos h], pyInit_canon m (by omega) this.1⟩
  · rw [pyAdd m hs h0 hl, if_neg h]
  · have := sizes_inv h0 hs (.remove z)
    simp only [PyCall.sizes, if_pos h] at this
    exact ⟨_, by rw [pyRemove m hs.le h0 hl, if_pos h], pyInit_canon m (by omega) this.1⟩
  · rw [pyRemove m hs.le h0 hl, if_neg h]

/-- The Python method for a call. -/
def pyCall (m : PitmanYor F) : PyCall → Act (Cached F) Bool
  | .add z => PYMixture.addValue m z
  | .remove z => PYMixture.removeValue m z

theorem pyCall_sizes (m : PitmanYor F) {l : List Nat} (hs : l.sum < 2147483647) (h0 : 0 ∈ l)
    (hl : l.length ≤ 2147483648) (op : PyCall) :
    (∃ b, pyCall m op (Cached.canon m l) = .ok (Cached.canon m (op.sizes l)) b) ∨
    (op.sizes l = l ∧ pyCall m op (Cached.canon m l) = .fail (Cached.canon m l)) := by
  cases op with
  | add z =>
    simp only [pyCall, PyCall.sizes, pyAdd m hs h0 hl]
    split_ifs
    · exact .inl ⟨_, rfl⟩
    · exact .inr ⟨rfl, rfl⟩
  | remove z =>
    simp only [pyCall, PyCall.sizes, pyRemove m hs.le h0 hl]
    split_ifs
    · exact .inl ⟨_, rfl⟩
    · exact .inr ⟨rfl, rfl⟩

/-- **C83, programs.** Any program of `add_value` and `remove_value` calls with any Python
integers, exceptions caught, on a mixture holding sizes `l0`, while the sample size stays an
`int`: no step is undefined, and the mixture ends as the one `init` makes for the sizes that
result when the refused calls do nothing. -/
theorem C83_program (m : PitmanYor F) (ops : List PyCall) (l0 : List Nat)
    (hs : l0.sum + ops.length ≤ 2147483647) (hl : l0.length + ops.length ≤ 2147483648)
    (c0 : Cached F) (hc : FreshWith (PYMixture.init m) l0 c0) :
    ∃ c, runCaught (ops.map (pyCall m)) c0 = some c ∧
      FreshWith (PYMixture.init m) (ops.foldl PyCall.sizes l0) c := by
  obtain ⟨h0, rfl⟩ := freshWith_eq m (by omega) hc
  clear hc
  induction ops generalizing l0 with
  | nil => exact ⟨_, rfl, pyInit_canon m (by simpa using hs) h0⟩
  | cons op ops ih =>
    simp only [List.length_cons] at hs hl
    obtain ⟨i0, i1, i2⟩ := sizes_inv h0 (by omega : l0.sum < 2147483647) op
    obtain ⟨c, h1, h2⟩ := ih (op.sizes l0) (by omega) (by omega) i0
    refine ⟨c, ?_, h2⟩
    simp only [List.map_cons, runCaught]
    rcases pyCall_sizes m (by omega : l0.sum < 2147483647) h0 (by omega) op with ⟨b, h⟩ | ⟨he, h⟩
    · rw [h]; exact h1
    · rw [h]; rw [he] at h1; exact h1

/-- **C83, scores.** On a mixture holding sizes `l`, `score_value(model, scores)` with a
contiguous array of one item per group stores at item `i` the logarithm of the probability of
the group under the model, replacing what was there, and changes no other memory. -/
theorem C83_scores (alpha d : ℝ) (ha : 0 < alpha) (hd0 : 0 ≤ d) (hd : d < 1) (l : List Nat)
    (hs : l.sum ≤ 2147483647) (c : Cached XR)
    (hc : FreshWith (PYMixture.init ⟨.fin alpha, .fin d⟩) l c)
    (a : NdArray XR) (hv : a.Valid) (ht : a.stride = 1) (hl : a.len = l.length) :
    ∃ a', PYMixture.scoreValue ⟨.fin alpha, .fin d⟩ c a = .ok a' ∧ a'.len = a.len ∧
      (∀ (i n : Nat), l[i]? = some n → a'.item i = some (.fin (Real.log
        (if n = 0 then (alpha + d * ((l.length - l.count 0 : Nat) : ℝ)) /
            ((l.sum + alpha) * (l.count 0 : Nat))
          else (n - d) / (l.sum + alpha))))) ∧
      a'.mem.length = a.mem.length ∧
      ∀ j, j < a.off ∨ a.off + a.len ≤ j → a'.mem[j]? = a.mem[j]? := by
  obtain ⟨h0, rfl⟩ := freshWith_eq _ hs hc
  have hscore := Cached.scoreValue_canon pyLevel (⟨.fin alpha, .fin d⟩ : PitmanYor XR) l
  generalize hxs : (l.map fun n => Cached.cell (⟨.fin alpha, .fin d⟩ : PitmanYor XR) l n +
    -log (ofInt ((l.sum : Nat) : Int) + (XR.fin alpha))) = xs at hscore
  have hxl : xs.length = l.length := by rw [← hxs]; simp
  have hfit : a.off + a.len ≤ a.mem.length := fits_of_pos hv (by omega)
  have hlen : (Cached.canon (⟨.fin alpha, .fin d⟩ : PitmanYor XR) l).driver.counts.length = l.length := by
    simp [Cached.canon]
  have hto : toNdarray xs a =
      .ok { a with mem := a.mem.take a.off ++ xs ++ a.mem.drop (a.off + a.len) } := by
    rw [toNdarray, if_neg (by simp [NdArray.oneSegment, ht]), if_pos (by omega), if_pos hfit]
  refine ⟨{ a with mem := a.mem.take a.off ++ xs ++ a.mem.drop (a.off + a.len) },
    by rw [PYMixture.scoreValue, hlen, hscore, Res.ok_bind, hto], rfl, ?_, ?_, ?_⟩
  · intro i n hn
    have hi : i < l.length := (List.getElem?_eq_some_iff.mp hn).1
    have hsum : (0 : ℝ) < ((l.sum : ℕ) : ℝ) + alpha := by positivity
    rw [item_contiguous (by exact ht)]
    simp only
    rw [List.append_assoc, List.getElem?_append_right (by simp), List.getElem?_append_left (by
      simp; omega)]
    have e : a.off + i - (a.mem.take a.off).length = i := by simp; omega
    rw [e, ← hxs, List.getElem?_map, hn]
    simp only [Option.map_some, Cached.cell, XR.ofInt_eq, Int.cast_natCast, XR.fin_add,
      XR.log_fin hsum, XR.fin_neg]
    congr 1
    by_cases hz : n = 0
    · subst hz
      have hE : (0 : ℝ) < ((l.count 0 : ℕ) : ℝ) := by exact_mod_cast List.count_pos_iff.mpr h0
      have hnum : (0 : ℝ) < alpha + d * ((l.length - l.count 0 : ℕ) : ℝ) := by positivity
      simp only [if_true, Cached.emptyScore, XR.ofInt_eq, Int.cast_natCast, XR.fin_mul, XR.fin_add]
      rw [XR.fin_div _ _ hE.ne', XR.log_fin (div_pos hnum hE), XR.fin_add]
      congr 1
      rw [Real.log_div hnum.ne' hE.ne', Real.log_div hnum.ne' (mul_pos hsum hE).ne',
        Real.log_mul hsum.ne' hE.ne']
      ring
    · have hn1 : (1 : ℝ) ≤ (n : ℝ) := by exact_mod_cast Nat.one_le_iff_ne_zero.mpr hz
      have hnd : (0 : ℝ) < (n : ℝ) - d := by linarith
      simp only [hz, if_false, XR.fin_sub]
      rw [XR.log_fin hnd, XR.fin_add]
      congr 1
      rw [Real.log_div hnd.ne' hsum.ne']
      ring
  · simp; omega
  · intro j hj
    simp only [List.append_assoc]
    rcases hj with hj | hj
    · rw [List.getElem?_append_left (by simp; omega), List.getElem?_take_of_lt hj]
    · rw [List.getElem?_append_right (by simp; omega), List.getElem?_append_right (by simp; omega),
        List.getElem?_drop]
      congr 1
      simp; omega

/-- **C83, other arrays.** Unlike the feature mixtures, `score_value` does not check the array:
a contiguous array of another length is replaced by one of the right length if it may be
resized, and otherwise left as it was; an array with spaces between its items is left as it
was.  Nothing is raised. -/
theorem C83_score_arrays (m : PitmanYor F) (l : List Nat) (hs : l.sum ≤ 2147483647) (c : Cached F)
    (hc : FreshWith (PYMixture.init m) l c) (a : NdArray F) :
    (a.stride = 1 → a.len ≠ l.length → a.resizable = false → PYMixture.scoreValue m c a = .ok a) ∧
    (a.stride = 1 → a.len ≠ l.length → a.resizable = true → ∃ a', PYMixture.scoreValue m c a = .ok a' ∧
      a'.len = l.length ∧ a'.stride = 1 ∧ a'.mem.length = l.length) ∧
    (a.stride ≠ 1 → 2 ≤ a.len → PYMixture.scoreValue m c a = .ok a) := by
  obtain ⟨h0, rfl⟩ := freshWith_eq _ hs hc
  have hscore := Cached.scoreValue_canon pyLevel m l
  have hlen : (Cached.canon m l).driver.counts.length = l.length := by simp [Cached.canon]
  have hone : a.stride = 1 → a.oneSegment = true := by intro h; simp [NdArray.oneSegment, h]
  refine ⟨fun ht hl hr => ?_, fun ht hl hr => ?_, fun ht h2 => ?_⟩
  · rw [PYMixture.scoreValue, hlen, hscore, Res.ok_bind, toNdarray, if_neg (by simp [hone ht]),
      if_neg (by simpa using Ne.symm hl), if_neg (by simp [hr])]
  · rw [PYMixture.scoreValue, hlen, hscore, Res.ok_bind, toNdarray, if_neg (by simp [hone ht]),
      if_neg (by simpa using Ne.symm hl), if_pos hr]
    exact ⟨_, rfl, by simp, rfl, by simp⟩
  · rw [PYMixture.scoreValue, hlen, hscore, Res.ok_bind]
    exact C80_write_spaced _ a ht h2

/-- **C83, finding: before and after a refused `init`.** On a new mixture every `add_value` and
`remove_value` raises, but `score_value` reads an uninitialised member.  A refused `init` has
already stored the counts: the mixture then has that many groups, and `score_value` reads
scores that were never computed. -/
theorem C83_unready (m : PitmanYor F) (z : Int) (l : List Nat) (hl : l ≠ [])
    (hs : l.sum ≤ 2147483647) (h0 : 0 ∉ l) :
    PYMixture.addValue m z PYMixture.new = .fail PYMixture.new ∧
    PYMixture.removeValue m z PYMixture.new = .fail PYMixture.new ∧
    (∀ a, PYMixture.scoreValue m PYMixture.new a = .ub) ∧
    ∃ c, PYMixture.init m (l.map Int.ofNat) PYMixture.new = .fail c ∧
      c.driver.counts.length = l.length ∧ ∀ a, PYMixture.scoreValue m c a = .ub := by
  refine ⟨?_, ?_, fun a => rfl, ⟨Driver.ofSizes l, []⟩, ?_, by simp, fun a => ?_⟩
  · unfold PYMixture.addValue asInt
    by_cases hz : InInt32 z
    · rw [if_pos hz]; rfl
    · rw [if_neg hz]; rfl
  · unfold PYMixture.removeValue asInt
    by_cases hz : InInt32 z
    · rw [if_pos hz]; rfl
    · rw [if_neg hz]; rfl
  · rw [pyInit m l hs, if_neg h0]; rfl
  · rw [PYMixture.scoreValue, Cached.scoreValue]
    simp only [Driver.ofSizes_counts, List.length_map]
    rw [distAssert_of trivial, Res.ok_bind]
    simp only [Driver.getSampleSize, Driver.ofSizes_sampleSize, Res.ok_bind]
    rw [if_pos (by right; simp; exact List.length_pos_iff.mpr hl)]
    rfl

/-- **C83, finding: negative counts.** `init` accepts them: a mixture with a group of size −1
and a sample size of −1, on which `score_value` finds no real number. -/
theorem C83_negative_counts (alpha d : ℝ) (ha : 0 < alpha) (hd : 0 ≤ d) (c0 : Cached XR) :
    ∃ c, PYMixture.init ⟨.fin alpha, .fin d⟩ [-1, 0] c0 = .ok c () ∧
      c.driver.counts = [-1, 0] ∧ c.driver.sampleSize = some (-1) ∧
      ∃ x, PYMixture.scoreValue ⟨.fin alpha, .fin d⟩ c ⟨[.fin 0, .fin 0], 0, 1, 2, false⟩ =
        .ok ⟨[XR.nan, x], 0, 1, 2, false⟩ := by
  have hneg : -1 - d ≤ 0 := by linarith
  have hlog : log (XR.fin (-1 - d)) = XR.nan := XR.log_fin_nonpos hneg
  have himp : ∀ e n, Imp.Driver.init pyLevel ⟨[-1, 0], e, n⟩ = .ok ⟨[-1, 0], {1}, some (-1)⟩ () := by
    intro e n
    unfold Imp.Driver.init
    simp only [modify_bind, get_bind]
    rw [bind_apply, impInitLoop _ _ _ 0 rfl]
    have : Driver.initLoop [-1, 0] 0 ∅ 0 = .ok ({1}, -1) := by decide
    rw [this]
    simp only [Imp.Driver.validate, get_bind]
    have : Driver.validate pyLevel ⟨[-1, 0], {1}, some (-1)⟩ = .ok () := by decide
    rw [this]; rfl
  obtain ⟨x, y, hxy⟩ : ∃ x y, Cached.resize c0.shifted 2 = [x, y] := by
    have := Cached.resize_length c0.shifted 2
    match h : Cached.resize c0.shifted 2, this with
    | [x, y], _ => exact ⟨x, y, rfl⟩
  have hinit : PYMixture.init ⟨.fin alpha, .fin d⟩ [-1, 0] c0 =
      .ok ⟨⟨[-1, 0], {1}, some (-1)⟩, [XR.nan, log ((XR.fin alpha + XR.fin d * ofInt 1) / ofInt 1)]⟩ () := by
    unfold PYMixture.init
    have : asInts [-1, 0] = .ok [-1, 0] := by decide
    rw [this]
    simp only [lift_ok, pure_bind, modify_bind]
    rw [bind_apply]
    simp only [PYMixture.onDriver, onMember, himp]
    rw [modify_bind]
    simp only [PYMixture.update, bind_assoc, get_bind, List.length_cons, List.length_nil,
      Nat.zero_add, Nat.reduceAdd, hxy]
    have hl : Cached.initLoop pyLevel (⟨.fin alpha, .fin d⟩ : PitmanYor XR) 2 0
        ⟨⟨[-1, 0], {1}, some (-1)⟩, [x, y]⟩ = .ok ⟨⟨[-1, 0], {1}, some (-1)⟩, [XR.nan, y]⟩ := by
      simp [Cached.initLoop, Cached.updateNonempty, getAt, setAt, distAssert, XR.ofInt_eq, hlog]
    rw [hl]
    simp only [lift_ok, pure_bind, modify_bind, get_bind]
    simp [Cached.updateEmpty, modify_apply]
  have hnan : ∀ x : XR, XR.nan + x = XR.nan := fun _ => rfl
  refine ⟨_, hinit, rfl, rfl, log ((XR.fin alpha + XR.fin d * ofInt 1) / ofInt 1) +
    -log (ofInt (-1) + XR.fin alpha), ?_⟩
  simp [PYMixture.scoreValue, Cached.scoreValue, distAssert, Driver.getSampleSize, toNdarray,
    NdArray.oneSegment, hnan]

/-! ## Low entropy -/

/-- **C83, low entropy.** The mixture of the low-entropy model behaves the same under `init`,
`add_value` and `remove_value`. -/
theorem C83_low_entropy_call (l : List Nat) (hs : l.sum < 2147483647) (hl : l.length ≤ 2147483648) :
    (0 ∈ l → ∃ d, FreshWith LEMixture.init l d ∧ d.counts = l.map Int.ofNat ∧
      (∀ i, i ∈ d.emptyIds ↔ l[i]? = some 0) ∧ d.sampleSize = some (l.sum : Nat)) ∧
    (0 ∉ l → ∀ d0, ∃ d, LEMixture.init (l.map Int.ofNat) d0 = .fail d) ∧
    ∀ d, FreshWith LEMixture.init l d → ∀ z : Int,
      (0 ≤ z ∧ z < l.length → ∃ d', LEMixture.addValue z d = .ok d' (l[z.toNat]? == some 0) ∧
        FreshWith LEMixture.init (addTo l z.toNat 1) d') ∧
      (¬ (0 ≤ z ∧ z < l.length) → LEMixture.addValue z d = .fail d) ∧
      (0 ≤ z ∧ l.getD z.toNat 0 ≠ 0 →
        ∃ d', LEMixture.removeValue z d = .ok d' (l[z.toNat]? == some 1) ∧
          FreshWith LEMixture.init (removeFrom l z.toNat 1) d') ∧
      (¬ (0 ≤ z ∧ l.getD z.toNat 0 ≠ 0) → LEMixture.removeValue z d = .fail d) := by
  refine ⟨fun h0 => ⟨_, leInit_sizes hs.le h0, rfl, fun i => Driver.mem_ofSizes, rfl⟩,
    fun h0 d0 => ⟨_, by rw [leInit l hs.le, if_neg h0]⟩, fun d hd z => ?_⟩
  obtain ⟨h0, rfl⟩ := leFresh_eq hs.le hd
  refine ⟨fun h => ?_, fun h => ?_, fun h => ?_, fun h => ?_⟩
  · have := sizes_inv h0 hs (.add z)
    simp only [PyCall.sizes, if_pos h] at this
    exact ⟨_, by rw [leAdd hs h0 hl, if_pos h], leInit_sizes (by omega) this.1⟩
  · rw [leAdd hs h0 hl, if_neg h]
  · have := sizes_inv h0 hs (.remove z)
    simp only [PyCall.sizes, if_pos h] at this
    exact ⟨_, by rw [leRemove hs.le h0 hl, if_pos h], leInit_sizes (by omega) this.1⟩
  · rw [leRemove hs.le h0 hl, if_neg h]

/-- The Python method for a call. -/
def leCall : PyCall → Act Driver Bool
  | .add z => LEMixture.addValue z
  | .remove z => LEMixture.removeValue z

/-- **C83, low entropy, programs.** -/
theorem C83_low_entropy_program (ops : List PyCall) (l0 : List Nat)
    (hs : l0.sum + ops.length ≤ 2147483647) (hl : l0.length + ops.length ≤ 2147483648)
    (d0 : Driver) (hc : FreshWith LEMixture.init l0 d0) :
    ∃ d, runCaught (ops.map leCall) d0 = some d ∧
      FreshWith LEMixture.init (ops.foldl PyCall.sizes l0) d := by
  obtain ⟨h0, rfl⟩ := leFresh_eq (by omega) hc
  clear hc
  induction ops generalizing l0 with
  | nil => exact ⟨_, rfl, leInit_sizes (by simpa using hs) h0⟩
  | cons op ops ih =>
    simp only [List.length_cons] at hs hl
    obtain ⟨i0, i1, i2⟩ := sizes_inv h0 (by omega : l0.sum < 2147483647) op
    obtain ⟨c, h1, h2⟩ := ih (op.sizes l0) (by omega) (by omega) i0
    refine ⟨c, ?_, h2⟩
    simp only [List.map_cons, runCaught]
    cases op with
    | add z =>
      simp only [leCall, PyCall.sizes, leAdd (by omega : l0.sum < 2147483647) h0 (by omega : l0.length ≤ 2147483648)] at h1 ⊢
      split_ifs with h
      · simpa [h] using h1
      · simpa [h] using h1
    | remove z =>
      simp only [leCall, PyCall.sizes, leRemove (by omega : l0.sum ≤ 2147483647) h0 (by omega : l0.length ≤ 2147483648)] at h1 ⊢
      split_ifs with h
      · rw [if_pos h] at h1; exact h1
      · rw [if_neg h] at h1; exact h1

/-- **C83, low entropy, scores.** `score_value` stores the score of each group in a contiguous
array of the right length; once the sample is the whole dataset it raises. -/
theorem C83_low_entropy_scores (m : LowEntropy) (l : List Nat) (hs : l.sum ≤ 2147483647)
    (d : Driver) (hd : FreshWith LEMixture.init l d) (a : NdArray F) (hv : a.Valid)
    (ht : a.stride = 1) (hl : a.len = l.length) :
    (m.datasetSize ≤ l.sum → LEMixture.scoreValue m d a = .fail) ∧
    ∀ score : Nat → F, (∀ n ∈ l, m.scoreAddValue pyLevel n ((l.length - l.count 0 : Nat) : Int)
        (l.sum : Nat) (l.count 0 : Nat) = .ok (score n)) →
      ∃ a', LEMixture.scoreValue m d a = .ok a' ∧ a'.len = a.len ∧
        ∀ i n, l[i]? = some n → a'.item i = some (score n) := by
  obtain ⟨h0, rfl⟩ := leFresh_eq hs hd
  have hne : l ≠ [] := List.ne_nil_of_mem h0
  have hcnt : (((l.length : Int) - (l.count 0 : Nat))) = ((l.length - l.count 0 : Nat) : Int) := by
    have := List.count_le_length (l := l) (a := 0); omega
  have hval : ∀ f : Int → Int → Int → Int → Res F,
      (Driver.ofSizes l).scoreValue pyLevel (Driver.ofSizes l).counts.length f =
      (l.map Int.ofNat).mapM fun c => f c ((l.length - l.count 0 : Nat) : Int) (l.sum : Nat)
        (l.count 0 : Nat) := by
    intro f
    unfold Driver.scoreValue
    rw [distAssert_of rfl, Res.ok_bind, if_neg (by omega), if_neg (by simpa using hne)]
    simp only [Driver.getSampleSize, Driver.ofSizes_sampleSize, Res.ok_bind, Driver.ofSizes_card,
      Driver.ofSizes_counts, List.length_map, hcnt]
  constructor
  · intro hm
    rw [LEMixture.scoreValue, hval]
    cases l with
    | nil => exact absurd rfl hne
    | cons n l =>
      rw [List.map_cons, List.mapM_cons, LowEntropy.scoreAddValue,
        distAssert_of_not (by decide) (by omega)]
      rfl
  · intro score hsc
    have hmap : ∀ l' : List Nat, (∀ n ∈ l', n ∈ l) → (l'.map Int.ofNat).mapM (fun c =>
        m.scoreAddValue pyLevel c ((l.length - l.count 0 : Nat) : Int) (l.sum : Nat)
        (l.count 0 : Nat)) = (.ok (l'.map score) : Res (List F)) := by
      intro l'
      induction l' with
      | nil => intro _; rfl
      | cons n l' ih =>
        intro h
        rw [List.map_cons, List.mapM_cons, ih fun n hn => h n (by simp [hn])]
        have := hsc n (h n (by simp))
        simp only [Int.ofNat_eq_natCast]
        rw [this]; rfl
    obtain ⟨a', h1, h2, -⟩ := C80_write (l.map score) a hv ht
    obtain ⟨h3, h4⟩ := h2 (.inl (by simp [hl]))
    refine ⟨a', by rw [LEMixture.scoreValue, hval, hmap l fun _ h => h, Res.ok_bind, h1],
      by simpa [hl] using h3, fun i n hn => ?_⟩
    rw [h4 i (by simpa using (List.getElem?_eq_some_iff.mp hn).1), List.getElem?_map, hn]; rfl

/-! ## Counting, then initialising -/

/-- **C83, finding: counts alone do not initialise a mixture.** For every assignment with
contiguous group ids, `count_assignments` returns the counts, `init` refuses them, and accepts
them followed by one or more zeros. -/
theorem C83_count_then_init (m : PitmanYor F) (keys : List Int) (gids : List Nat)
    (hk : ∀ k ∈ keys, InInt32 k) (hkl : keys.length = gids.length)
    (hc : ∀ x ∈ gids, ∀ y, y < x → y ∈ gids) (hlen : gids.length ≤ 2147483647) (k : Nat) (hk1 : 1 ≤ k) :
    ∃ l : List Nat, countAssignments (keys.zip (gids.map Int.ofNat)) = .ok (l.map Int.ofNat) ∧
      (∀ g, l.getD g 0 = gids.count g) ∧
      (∀ c0, ∃ c, PYMixture.init m (l.map Int.ofNat) c0 = .fail c) ∧
      ∃ c, FreshWith (PYMixture.init m) (l ++ List.replicate k 0) c := by
  have hin : ∀ g < idBound gids, g ∈ gids := by
    intro g hg
    have hn : gids ≠ [] := by rintro rfl; simp [idBound] at hg
    have h1 := idBound_mem hn
    rcases Nat.lt_or_ge g (idBound gids - 1) with h2 | h2
    · exact hc _ h1 g h2
    · have : g = idBound gids - 1 := by omega
      exact this ▸ h1
  have h1 := countAssignments_eq pyLevel gids hlen
  rw [if_neg (by rintro ⟨-, g, hg, hm⟩; exact hm (hin g hg))] at h1
  have hpos : ∀ c ∈ countTable gids, 0 < c := by
    intro c hc
    simp only [countTable, List.mem_map, List.mem_range] at hc
    obtain ⟨g, hg, rfl⟩ := hc
    have := List.count_pos_iff.mpr (hin g hg)
    omega
  have h4 : countTable gids = ((List.range (idBound gids)).map fun g => gids.count g).map Int.ofNat := by
    simp [countTable, Function.comp_def]
  have htot := C19_total pyLevel gids hlen _ h1
  rw [h4] at htot hpos h1
  generalize hl : ((List.range (idBound gids)).map fun g => gids.count g) = l at *
  have hsum : l.sum = gids.length := by
    have : ∀ l : List Nat, (l.map Int.ofNat).sum = (l.sum : Nat) := by
      intro l; induction l with
      | nil => rfl
      | cons a l ih => simp [ih]
    rw [this] at htot; exact_mod_cast htot
  have h0 : 0 ∉ l := fun h => by
    have := hpos 0 (List.mem_map.mpr ⟨0, h, rfl⟩); omega
  have hgid : ∀ g ∈ gids, g < gids.length := by
    intro g hg
    have hsub : Finset.range (g + 1) ⊆ gids.toFinset := by
      intro y hy
      rw [List.mem_toFinset]
      rcases Nat.lt_or_ge y g with h | h
      · exact hc g hg y h
      · have : y = g := by have := Finset.mem_range.mp hy; omega
        exact this ▸ hg
    have h5 := Finset.card_le_card hsub
    have h6 := List.toFinset_card_le gids
    rw [Finset.card_range] at h5
    omega
  refine ⟨l, ?_, fun g => ?_, fun c0 => ⟨_, by rw [pyInit m l (by omega), if_neg h0]⟩,
    _, pyInit_canon m (by simp; omega) (by simp; omega)⟩
  · unfold countAssignments
    rw [List.map_fst_zip (by simp [hkl]), List.map_snd_zip (by simp [hkl]), asInts_ok _ hk, Res.ok_bind,
      asInts_ok, Res.ok_bind, h1]
    intro z hz
    obtain ⟨g, hg, rfl⟩ := List.mem_map.mp hz
    have := hgid g hg
    unfold InInt32 int32Min int32Max; simp; omega
  · rw [← hl]
    by_cases hg : g < idBound gids
    · simp [List.getD_eq_getElem?_getD, hg]
    · have : g ∉ gids := fun h => hg (lt_idBound h)
      simp [List.getD_eq_getElem?_getD, hg, List.count_eq_zero_of_not_mem this]

/-! ## Concrete cases -/

/-- A program with two good calls, one id that names no group, one beyond `int`, a removal from
an empty group and a removal that deletes a group. -/
example : [PyCall.add 1, .add (-1), .add 4294967296, .remove 2, .add 0, .remove 1].foldl
    PyCall.sizes [3, 0] = [4, 0] ∧ (0 ∈ ([3, 0] : List Nat)) ∧
    ([3, 0] : List Nat).sum + 6 ≤ 2147483647 := by decide

/-- Scores of a mixture with groups of sizes 3 and 0, `alpha = 1`, `d = 1/2`: the hypotheses of
`C83_scores` hold, and the second item is `log((1 + 1/2) / (4 * 1))`. -/
example : ∃ c, FreshWith (PYMixture.init (⟨.fin 1, .fin (1 / 2)⟩ : PitmanYor XR)) [3, 0] c ∧
    ∃ a', PYMixture.scoreValue ⟨.fin 1, .fin (1 / 2)⟩ c ⟨[.fin 7, .fin 8, .fin 9], 1, 1, 2, false⟩ =
      .ok a' ∧ a'.item 1 = some (.fin (Real.log (3 / 8))) := by
  obtain ⟨c, hc, -⟩ := (C83_init (⟨.fin 1, .fin (1 / 2)⟩ : PitmanYor XR) [3, 0] (by decide)).1 (by decide)
  obtain ⟨a', h1, -, h2, -⟩ := C83_scores 1 (1 / 2) (by norm_num) (by norm_num) (by norm_num) [3, 0]
    (by decide) c hc ⟨[.fin 7, .fin 8, .fin 9], 1, 1, 2, false⟩ (by
      refine ⟨by simp, fun i hi => ?_⟩
      have : i = 0 ∨ i = 1 := by simp only at hi; omega
      rcases this with rfl | rfl <;> simp [NdArray.item]) rfl rfl
  refine ⟨c, hc, a', h1, ?_⟩
  rw [h2 1 0 rfl]
  norm_num

/-- Five items in three groups, listed in the order of a dictionary. -/
example : countAssignments [(10, 2), (11, 0), (12, 2), (13, 1), (14, 0)] = .ok [2, 1, 2] := by decide

end Dist.Py
