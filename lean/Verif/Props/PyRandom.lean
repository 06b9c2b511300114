import Mathlib.Tactic.NormNum
import Verif.Props.Sampling
import Verif.Props.Assignments
import Verif.Props.PyMixture
import Verif.Model.PyRandom

/-! # C84: sampling functions seen from Python -/

namespace Dist.Py

open Spec FloatOps FloatNotation

variable {D F σ : Type} [FloatOps F]

/-- Python floats that are the numbers themselves: exact arithmetic. -/
noncomputable def sameConv : Conv XR XR := ⟨id, id, .fin 1, fun x y => x - y, fun _ => rfl⟩

theorem max_ok (xs : List F) (hne : xs ≠ []) : ∃ m, VectorMath.max xs.length xs = .ok m := by
  have hpos := List.length_pos_iff.mpr hne
  have key : ∀ (n i : Nat) (acc : F), i + n ≤ xs.length → ∃ r, forLoop (fun i res => do
      let x ← getAt xs i
      return if lt res x then x else res) i n acc = .ok r := by
    intro n
    induction n with
    | zero => intro i acc _; exact ⟨acc, rfl⟩
    | succ n ih =>
      intro i acc h
      rw [forLoop, getAt_of (by omega), Res.ok_bind]
      exact ih (i + 1) _ (by omega)
  obtain ⟨r, hr⟩ := key xs.length 0 xs[0] (by omega)
  exact ⟨r, by rw [VectorMath.max, getAt_of hpos, Res.ok_bind, hr]⟩

/-- `score_from_scores_overwrite` once the maximum is known. -/
theorem scoreFrom_eq (rng : Rng F σ) (s : σ) (j : Nat) (xs : List F) (m : F)
    (hm : VectorMath.max xs.length xs = .ok m) :
    scoreFromScoresOverwrite rng s j xs = (do
      let x ← getAt (xs.map fun z => z - m) j
      return (x - log ((xs.map fun z => exp (z - m)).foldl (fun acc x => acc + x) (ofInt 0)),
        xs.map fun z => z - m, (rng.unif01 s).2)) := by
  have := forLoop_both (F := F) (fun i (p : List F × F) => do
      let x ← getAt p.1 i
      let x := x - m
      let xs ← setAt p.1 i x
      return (xs, p.2 + exp x)) (fun z => z - m) (fun z => exp (z - m))
      (by
        intro k io t z hz
        simp only
        rw [getAt_eq_ok.mpr hz, Res.ok_bind, setAt_of_getElem? hz]; rfl) xs [] (ofInt 0)
  simp only [List.length_nil, List.nil_append] at this
  rw [scoreFromScoresOverwrite, hm, Res.ok_bind, this, Res.ok_bind]

/-- **C84, agreement.** In exact arithmetic, for every list of scores (at most `2^31` of them)
and every stream: `sample_prob_from_scores` returns an index and its probability
`exp(s_i) / sum`; `prob_from_scores` of any index `j` of the list returns `exp(s_j) / sum`; and
both take the same from the generator, whatever the index. -/
theorem C84_probs (rng : Rng XR σ) (s : σ) (x : List ℝ) (hne : x ≠ []) (hx : x.length ≤ 2147483648) :
    ∃ (i : Nat) (hi : i < x.length) (s' : σ),
      sampleProbFromScores sameConv rng s (x.map XR.fin) =
        .value ((i, .fin (Real.exp x[i] / (x.map Real.exp).sum)), s') ∧
      ∀ (j : Nat) (hj : j < x.length),
        probFromScores sameConv exp rng s j (x.map XR.fin) =
          .value (.fin (Real.exp x[j] / (x.map Real.exp).sum), s') := by
  obtain ⟨i, hi, p, ls, xs, s', hp, -, -, h3, h4⟩ := C44_sampling rng s x hne
  have e : (x.map XR.fin).map sameConv.narrow = x.map XR.fin := by simp [sameConv]
  have hpos := sum_exp_pos hne
  refine ⟨i, hi, s', ?_, fun j hj => ?_⟩
  · rw [sampleProbFromScores, e, h3, ← hp]; rfl
  · obtain ⟨m, hm⟩ := scores_max x hne
    have h32 : InInt32 (j : Int) := by unfold InInt32 int32Min int32Max; omega
    rw [scoreFrom_eq rng s i _ _ hm, getAt_of (by simpa using hi), Res.ok_bind] at h4
    have hs' : (rng.unif01 s).2 = s' := by
      injection h4 with h4
      exact congrArg (fun t => t.2.2) h4
    have htot : (List.map (fun z => exp (z - XR.fin m)) (x.map XR.fin)).foldl
        (fun acc x => acc + x) (ofInt 0) = XR.fin ((x.map Real.exp).sum / Real.exp m) := by
      rw [map_fin_comp (fun y => Real.exp (y - m)) x _ (by simp), XR.ofInt_eq, foldl_fin,
        ← sum_exp_shift]
      simp
    have hS : 0 < (x.map Real.exp).sum / Real.exp m := div_pos hpos (Real.exp_pos m)
    rw [probFromScores, asInt_ok h32, e]
    simp only [caught, Call.andThen]
    rw [toSize_nonneg h32 (by omega), Int.toNat_natCast, scoreFrom_eq rng s j _ _ hm,
      getAt_of (by simpa using hj), Res.ok_bind, htot, hs']
    simp only [List.getElem_map, uncaught, Res.pure_eq, sameConv, id, XR.fin_sub, XR.log_fin hS]
    congr 2
    show exp (XR.fin _) = _
    rw [XR.exp_fin, Real.exp_sub, Real.exp_sub, Real.exp_log hS]
    congr 1
    have := Real.exp_pos m
    field_simp

/-- **C84, log_sum_exp.** -/
theorem C84_log_sum_exp (x : List ℝ) (hne : x ≠ []) :
    logSumExp sameConv (x.map XR.fin) = .value (.fin (Real.log (x.map Real.exp).sum)) := by
  have h := C44_log_sum_exp x hne
  have e : (x.map XR.fin).map sameConv.narrow = x.map XR.fin := by simp [sameConv]
  rw [logSumExp, e, h]
  rfl

/-- **C84, index.** For every float type and every nonempty list of scores: an index that is not
a C `int` raises; any other index outside the list reads beyond the vector. -/
theorem C84_bad_index (c : Conv D F) (e : D → D) (rng : Rng F σ) (s : σ) (z : Int)
    (scores : List D) (hne : scores ≠ []) (hx : scores.length ≤ 2147483648)
    (hz : z < 0 ∨ (scores.length : Int) ≤ z) :
    probFromScores c e rng s z scores = if InInt32 z then .undefined else .raises := by
  rw [probFromScores]
  by_cases h : InInt32 z
  · obtain ⟨m, hm⟩ := max_ok (scores.map c.narrow) (by simpa using hne)
    have hb : scores.length ≤ toSize z := by
      rcases lt_or_ge z 0 with h0 | h0
      · have := toSize_neg h h0; omega
      · rw [toSize_nonneg h h0]; omega
    rw [if_pos h, asInt_ok h]
    simp only [caught, Call.andThen]
    rw [scoreFrom_eq rng s _ _ m hm]
    have : getAt ((scores.map c.narrow).map fun z => z - m) (toSize z) = .ub := by
      rw [getAt, List.getElem?_eq_none (by simpa using hb)]
    rw [this]; rfl
  · rw [if_neg h, asInt, if_neg h]; rfl

/-- **C84, no scores.** `log_sum_exp([])` is 0; sampling from no scores is undefined. -/
theorem C84_empty (c : Conv D F) (e : D → D) (rng : Rng F σ) (s : σ) (z : Int) (hz : InInt32 z) :
    logSumExp c [] = .value (c.widen (ofInt 0)) ∧ sampleProbFromScores c rng s [] = .undefined ∧
    probFromScores c e rng s z [] = .undefined := by
  refine ⟨rfl, rfl, ?_⟩
  rw [probFromScores, asInt, if_pos hz]; rfl

/-- **C84, urns.** With at least two items (at most `2^31`) and a generator that keeps to its
bounds, the result is two items at different positions.  With fewer than two, the check in the
C++ function ends the Python process. -/
theorem C84_urn {T : Type} (rng : Rng F σ) (s : σ) (urn : List T) :
    (2 ≤ urn.length → urn.length ≤ 2147483648 → IntInBounds rng →
      ∃ (i j : Nat) (hi : i < urn.length) (hj : j < urn.length) (s' : σ), i ≠ j ∧
        samplePairFromUrn rng s urn = .value ((urn[i], urn[j]), s')) ∧
    (urn.length < 2 → samplePairFromUrn rng s urn = .terminates) := by
  constructor
  · intro h2 hmax hr
    obtain ⟨i, j, hi, hj, s', hij, h⟩ := C45 rng hr s urn h2 hmax
    exact ⟨i, j, hi, hj, s', hij, by rw [samplePairFromUrn, h]; rfl⟩
  · intro h
    rw [samplePairFromUrn, Dist.samplePairFromUrn, distAssert0_of_not (by omega)]; rfl

/-- **C84, discrete draws.** On a contiguous array the draw is made from its items, and an index
of the array is returned.  An empty array ends the Python process. -/
theorem C84_discrete (rng : Rng F σ) (s : σ) (a : NdArray F) (hv : a.Valid) (hs' : a.stride = 1) :
    (a.len ≠ 0 → ∃ (ps : List F) (i : Nat), ps.length = a.len ∧ (∀ j < a.len, ps[j]? = a.item j) ∧
      i < a.len ∧ Dist.sampleDiscrete rng s ps = .ok (i, (rng.unif01 s).2) ∧
      sampleDiscrete rng s a = .value (i, (rng.unif01 s).2)) ∧
    (a.len = 0 → sampleDiscrete rng s a = .terminates) := by
  have hf := fits_of_pos hv (by omega)
  have hfrom : fromNdarray a = .ok ((a.mem.drop a.off).take a.len) := if_pos hf
  have hlen : ((a.mem.drop a.off).take a.len).length = a.len := by simp; omega
  constructor
  · intro h
    have hpos : 0 < ((a.mem.drop a.off).take a.len).length := by omega
    have hlt : ∀ (ps : List F) (last i : Nat) (t : F), i + ps.length ≤ last →
        discreteLoop last ps i t ≤ last := by
      intro ps last
      induction ps with
      | nil => intro i t _; simp [discreteLoop]
      | cons p ps ih =>
        intro i t hi
        simp only [List.length_cons] at hi
        simp only [discreteLoop]
        split_ifs
        · omega
        · exact ih (i + 1) _ (by omega)
    have hs : Dist.sampleDiscrete rng s ((a.mem.drop a.off).take a.len) = .ok
        (discreteLoop (a.len - 1) ((a.mem.drop a.off).take a.len).dropLast 0 (rng.unif01 s).1,
          (rng.unif01 s).2) := by
      rw [Dist.sampleDiscrete, distAssert0_of hpos, Res.ok_bind, hlen]; rfl
    refine ⟨_, _, hlen, fun j hj => ?_, ?_, hs, ?_⟩
    · rw [List.getElem?_take_of_lt hj, List.getElem?_drop, item_contiguous hs']
    · have := hlt ((a.mem.drop a.off).take a.len).dropLast (a.len - 1) 0 (rng.unif01 s).1 (by
        rw [List.length_dropLast, hlen]; omega)
      omega
    · rw [sampleDiscrete, hfrom]
      show uncaught (Dist.sampleDiscrete rng s _) = _
      rw [hs]; rfl
  · intro h
    rw [sampleDiscrete, hfrom]
    show uncaught (Dist.sampleDiscrete rng s _) = _
    rw [Dist.sampleDiscrete, distAssert0_of_not (by omega)]; rfl

/-- **C84, finding: spaced arrays.** `sample_discrete(probs[::2])` draws from the floats next to
the first one: here item 1 has probability 1, the others 0, and every positive draw returns item
2. -/
theorem C84_discrete_spaced (rng : Rng XR σ) (s : σ) (u : ℝ) (hu : 0 < u)
    (hd : (rng.unif01 s).1 = .fin u) :
    (NdArray.mk [XR.fin 0, .fin 0, .fin 1, .fin 0, .fin 0] 0 2 3 true).item 0 = some (.fin 0) ∧
    (NdArray.mk [XR.fin 0, .fin 0, .fin 1, .fin 0, .fin 0] 0 2 3 true).item 1 = some (.fin 1) ∧
    (NdArray.mk [XR.fin 0, .fin 0, .fin 1, .fin 0, .fin 0] 0 2 3 true).item 2 = some (.fin 0) ∧
    sampleDiscrete rng s ⟨[XR.fin 0, .fin 0, .fin 1, .fin 0, .fin 0], 0, 2, 3, true⟩ =
      .value (2, (rng.unif01 s).2) := by
  refine ⟨rfl, rfl, rfl, ?_⟩
  have hlt : lt (XR.fin u) (XR.fin 0) = false := XR.lt_fin_false.mpr hu.le
  simp [sampleDiscrete, fromNdarray, uncaught, Call.andThen, Dist.sampleDiscrete, distAssert0,
    hd, discreteLoop, XR.ofInt_eq, hlt]

/-! ## Assignments -/

/-- **C84, sample sizes.** `sample_assignments` refuses, by an exception, a size that is not a C
`int` and a negative size; for the low-entropy model also one larger than the dataset. -/
theorem C84_sample_sizes (m : PitmanYor F) (le : LowEntropy) (rng : Rng F σ) (s : σ) (z : Int) :
    (¬ InInt32 z ∨ z < 0 → sampleAssignmentsPY m rng s z = .fail ∧ sampleAssignmentsLE le rng s z = .fail) ∧
    (le.datasetSize < z → sampleAssignmentsLE le rng s z = .fail) := by
  by_cases hz : InInt32 z
  · simp only [sampleAssignmentsPY, sampleAssignmentsLE, asInt_ok hz, Res.ok_bind,
      PitmanYor.sampleAssignments, LowEntropy.sampleAssignments]
    refine ⟨fun h => ?_, fun h => ?_⟩
    · have h0 : z < 0 := by tauto
      refine ⟨?_, ?_⟩
      · rw [if_pos h0]; unfold distAssert0 distAssert; split_ifs <;> rfl
      · rw [if_pos h0]; unfold distAssert0 distAssert; split_ifs <;> rfl
    · rw [distAssert0_of_not (by omega)]; rfl
  · simp only [sampleAssignmentsPY, sampleAssignmentsLE, asInt, if_neg hz]
    exact ⟨fun _ => ⟨rfl, rfl⟩, fun _ => rfl⟩

/-- **C84, counting.** `count_assignments` refuses values and ids that are not a C `int` by an
exception. -/
theorem C84_count_range (items : List (Int × Int))
    (h : ∃ p ∈ items, ¬ InInt32 p.1 ∨ ¬ InInt32 p.2) : countAssignments items = .fail := by
  have bad : ∀ zs : List Int, (∃ z ∈ zs, ¬ InInt32 z) → asInts zs = .fail := by
    intro zs
    induction zs with
    | nil => simp
    | cons z zs ih =>
      rintro ⟨w, hw, hb⟩
      simp only [asInts]
      by_cases hz : InInt32 z
      · rw [asInt_ok hz, Res.ok_bind]
        rcases List.mem_cons.mp hw with rfl | hw
        · exact absurd hz hb
        · rw [ih ⟨w, hw, hb⟩]; rfl
      · rw [asInt, if_neg hz]; rfl
  have nub : ∀ zs : List Int, asInts zs = .fail ∨ ∃ ys, asInts zs = .ok ys := by
    intro zs
    induction zs with
    | nil => exact .inr ⟨_, rfl⟩
    | cons z zs ih =>
      simp only [asInts, asInt]
      split_ifs
      · rcases ih with h | ⟨ys, h⟩
        · rw [h]; exact .inl rfl
        · rw [h]; exact .inr ⟨_, rfl⟩
      · exact .inl rfl
  obtain ⟨p, hp, hb⟩ := h
  unfold countAssignments
  rcases hb with hb | hb
  · rw [bad _ ⟨p.1, List.mem_map.mpr ⟨p, hp, rfl⟩, hb⟩]; rfl
  · rcases nub (items.map (·.1)) with h | ⟨ys, h⟩
    · rw [h]; rfl
    · rw [h, Res.ok_bind, bad _ ⟨p.2, List.mem_map.mpr ⟨p, hp, rfl⟩, hb⟩]; rfl

/-! ## Concrete cases -/

/-- Three scores; index 1 has probability 1/2. -/
example (rng : Rng XR Unit) : probFromScores sameConv exp rng () 1
    (([Real.log 1, Real.log 2, Real.log 1] : List ℝ).map XR.fin) = .value (.fin (1 / 2), ()) := by
  obtain ⟨i, hi, s', -, h⟩ := C84_probs rng () [Real.log 1, Real.log 2, Real.log 1]
    (by simp) (by simp)
  have := h 1 (by simp)
  simp only [Nat.cast_one] at this
  rw [this]
  simp only [List.getElem_cons_succ, List.getElem_cons_zero, List.map_cons, List.map_nil,
    List.sum_cons, List.sum_nil, Real.exp_log (show (0:ℝ) < 1 by norm_num),
    Real.exp_log (show (0:ℝ) < 2 by norm_num)]
  norm_num

/-- An urn of one item ends the process; ids beyond `int` raise. -/
example : samplePairFromUrn (scripted fun _ => 0) 0 ["a"] = .terminates := rfl
example : countAssignments [(1, 0), (2147483648, 0)] = .fail := by decide

end Dist.Py
