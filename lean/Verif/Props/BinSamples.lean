import Verif.Lemmas.BinSamples

/-!
# C74: `bin_samples` and `histogram`

`binSamples samples k support` is the pair of the counts and of the ranges of the bins, in exact
arithmetic.
-/

namespace Dist.Props

open Util

/-- The samples in the range `(lo, hi)` of a bin: `[lo, hi)`, and `[lo, hi]` for the last. -/
noncomputable def inRange (samples : List ℝ) (last : Prop) (lo hi : ℝ) : ℕ := by
  classical exact samples.countP fun x => decide (lo ≤ x ∧ (x < hi ∨ last ∧ x = hi))

/-- Any samples, at least as many as bins: there are `k` counts, they add up to the number of
samples and differ by at most one. -/
theorem C74_bin_fill (samples : List ℝ) {k : ℕ} (hk : 0 < k) (hn : k ≤ samples.length)
    (support : Option (ℝ × ℝ)) :
    ∃ counts ranges, binSamples (samples.map XR.fin) k
        (support.map fun s => (XR.fin s.1, XR.fin s.2)) = .ok (counts, ranges) ∧
      counts.length = k ∧ ranges.length = k ∧ counts.sum = samples.length ∧
      ∀ c ∈ counts, c = samples.length / k ∨ c = samples.length / k + 1 := by
  obtain ⟨s, hp, hs⟩ := exists_sorted_reals samples
  refine ⟨_, _, binSamples_eq hp hs hk hn _, by simp, ?_, sum_binSize _ _ hk, ?_⟩
  · cases support <;> simp [setSupport]
  · intro c hc
    obtain ⟨i, _, rfl⟩ := List.mem_map.1 hc
    exact binSize_eq _ _ _

/-- Distinct samples, inside the support if there is one: each count is the number of samples in the
range of the bin, and the ranges follow one another. -/
theorem C74_bin_ranges_partial (samples : List ℝ) (hd : samples.Nodup) {k : ℕ} (hk : 0 < k)
    (hn : k ≤ samples.length) (support : Option (ℝ × ℝ))
    (hsup : ∀ a b, support = some (a, b) → ∀ x ∈ samples, a ≤ x ∧ x ≤ b) :
    ∃ (counts : List ℕ) (ranges : List (ℝ × ℝ)),
      binSamples (samples.map XR.fin) k (support.map fun s => (XR.fin s.1, XR.fin s.2)) =
        .ok (counts, ranges.map fun r => (XR.fin r.1, XR.fin r.2)) ∧
      counts.length = k ∧ ranges.length = k ∧
      (∀ i c r, counts[i]? = some c → ranges[i]? = some r →
        c = inRange samples (i + 1 = k) r.1 r.2) ∧
      (∀ i r r', ranges[i]? = some r → ranges[i + 1]? = some r' → r.2 = r'.1) ∧
      (∀ a b, support = some (a, b) →
        ranges[0]?.map Prod.fst = some a ∧ ranges[k - 1]?.map Prod.snd = some b) := by
  obtain ⟨s, hp, hs⟩ := exists_sorted_reals samples
  have hlen : s.length = samples.length := hp.length_eq
  have hs' : s.Pairwise (· < ·) := by
    have hnd : s.Nodup := hp.nodup_iff.2 hd
    exact hs.imp₂ (fun _ _ h1 h2 => lt_of_le_of_ne h1 h2) hnd
  let lo : ℕ → ℝ := fun i => match support with
    | none => binLow s k i
    | some (a, _) => if i = 0 then a else binLow s k i
  let hi : ℕ → ℝ := fun i => match support with
    | none => binTop s k i
    | some (_, b) => if i + 1 = k then b else binTop s k i
  have hr : setSupport (support.map fun s => (XR.fin s.1, XR.fin s.2))
      ((List.range k).map fun i => (XR.fin (binLow s k i), XR.fin (binTop s k i))) =
      ((List.range k).map fun i => (lo i, hi i)).map fun r => (XR.fin r.1, XR.fin r.2) := by
    refine List.ext_getElem? fun i => ?_
    by_cases hi' : i < k
    · rw [setSupport_getElem _ _ hi']
      simp only [List.getElem?_map, List.getElem?_range hi', Option.map_some, lo, hi]
      cases support with
      | none => rfl
      | some ab =>
        simp only [Option.map_some]
        split_ifs <;> rfl
    · rw [List.getElem?_eq_none, List.getElem?_eq_none]
      · simpa using hi'
      · cases support <;> simp [setSupport] <;> omega
  refine ⟨(List.range k).map (binSize samples.length k), (List.range k).map fun i => (lo i, hi i),
    ?_, by simp, by simp, ?_, ?_, ?_⟩
  · rw [binSamples_eq hp hs hk hn, hr]
  · intro i c r hc hr'
    have hik : i < k := by
      have := (List.getElem?_eq_some_iff.1 hc).1
      simpa using this
    simp only [List.getElem?_map, List.getElem?_range hik, Option.map_some,
      Option.some.injEq] at hc hr'
    subst hc hr'
    have h := countP_bin hs' hk (hlen ▸ hn) hik (lo i) (hi i) (by
      cases support with
      | none => exact .inl rfl
      | some ab =>
        by_cases h0 : i = 0
        · refine .inr ⟨h0, fun x hx => ?_⟩
          simp only [lo, h0, if_true]
          exact (hsup ab.1 ab.2 rfl x (hp.subset hx)).1
        · left; simp only [lo, h0, if_false]) (by
      cases support with
      | none => exact .inl rfl
      | some ab =>
        by_cases h0 : i + 1 = k
        · refine .inr ⟨h0, fun x hx => ?_⟩
          simp only [hi, h0, if_true]
          exact (hsup ab.1 ab.2 rfl x (hp.subset hx)).2
        · left; simp only [hi, h0, if_false])
    rw [← hlen, ← h, inRange, hp.countP_eq]
    exact List.countP_congr fun x _ => by simp
  · intro i r r' h1 h2
    have hik : i + 1 < k := by
      have := (List.getElem?_eq_some_iff.1 h2).1
      simpa using this
    simp only [List.getElem?_map, List.getElem?_range hik,
      List.getElem?_range (show i < k by omega), Option.map_some, Option.some.injEq] at h1 h2
    subst h1 h2
    have e1 : hi i = binTop s k i := by
      simp only [hi]; cases support <;> simp; omega
    have e2 : lo (i + 1) = binLow s k (i + 1) := by
      simp only [lo]; cases support <;> simp
    rw [e1, e2, binTop, if_pos hik, binLow]
  · rintro a b rfl
    have h1 : 0 < k := hk
    simp only [List.getElem?_map, List.getElem?_range h1,
      List.getElem?_range (show k - 1 < k by omega), Option.map_some, lo, hi, if_true]
    rw [if_pos (by omega)]
    simp

/-- **C74, what is missing of it.**  With equal samples the counts need not be those of the ranges:
two samples `0` in two bins get one each, and the range of the first bin, `[0, 0)`, is empty. -/
theorem C74_bin_ties_fails :
    ∃ counts ranges, binSamples ([0, 0].map XR.fin) 2 none =
        .ok (counts, ranges.map fun r => (XR.fin r.1, XR.fin r.2)) ∧
      counts = [1, 1] ∧ ranges = [((0 : ℝ), (0 : ℝ)), (0, 0)] ∧
      inRange [0, 0] False 0 0 = 0 ∧ inRange [0, 0] True 0 0 = 2 := by
  refine ⟨[1, 1], [(0, 0), (0, 0)], ?_, rfl, rfl, ?_, ?_⟩
  · rw [binSamples_eq (l := [0, 0]) (s := [0, 0]) (List.Perm.refl _) (by simp) (by norm_num)
      (by simp)]
    simp [binSize, binIndex, setSupport, binLow, binTop, List.range_succ]
  · simp [inRange]
  · simp [inRange]

/-- With more bins than samples the call raises. -/
theorem C74_bin_few_fails (samples : List ℝ) {k : ℕ} (hn : samples.length < k)
    (support : Option (XR × XR)) : binSamples (samples.map XR.fin) k support = .fail :=
  binSamples_few hn support

/-- `histogram` of natural numbers below the number of bins: entry `i` is the number of samples
equal to `i`, and the entries add up to the number of samples. -/
theorem C74_histogram (samples : List ℕ) (n : ℕ) (h : ∀ x ∈ samples, x < n) :
    histogram (samples.map fun x : ℕ => (x : ℤ)) (some n) =
      .ok ((List.range n).map fun i => (samples.count i : ℤ)) ∧
    ((List.range n).map fun i => (samples.count i : ℤ)).sum = samples.length := by
  constructor
  · rw [histogram]
    simp only [Res.ok_bind]
    rw [if_neg (by omega)]
    have hr : List.replicate (n : ℤ).toNat (0 : ℤ) = (List.range n).map fun _ => 0 := by
      simp [List.map_const']
    rw [hr, histLoop_eq samples h]
    simp
  · exact sum_count_keys samples (List.range n) List.nodup_range fun x hx =>
      List.mem_range.2 (h x hx)

/-- Without a number of bins there are as many as the greatest sample and one. -/
theorem C74_histogram_default (samples : List ℕ) (m : ℕ) (hm : m ∈ samples)
    (hmax : ∀ x ∈ samples, x ≤ m) :
    histogram (samples.map fun x : ℕ => (x : ℤ)) none =
      .ok ((List.range (m + 1)).map fun i => (samples.count i : ℤ)) := by
  have h := (C74_histogram samples (m + 1) fun x hx => Nat.lt_succ_of_le (hmax x hx)).1
  have : (samples.map fun x : ℕ => (x : ℤ)).max? = some (m : ℤ) := by
    rw [List.max?_eq_some_iff]
    constructor
    · exact List.mem_map.2 ⟨m, hm, rfl⟩
    · intro b hb
      obtain ⟨x, hx, rfl⟩ := List.mem_map.1 hb
      exact_mod_cast hmax x hx
  rw [← h, histogram.eq_def, this, histogram.eq_def]
  push_cast
  rfl

/-- A sample at or beyond the number of bins raises. -/
theorem C74_histogram_fails (samples : List ℕ) (n : ℕ) (h : ∃ x ∈ samples, n ≤ x) :
    histogram (samples.map fun x : ℕ => (x : ℤ)) (some n) = .fail := by
  rw [histogram]
  simp only [Res.ok_bind]
  rw [if_neg (by omega)]
  have hr : List.replicate (n : ℤ).toNat (0 : ℤ) = (List.range n).map fun _ => 0 := by
    simp [List.map_const']
  rw [hr, histLoop_fail samples h]

/-- A negative sample is counted as one from the other end. -/
theorem C74_histogram_negative : histogram [-1, 2] none = .ok [0, 0, 2] := by
  simp [histogram, histLoop, npIncr, List.max?, List.replicate, List.modify, Res.ok_bind]

/-! ## Cases -/

/-- Five samples in two bins. -/
example : ∃ counts ranges, binSamples ([5, 1, 4, 2, 3].map XR.fin) 2 none =
    .ok (counts, ranges) ∧ counts.sum = 5 := by
  obtain ⟨c, r, h, _, _, hs, _⟩ := C74_bin_fill [5, 1, 4, 2, 3] (k := 2) (by norm_num) (by simp)
    none
  exact ⟨c, r, h, hs⟩

example : ∃ counts ranges, binSamples ([5, 1, 4, 2, 3].map XR.fin) 2
    (some (XR.fin 0, XR.fin 9)) = .ok (counts, ranges) := by
  obtain ⟨c, r, h, _⟩ := C74_bin_ranges_partial [5, 1, 4, 2, 3] (by norm_num) (k := 2)
    (by norm_num) (by simp) (some (0, 9)) (by
      rintro a b h x hx
      obtain ⟨rfl, rfl⟩ := Prod.mk.inj (Option.some.inj h)
      simp only [List.mem_cons, List.not_mem_nil, or_false] at hx
      rcases hx with rfl | rfl | rfl | rfl | rfl <;> norm_num)
  exact ⟨c, _, h⟩

example : histogram [0, 2, 2, 1] (some 4) = .ok [1, 1, 2, 0] := by
  have := (C74_histogram [0, 2, 2, 1] 4 (by decide)).1
  simpa [List.range_succ] using this

end Dist.Props
