import Verif.Lemmas.DbgClustering
import Verif.Lemmas.IdealRngExists
import Verif.Props.Annealing
import Verif.Props.LowEntropy

/-!
# C85: the reference implementation of the low-entropy clustering

`distributions.dbg.clustering.LowEntropy`, beside the C++ class of the same name.
-/

namespace Dist

open Spec FloatOps MeasureTheory

/-! ## Sampling -/

/-- Whatever floating point does and whatever is drawn, `sample_assignments(k)` either raises or
returns `k` group ids numbered in order of first appearance. -/
theorem C85_valid {F σ : Type} [FloatOps F] (N : Int) (rng : Rng F σ) (k : Nat) (s : σ) :
    Dbg.LowEntropy.sampleAssignments N rng k s = .fail ∨
      ∃ a s', Dbg.LowEntropy.sampleAssignments N rng k s = .ok (a, s') ∧ a.length = k ∧
        Contiguous a ∧ (k : Int) ≤ N := by
  unfold Dbg.LowEntropy.sampleAssignments
  by_cases hk : (k : Int) ≤ N
  · rw [if_pos hk, Int.toNat_natCast]
    have hn := Dbg.LowEntropy.sampleLoop_not_ub N rng k [] [] 0 s
    cases h : Dbg.LowEntropy.sampleLoop N rng k [] [] 0 s with
    | fail => exact .inl rfl
    | ub => exact absurd h hn
    | ok q =>
      obtain ⟨a, s'⟩ := q
      obtain ⟨h1, h2⟩ := Dbg.LowEntropy.sampleLoop_valid N rng k [] [] [] 0 contiguous_nil (by simp)
        (.inl ⟨rfl, rfl⟩) s s' a h
      exact .inr ⟨a, s', rfl, h1, by simpa using h2, hk⟩
  · rw [if_neg hk]; exact .inl rfl

/-- More items than the data set has raise; a negative number gives no items, where the C++ code
fails. -/
theorem C85_range {F σ : Type} [FloatOps F] (N : Int) (rng : Rng F σ) (k : Int) (s : σ) :
    (N < k → Dbg.LowEntropy.sampleAssignments N rng k s = .fail) ∧
    (k < 0 → k ≤ N → Dbg.LowEntropy.sampleAssignments N rng k s = .ok ([], s) ∧
      ∀ lvl, LowEntropy.sampleAssignments lvl ⟨N⟩ rng k s = .fail) := by
  refine ⟨fun h => if_neg (by omega), fun h hk => ⟨?_, fun lvl => ?_⟩⟩
  · unfold Dbg.LowEntropy.sampleAssignments
    rw [if_pos hk, Int.toNat_of_nonpos h.le]
    rfl
  · unfold LowEntropy.sampleAssignments
    rw [distAssert0_of hk, Res.ok_bind, if_pos h]

/-- In exact arithmetic, with uniform draws in `[0, 1)`, it always returns. -/
theorem C85_total {σ : Type} (N : Int) (rng : Rng XR σ)
    (hu : ∀ s, ∃ u : ℝ, (rng.unif01 s).1 = .fin u ∧ 0 ≤ u ∧ u < 1) (k : Nat) (hk : (k : Int) ≤ N)
    (s : σ) :
    ∃ a s', Dbg.LowEntropy.sampleAssignments N rng k s = .ok (a, s') ∧ a.length = k ∧
      Contiguous a := by
  have hd := (C67_draws rng hu).2
  have key : ∀ (n : Nat) (counts : List Int) (scores : List ℝ) (p : List Nat) (tc : Nat),
      (∀ y, y ∈ p ↔ y < tc) →
      Dbg.LowEntropy.Shape p tc counts (scores.map XR.fin) → ((p.length + n : Nat) : Int) ≤ N →
      ∀ s, ∃ a s', Dbg.LowEntropy.sampleLoop N rng n counts (scores.map XR.fin) p.length s =
        .ok (a, s') := by
    intro n
    induction n with
    | zero => intro counts scores p tc _ _ _ s; exact ⟨[], s, rfl⟩
    | succ n ih =>
      intro counts scores p tc hb hh hsz s
      rw [Dbg.LowEntropy.sampleLoop_step N rng n counts _ p tc hb hh s]
      have h0 := Dbg.LowEntropy.scoreAdd_eq N 0 p.length (by omega)
      rw [Nat.cast_zero] at h0
      rw [h0, Res.ok_bind]
      have hfull : (scores.map XR.fin).take tc ++
          [XR.fin (Dbg.LowEntropy.addScore N 0 p.length)] =
          (scores.take tc ++ [Dbg.LowEntropy.addScore N 0 p.length]).map XR.fin := by simp
      rw [hfull]
      have hlen : (scores.take tc ++ [Dbg.LowEntropy.addScore N 0 p.length]).length = tc + 1 := by
        rcases hh with ⟨_, hl⟩ | ⟨_, hl⟩ <;> simp at hl <;> simp [hl]
      obtain ⟨a, s1, h1, h2⟩ := hd (scores.take tc ++ [Dbg.LowEntropy.addScore N 0 p.length])
        (by simp) s
      simp only at h1
      have h3 := Dbg.LowEntropy.scoreAdd_eq N (p.count a + 1) 0 (by push_cast; omega)
      push_cast at h3
      rw [h1, Res.ok_bind]
      simp only
      rw [h3, Res.ok_bind, ← List.map_set]
      obtain ⟨rest, s2, h4⟩ := ih _ _ (p ++ [a]) _ (Dbg.LowEntropy.bound_next hb (by omega))
        (Dbg.LowEntropy.shape_next p tc a (by omega) (((scores.take tc ++
          [Dbg.LowEntropy.addScore N 0 p.length]).set a
            (Dbg.LowEntropy.addScore N (p.count a + 1) 0)).map XR.fin)
          (by rw [List.length_map, List.length_set, hlen])) (by simp at hsz ⊢; omega) s1
      rw [h4]
      exact ⟨a :: rest, s2, rfl⟩
  rcases C85_valid N rng k s with h | ⟨a, s', h, h1, h2, _⟩
  · obtain ⟨a, s', h'⟩ := key k [] [] [] 0 (by simp) (.inl ⟨rfl, rfl⟩) (by simpa using hk) s
    unfold Dbg.LowEntropy.sampleAssignments at h
    rw [if_pos hk, Int.toNat_natCast] at h
    simp only [List.map_nil, List.length_nil, Nat.cast_zero] at h'
    rw [h'] at h
    cases h
  · exact ⟨a, s', h, h1, h2⟩

/-- The law of the vector: each item joins a group, or opens a new one, in proportion to the
exponential of the reference's own `score_add_value`. -/
theorem C85_law {σ : Type} [MeasurableSpace σ] (I : IdealRng σ) (N : Int) :
    ∃ score : ℕ → ℕ → ℝ,
      (∀ g n : ℕ, (n : Int) < N →
        (Dbg.LowEntropy.scoreAddValue N g n 1 : Res XR) = .ok (.fin (score g n))) ∧
      ∀ a : List ℕ, Contiguous a → (a.length : Int) ≤ N → ∀ B : Set σ, MeasurableSet B →
        I.P {s | ∃ s' ∈ B, Dbg.LowEntropy.sampleAssignments N I.toRng a.length s = .ok (a, s')} =
          ENNReal.ofReal (sequentialProb score [] a) * I.P B := by
  refine ⟨Dbg.LowEntropy.addScore N, fun g n hn => Dbg.LowEntropy.scoreAdd_eq N g n hn,
    fun a hc hsz B hB => ?_⟩
  have h := (Dbg.LowEntropy.sampleLoop_law I N a [] 0 (by simp) [] [] (.inl ⟨rfl, rfl⟩)
    (by simp [Dbg.LowEntropy.heads]) (by simpa using hc) (by simpa using hsz) hB).2
  rw [← h]
  congr 1
  ext s
  simp only [Set.mem_setOf_eq]
  unfold Dbg.LowEntropy.sampleAssignments
  rw [if_pos hsz, Int.toNat_natCast]
  simp

/-- Like the C++ sampler, it does not draw complete data sets by the documented law, which depends on
the group sizes alone: three items. -/
theorem C85_not_exchangeable {σ : Type} [MeasurableSpace σ] (I : IdealRng σ) :
    I.P {s | ∃ s', Dbg.LowEntropy.sampleAssignments 3 I.toRng 3 s = .ok ([0, 0, 1], s')} =
        ENNReal.ofReal (16 / 155) ∧
      I.P {s | ∃ s', Dbg.LowEntropy.sampleAssignments 3 I.toRng 3 s = .ok ([0, 1, 0], s')} =
        ENNReal.ofReal (4 / 45) := by
  have := I.prob
  obtain ⟨score, hs, hl⟩ := C85_law I 3
  have hsc : ∀ g n : ℕ, (n : Int) < 3 → score g n = Dbg.LowEntropy.addScore 3 g n := by
    intro g n hn
    have := (hs g n hn).symm.trans (Dbg.LowEntropy.scoreAdd_eq 3 g n hn)
    simpa using this
  have h1 := hl [0, 0, 1] (by decide) (by simp) Set.univ MeasurableSet.univ
  have h2 := hl [0, 1, 0] (by decide) (by simp) Set.univ MeasurableSet.univ
  simp only [List.length_cons, List.length_nil, Set.mem_univ, true_and, measure_univ, mul_one]
    at h1 h2
  norm_num at h1 h2
  have e1 : ∀ n : ℕ, (n : Int) < 3 → Real.exp (score 1 n) = 4 := by
    intro n hn
    rw [hsc 1 n hn]
    unfold Dbg.LowEntropy.addScore
    rw [if_neg one_ne_zero, if_neg (by norm_num), Real.exp_add, Real.exp_log (by positivity)]
    norm_num [Real.exp_log]
  have e2 : Real.exp (score 2 2) = 27 / 4 := by
    rw [hsc 2 2 (by norm_num)]
    unfold Dbg.LowEntropy.addScore
    rw [if_neg two_ne_zero, if_neg (by norm_num), Real.exp_add, Real.exp_log (by positivity),
      mul_comm (Real.log _), ← Real.log_pow, Real.exp_log (by positivity)]
    norm_num
  have e00 : Real.exp (score 0 1) = 1 := by
    rw [hsc 0 1 (by norm_num)]
    unfold Dbg.LowEntropy.addScore
    norm_num
  have e0 : Real.exp (score 0 2) = 1 := by
    rw [hsc 0 2 (by norm_num)]
    unfold Dbg.LowEntropy.addScore
    norm_num
  rw [h1, h2]
  have hf1 : ([0, 0] : List ℕ).toFinset = {0} := by decide
  have hf2 : ([0, 1] : List ℕ).toFinset = {0, 1} := by decide
  constructor
  · congr 1
    simp only [sequentialProb, List.nil_append, List.cons_append]
    simp [hf1, e0, e00, e1, e2]
    norm_num
  · congr 1
    simp only [sequentialProb, List.nil_append, List.cons_append]
    simp [hf2, e0, e00, e1]
    norm_num

/-- Not vacuous: such generators exist, and these vectors are in reach. -/
example : Nonempty (IdealRng Supply) ∧ Contiguous [0, 0, 1, 0, 2] ∧
    (([0, 0, 1, 0, 2] : List ℕ).length : Int) ≤ 7 :=
  ⟨idealRng_exists, by decide, by decide⟩

/-! ## The partition function -/

/-- `log_partition_function` is that of the C++ code, for every number of items; where the C++ code
reads before its table, the reference returns an entry from the end of the table, or raises. -/
theorem C85_partition (n : Int) :
    (0 ≤ n → (Dbg.LowEntropy.logPartition n : Res XR) = LowEntropy.logPartition n ∧
      ∃ z : ℝ, (Dbg.LowEntropy.logPartition n : Res XR) = .ok (.fin z)) ∧
    (n < 0 → (LowEntropy.logPartition n : Res XR) = .ub) ∧
    (-48 ≤ n → n < 0 → (Dbg.LowEntropy.logPartition n : Res XR) = LowEntropy.logPartition (48 + n)) ∧
    (n < -48 → (Dbg.LowEntropy.logPartition n : Res XR) = .fail) := by
  have htab : Dbg.LowEntropy.partitionTable = LowEntropy.partitionTable := rfl
  have hlen : LowEntropy.partitionTable.length = 48 := rfl
  have small : ∀ m : Int, 0 ≤ m → m < 48 → (LowEntropy.logPartition m : Res XR) =
      match LowEntropy.partitionTable[m.toNat]? with
      | some v => .ok (lit v 100000000)
      | none => .fail := by
    intro m h0 h1
    unfold LowEntropy.logPartition
    have : m.toNat < LowEntropy.partitionTable.length := by omega
    rw [if_pos h1, if_neg (by omega), getAt_of this, Res.ok_bind, List.getElem?_eq_getElem this]
    rfl
  have agree : 0 ≤ n → (Dbg.LowEntropy.logPartition n : Res XR) = LowEntropy.logPartition n := by
    intro h
    by_cases h1 : n < 48
    · rw [small n h h1]
      unfold Dbg.LowEntropy.logPartition
      rw [if_pos h1, htab]
      simp only [if_neg (by omega : ¬ n < 0)]
      rfl
    · unfold Dbg.LowEntropy.logPartition LowEntropy.logPartition
      have hn : (0 : ℝ) < n := by exact_mod_cast (by omega : 0 < n)
      rw [if_neg h1, if_neg h1]
      simp only [XR.ofInt_eq]
      rw [Dbg.pyLog_fin hn, Res.ok_bind, XR.log_fin hn]
      rfl
  refine ⟨fun h => ⟨agree h, ?_⟩, fun h => ?_, fun h0 h1 => ?_, fun h => ?_⟩
  · rw [agree h]
    obtain ⟨k, rfl⟩ := Int.eq_ofNat_of_zero_le h
    exact C21_partition_defined k
  · unfold LowEntropy.logPartition
    rw [if_pos (by omega), if_pos h]
  · rw [small (48 + n) (by omega) (by omega)]
    unfold Dbg.LowEntropy.logPartition
    rw [if_pos (by omega), htab, hlen]
    simp only [if_pos h1, if_neg (by omega : ¬ n + ((48 : ℕ) : Int) < 0)]
    rw [show (48 : Int) + n = n + ((48 : ℕ) : Int) by push_cast; ring]
    rfl
  · unfold Dbg.LowEntropy.logPartition
    rw [if_pos (by omega), htab, hlen]
    simp only [if_pos (by omega : n < 0), if_pos (by omega : n + ((48 : ℕ) : Int) < 0)]

/-! ## Scoring -/

theorem Dbg.LowEntropy.countsLoop_eq (cs : List Nat) (s : ℝ) (n : Nat) :
    Dbg.LowEntropy.countsLoop (cs.map Int.ofNat) (XR.fin s) n =
      .ok (XR.fin (s + (cs.map fun c : Nat => (c : ℝ) * Real.log c).sum),
        ((n + cs.sum : Nat) : Int)) := by
  induction cs generalizing s n with
  | nil => simp [Dbg.LowEntropy.countsLoop]
  | cons c cs ih =>
    simp only [List.map_cons, Dbg.LowEntropy.countsLoop]
    have e1 : ((n : Int) + Int.ofNat c) = ((n + c : Nat) : Int) := by simp
    split_ifs with hc
    · have hc' : (0 : ℝ) < (c : ℝ) := by
        have : 1 < c := by simpa using hc
        exact_mod_cast (by omega : 0 < c)
      simp only [XR.ofInt_eq, Int.ofNat_eq_natCast, Int.cast_natCast] at e1 ⊢
      rw [Dbg.pyLog_fin hc', Res.ok_bind, XR.fin_mul, XR.fin_add, e1]
      have := ih (s + (c : ℝ) * Real.log c) (n + c)
      rw [this]
      simp only [List.sum_cons, ← add_assoc]
    · have : c = 0 ∨ c = 1 := by
        have : ¬ (1 < c) := by simpa using hc
        omega
      rw [e1, ih]
      rcases this with rfl | rfl <;> simp [add_assoc]

/-- On a complete data set the two `score_counts` agree: the sum of `c log c`, minus the log
partition function. -/
theorem C85_score_complete (lvl : Nat) (counts : List Nat) (hs : counts.sum ≤ 2147483647) :
    ∃ z : ℝ, Dbg.LowEntropy.logPartition counts.sum = .ok (XR.fin z) ∧
      (Dbg.LowEntropy.scoreCounts counts.sum (counts.map Int.ofNat) : Res XR) =
        .ok (.fin ((counts.map fun c : Nat => (c : ℝ) * Real.log c).sum - z)) ∧
      (LowEntropy.scoreCounts lvl ⟨counts.sum⟩ (counts.map Int.ofNat) : Res XR) =
        Dbg.LowEntropy.scoreCounts counts.sum (counts.map Int.ofNat) := by
  obtain ⟨hp, z, hz⟩ := (C85_partition counts.sum).1 (by omega)
  have h1 : (Dbg.LowEntropy.scoreCounts counts.sum (counts.map Int.ofNat) : Res XR) =
      .ok (.fin ((counts.map fun c : Nat => (c : ℝ) * Real.log c).sum - z)) := by
    unfold Dbg.LowEntropy.scoreCounts
    have h := Dbg.LowEntropy.countsLoop_eq counts 0 0
    rw [Nat.zero_add, zero_add] at h
    rw [show (ofInt 0 : XR) = .fin 0 by simp, show (0 : Int) = ((0 : Nat) : Int) from rfl, h]
    simp only [Res.ok_bind]
    rw [if_pos le_rfl, if_neg (by simp), Res.ok_bind, hz, Res.ok_bind, XR.fin_sub]
    rfl
  refine ⟨z, hz, h1, ?_⟩
  rw [h1, C21_score_counts_complete lvl counts hs z (hp ▸ hz)]

/-- Both score an incomplete data set; the difference is the correction of the reference having
rounded down the ratio of the sizes, once for every group but one. -/
theorem C85_score_incomplete (lvl : Nat) (N : Int) (counts : List Nat) (h0 : 0 < counts.sum)
    (hN : (counts.sum : Int) < N) (hN2 : N ≤ 2147483647) :
    ∃ a b : ℝ, (Dbg.LowEntropy.scoreCounts N (counts.map Int.ofNat) : Res XR) = .ok (.fin a) ∧
      (LowEntropy.scoreCounts lvl ⟨N⟩ (counts.map Int.ofNat) : Res XR) = .ok (.fin b) ∧
      b - a = (Real.log (N / counts.sum) - Real.log ((N / counts.sum : Int) : ℝ)) *
        (45 / 100 - 1 / 10 / counts.sum - 1 / 10 / N) * (counts.length - 1) ∧
      a ≤ b ∧ (a = b ↔ (counts.sum : Int) ∣ N ∨ counts.length = 1) := by
  have hc : counts ≠ [] := by rintro rfl; simp at h0
  generalize hn : counts.sum = n at *
  have a1 : (0 : ℝ) < (n : ℕ) := by exact_mod_cast h0
  have a1' : (1 : ℝ) ≤ (n : ℕ) := by exact_mod_cast h0
  have a3 : ((n : ℕ) : ℝ) < N := by
    have : (((n : Nat) : Int) : ℝ) < N := Int.cast_lt.mpr hN
    rwa [Int.cast_natCast] at this
  have a2 : (0 : ℝ) < (N : ℝ) := by linarith
  have hn0 : 0 ≤ Real.log n := Real.log_nonneg a1'
  have hNpos : (0 : ℝ) < Real.log N := Real.log_pos (by linarith)
  obtain ⟨hp, z, hz⟩ := (C85_partition n).1 (by omega)
  have hz' := hp ▸ hz
  obtain ⟨dp, hdp, hdp'⟩ : ∃ dp : ℝ, LowEntropy.dataprobCorrection ⟨N⟩ (n : Int) =
      XR.fin dp ∧ Dbg.LowEntropy.dataprobCorrection N (n : Int) = .ok (XR.fin dp) := by
    unfold LowEntropy.dataprobCorrection Dbg.LowEntropy.dataprobCorrection
    simp only [XR.ofInt_eq, Int.cast_natCast, XR.lit_eq]
    rw [XR.log_fin a1, XR.log_fin a2, Dbg.pyLog_fin a1, Res.ok_bind, Dbg.pyLog_fin a2, Res.ok_bind]
    simp only [XR.fin_mul, XR.fin_sub, XR.fin_add]
    rw [XR.pow_fin (by linarith), XR.fin_mul]
    exact ⟨_, rfl, rfl⟩
  have hpp := LowEntropy.postpred_eq lvl ⟨N⟩ (n : Int) (by omega) hN
  have hpp' := Dbg.LowEntropy.postpred_eq N (n : Int) (by omega) hN
  set S := (counts.map fun c : Nat => (c : ℝ) * Real.log c).sum with hS
  set e : ℝ := 45 / 100 - 1 / 10 / n - 1 / 10 / N with he
  have hepos : 0 < e := by
    have a : 1 / 10 / ((n : ℕ) : ℝ) ≤ 1 / 10 := by rw [div_le_iff₀ a1]; linarith
    have b : 1 / 10 / (N : ℝ) ≤ 1 / 10 := by rw [div_le_iff₀ a2]; linarith
    rw [he]; linarith
  have hlen : (1 : ℝ) ≤ counts.length := by
    exact_mod_cast List.length_pos_iff.2 hc
  set q : Int := N / (n : Int) with hq
  have hqpos : 0 < q := by
    have := Int.le_ediv_of_mul_le (by omega : (0 : Int) < n)
      (show 1 * (n : Int) ≤ N by omega)
    omega
  have hqle : (q : ℝ) ≤ N / n := by
    rw [le_div_iff₀ a1]
    have := Int.ediv_mul_le N (by omega : (n : Int) ≠ 0)
    exact_mod_cast this
  have hqp : (0 : ℝ) < q := by exact_mod_cast hqpos
  have hloglt : Real.log q ≤ Real.log (N / n) := Real.log_le_log hqp hqle
  refine ⟨S + Real.log q * e * (counts.length - 1) + dp - z,
    S + Real.log (N / n) * e * (counts.length - 1) + dp - z, ?_, ?_, by ring, ?_, ?_⟩
  · unfold Dbg.LowEntropy.scoreCounts
    have h := Dbg.LowEntropy.countsLoop_eq counts 0 0
    rw [Nat.zero_add, zero_add, hn] at h
    rw [show (ofInt 0 : XR) = .fin 0 by simp, show (0 : Int) = ((0 : Nat) : Int) from rfl, h]
    simp only [Res.ok_bind]
    rw [if_pos hN.le, if_pos hN.ne, hpp', Res.ok_bind, hdp']
    simp only [Res.ok_bind, Res.pure_eq, hz, XR.ofInt_eq, XR.fin_mul, XR.fin_add, XR.fin_sub,
      List.length_map, he, hS]
    congr 2
    push_cast
    ring
  · unfold LowEntropy.scoreCounts
    have h := LowEntropy.countsLoop_eq counts 0 0 (by omega)
    rw [Nat.zero_add, zero_add, hn] at h
    rw [show (ofInt 0 : XR) = .fin 0 by simp, show (0 : Int) = ((0 : Nat) : Int) from rfl, h]
    simp only [Res.ok_bind]
    rw [distAssert0_of hN.le, Res.ok_bind, if_pos hN.ne, hpp, Res.ok_bind, hdp]
    have hne : (counts.map Int.ofNat).isEmpty = false := by simp [hc]
    simp only [hne, Res.ok_bind, Res.pure_eq, hz', XR.ofInt_eq, XR.fin_mul, XR.fin_add, XR.fin_sub,
      List.length_map, he, hS, LowEntropy.corr]
    congr 2
    push_cast
    simp
  · have h1 : Real.log q * e * ((counts.length : ℝ) - 1) ≤
        Real.log (N / n) * e * (counts.length - 1) :=
      mul_le_mul_of_nonneg_right (mul_le_mul_of_nonneg_right hloglt hepos.le) (by linarith)
    linarith
  · have h1 : (S + Real.log q * e * ((counts.length : ℝ) - 1) + dp - z =
        S + Real.log (N / n) * e * (counts.length - 1) + dp - z) ↔
        Real.log q * e * ((counts.length : ℝ) - 1) =
          Real.log (N / n) * e * (counts.length - 1) := by
      constructor <;> intro h <;> linarith
    have h2 : ((n : Int) ∣ N) ↔ Real.log q = Real.log (N / n) := by
      constructor
      · intro hd
        rw [hq, Int.cast_div hd (by simpa using a1.ne')]
        simp
      · intro h
        have h3 : (q : ℝ) = N / n := Real.log_injOn_pos (Set.mem_Ioi.2 hqp)
          (Set.mem_Ioi.2 (div_pos a2 a1)) h
        rw [eq_div_iff a1.ne'] at h3
        have : q * (n : Int) = N := by exact_mod_cast h3
        exact ⟨q, by rw [mul_comm]; exact this.symm⟩
    rw [h1, mul_eq_mul_right_iff, mul_left_inj' hepos.ne', ← h2]
    have h3 : (counts.length : ℝ) - 1 = 0 ↔ counts.length = 1 := by
      rw [sub_eq_zero]; exact_mod_cast Iff.rfl
    rw [h3]

/-- Two groups of 2 and 1 of 10 items: the ratio 10 / 3 is rounded down. -/
example : 0 < ([2, 1] : List Nat).sum ∧ (([2, 1] : List Nat).sum : Int) < 10 ∧
    ¬ ((([2, 1] : List Nat).sum : Int) ∣ 10 ∨ ([2, 1] : List Nat).length = 1) := by decide

/-- Counts that add up to nothing, or to more than the data set, are refused. -/
theorem C85_score_refused (N : Int) (counts : List Nat)
    (h : counts.sum = 0 ∧ 0 < N ∨ N < (counts.sum : Int)) :
    (Dbg.LowEntropy.scoreCounts N (counts.map Int.ofNat) : Res XR) = .fail := by
  unfold Dbg.LowEntropy.scoreCounts
  have hl := Dbg.LowEntropy.countsLoop_eq counts 0 0
  rw [Nat.zero_add, zero_add] at hl
  rw [show (ofInt 0 : XR) = .fin 0 by simp, show (0 : Int) = ((0 : Nat) : Int) from rfl, hl]
  simp only [Res.ok_bind]
  rcases h with ⟨h, hN⟩ | h
  · rw [if_pos (by omega), if_pos (by omega)]
    unfold Dbg.LowEntropy.postpredCorrection
    rw [if_neg (by omega)]
    rfl
  · rw [if_neg (by omega)]

/-- `score_remove_value` undoes `score_add_value` while the group stays nonempty and the sample
incomplete; on a complete sample it raises. -/
theorem C85_remove_partial (N g n e : Int) (hg : 0 < g) (hn : 0 ≤ n) (he : 0 < e) :
    (n + 1 < N → ∃ x : ℝ, (Dbg.LowEntropy.scoreAddValue N g n e : Res XR) = .ok (.fin x) ∧
      (Dbg.LowEntropy.scoreRemoveValue N (g + 1) (n + 1) e : Res XR) = .ok (.fin (-x))) ∧
    (N ≤ n + 1 → (Dbg.LowEntropy.scoreRemoveValue N (g + 1) (n + 1) e : Res XR) = .fail) := by
  have hsame : ∀ k, k < N → (Dbg.LowEntropy.scoreAddValue N g k e : Res XR) =
      Dbg.LowEntropy.scoreAddValue N g 0 1 ∨ N ≤ 0 := by
    intro k hk
    by_cases h : N ≤ 0
    · exact .inr h
    · left
      unfold Dbg.LowEntropy.scoreAddValue
      have h1 : k < N ∧ 0 < e := ⟨hk, he⟩
      have h2 : (0 : Int) < N ∧ (0 : Int) < 1 := ⟨by omega, one_pos⟩
      simp only [if_pos h1, if_pos h2, if_neg hg.ne']
  constructor
  · intro h
    obtain ⟨m, rfl⟩ := Int.eq_ofNat_of_zero_le hg.le
    have h0 := Dbg.LowEntropy.scoreAdd_eq N m 0 (by push_cast; omega)
    rw [Nat.cast_zero] at h0
    refine ⟨Dbg.LowEntropy.addScore N m 0, ?_, ?_⟩
    · rcases hsame n (by omega) with h1 | h1
      · rw [h1]; exact h0
      · omega
    · unfold Dbg.LowEntropy.scoreRemoveValue
      rw [if_pos (by omega), add_sub_cancel_right]
      rcases hsame (n + 1) (by omega) with h1 | h1
      · rw [h1]
        erw [h0]
        simp [Res.ok_bind, Res.pure_eq]
      · omega
  · intro h
    unfold Dbg.LowEntropy.scoreRemoveValue
    rw [if_pos (by omega), add_sub_cancel_right]
    unfold Dbg.LowEntropy.scoreAddValue
    rw [if_neg (by omega)]
    rfl

/-- A group of 3 of 4 out of 9 items. -/
example : (0 : Int) < 3 ∧ (0 : Int) ≤ 4 ∧ (4 + 1 : Int) < 9 := by decide

end Dist
