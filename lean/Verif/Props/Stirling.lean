import Verif.Lemmas.StirlingInv

/-!
# C50: the table of Stirling numbers is exact and independent of call history
-/

namespace Dist.Stirling

open FloatOps FloatNotation

/-- **C50, call history.** For every float arithmetic and library: after any sequence of
calls, a call with any `n` and any former content of the result vector succeeds without
undefined behaviour, returns `n + 1` entries, and returns exactly what the same call returns
in a fresh process. -/
theorem C50_history {F : Type} [FloatOps F] (L : Lib F) (ns : List (Nat × List F)) (n : Nat)
    (result result' : List F) : ∃ cache cache' row cache0,
      calls L ns [] = .ok cache ∧ getRow L n cache result = .ok (cache', row) ∧
      row.length = n + 1 ∧ getRow L n [] result' = .ok (cache0, row) := by
  obtain ⟨m, hm⟩ := calls_rows L ns 0
  obtain ⟨m', hm'⟩ := getRow_rows L n m result
  obtain ⟨m0, h0⟩ := getRow_rows L n 0 result'
  refine ⟨_, _, _, _, hm, hm', ?_, h0⟩
  split_ifs <;> simp

/-- **C50, exactness.** In exact arithmetic, after any sequence of calls, the row for `n`
below 32 holds the logarithms of the unsigned Stirling numbers of the first kind (minus
infinity for the zero ones). -/
theorem C50_exact (ns : List (Nat × List XE)) (cache cache' : List (List XE)) (n : Nat)
    (result row : List XE) (hn : n < 32) (hc : calls exactLib ns [] = .ok cache)
    (hr : getRow exactLib n cache result = .ok (cache', row)) :
    row = (List.range (n + 1)).map fun k =>
      if Nat.stirlingFirst n k = 0 then XE.ninf
      else XE.fin (Real.log (Nat.stirlingFirst n k : ℝ)) := by
  obtain ⟨m, hm⟩ := calls_rows exactLib ns 0
  have hm0 : calls exactLib ns [] = .ok (rows exactLib m) := hm
  rw [hm0] at hc
  injection hc with hc
  subst hc
  obtain ⟨m', hm'⟩ := getRow_rows exactLib n m result
  rw [hm'] at hr
  injection hr with hr
  injection hr with _ hr
  rw [if_pos hn] at hr
  rw [← hr]
  refine List.map_congr_left ?_
  intro k hk
  exact entry_exact n k (Nat.lt_succ_iff.mp (List.mem_range.mp hk))

/-- The hypotheses hold after calls for 5, 40 and 2. -/
example : ∃ cache cache' row, calls exactLib [(5, []), (40, [XE.nan]), (2, [])] [] = .ok cache ∧
    getRow exactLib 4 cache [] = .ok (cache', row) ∧ row.length = 5 ∧
    row[2]? = some (XE.fin (Real.log 11)) := by
  obtain ⟨cache, cache', row, _, h1, h2, h3, _⟩ :=
    C50_history exactLib [(5, []), (40, [XE.nan]), (2, [])] 4 [] []
  refine ⟨cache, cache', row, h1, h2, h3, ?_⟩
  rw [C50_exact _ cache cache' 4 [] row (by norm_num) h1 h2]
  have : Nat.stirlingFirst 4 2 = 11 := by decide
  simp [this]

/-- **C50, beyond the table.** For `n` from 32 on the row has `n + 1` entries, minus infinity
first and zero last, as the exact row would; each inner entry is a softened minimum of the two
approximations of the comment: at most each of them, and below the smaller one by at most
`n / 3 * log 2`. -/
theorem C50_approx (n : Nat) (hn : 32 ≤ n) (cache : List (List XE)) (result : List XE) :
    ∃ row : List XE, getRow exactLib n cache result = .ok (cache, row) ∧ row.length = n + 1 ∧
      row[0]? = some XE.ninf ∧ row[n]? = some (XE.fin 0) ∧
      ∀ k, 1 ≤ k → k < n → ∃ v : ℝ, row[k]? = some (XE.fin v) ∧
        let a1 := Real.log (Nat.factorial (n - 1)) - Real.log (Nat.factorial (k - 1)) +
          ((k - 1 : ℕ) : ℝ) * Real.log (57721566490153286060 / 10 ^ 20 + Real.log ((n - 1 : ℕ) : ℝ))
        let a2 := ((n - k : ℕ) : ℝ) * Real.log ((n : ℝ) * n / 2) -
          Real.log (Nat.factorial (n - k))
        min a1 a2 - n / 3 * Real.log 2 ≤ v ∧ v ≤ min a1 a2 := by
  have hl : ((result ++ List.replicate (n + 1 - result.length) (lit 0 1 : XE)).take
      (n + 1)).length = n + 1 := by
    simp; omega
  refine ⟨(List.range (n + 1)).map fun j =>
      if j = n then lit 0 1 else if j = 0 then XE.ninf else approxEntry exactLib n j,
      ?_, ?_, ?_, ?_, ?_⟩
  · unfold getRow
    simp only [if_neg (by omega : ¬ n < 32)]
    rw [rowApprox_eq exactLib n (by omega) _ hl]
    rfl
  · simp
  · simp only [List.getElem?_map, List.getElem?_range (by omega : 0 < n + 1), Option.map_some]
    rw [if_neg (by omega)]; rfl
  · simp
  · intro k hk1 hk2
    have hn' : (32 : ℝ) ≤ n := by exact_mod_cast hn
    have hn1 : (31 : ℝ) ≤ ((n - 1 : ℕ) : ℝ) := by exact_mod_cast (by omega : 31 ≤ n - 1)
    have hlog : 0 ≤ Real.log ((n - 1 : ℕ) : ℝ) := Real.log_nonneg (by linarith)
    simp only [List.getElem?_map, List.getElem?_range (by omega : k < n + 1), Option.map_some]
    rw [if_neg (by omega), if_neg (by omega)]
    set a1 := Real.log (Nat.factorial (n - 1)) - Real.log (Nat.factorial (k - 1)) +
          ((k - 1 : ℕ) : ℝ) * Real.log (57721566490153286060 / 10 ^ 20 +
            Real.log ((n - 1 : ℕ) : ℝ)) with ha1
    set a2 := ((n - k : ℕ) : ℝ) * Real.log ((n : ℝ) * n / 2) -
          Real.log (Nat.factorial (n - k)) with ha2
    have hs : (0 : ℝ) < n / 3 := by linarith
    have hlse : ∀ a b : ℝ, (fastLogSumExp (XE.fin a) (XE.fin b) : XE) =
        XE.fin (Real.log (Real.exp a + Real.exp b)) := fun a b => logSumExp_fin a b
    have hval : approxEntry exactLib n k = XE.fin (-(n / 3 : ℝ) *
        Real.log (Real.exp (-1 / (n / 3 : ℝ) * a1) + Real.exp (-1 / (n / 3 : ℝ) * a2))) := by
      unfold approxEntry
      have e1 : exactLib.logf = (FloatOps.log : XE → XE) := rfl
      simp only [e1, XE.ofInt_eq, XE.lit_eq, XE.logFactorial_eq, Int.cast_natCast]
      rw [XE.fin_div _ _ (by norm_num), XE.fin_div _ _ (by norm_num), XE.log_fin (by positivity),
        XE.log_fin (by have : 0 < n := by omega
                       positivity), XE.fin_add, XE.log_fin (by
          have : (0 : ℝ) < ((57721566490153286060 : Int) : ℝ) / ((10 ^ 20 : ℕ) : ℝ) := by
            norm_num
          linarith)]
      simp only [XE.fin_neg, XE.fin_sub, XE.fin_mul, XE.fin_add]
      rw [XE.fin_div _ _ (by
        have : (n : ℝ) / (((3 : Int) : ℝ) / ((1 : ℕ) : ℝ)) = n / 3 := by norm_num
        rw [this]; exact hs.ne')]
      simp only [XE.fin_mul]
      rw [hlse, XE.fin_mul, XE.fin_inj, ha1, ha2]
      push_cast
      norm_num
    refine ⟨_, congrArg some hval, ?_⟩
    show _ ∧ _
    set x := -1 / (n / 3 : ℝ) * a1 with hx
    set y := -1 / (n / 3 : ℝ) * a2 with hy
    have hxa : a1 = -(n / 3 : ℝ) * x := by rw [hx]; field_simp
    have hya : a2 = -(n / 3 : ℝ) * y := by rw [hy]; field_simp
    have hpos : 0 < Real.exp x + Real.exp y := by positivity
    have hmin : min a1 a2 = -(n / 3 : ℝ) * max x y := by
      rw [hxa, hya]
      rcases le_total x y with h | h
      · rw [max_eq_right h, min_eq_right (by nlinarith)]
      · rw [max_eq_left h, min_eq_left (by nlinarith)]
    have hlow : max x y ≤ Real.log (Real.exp x + Real.exp y) := by
      rw [Real.le_log_iff_exp_le hpos]
      rcases le_total x y with h | h
      · rw [max_eq_right h]; linarith [Real.exp_pos x]
      · rw [max_eq_left h]; linarith [Real.exp_pos y]
    have hup : Real.log (Real.exp x + Real.exp y) ≤ max x y + Real.log 2 := by
      rw [Real.log_le_iff_le_exp hpos, Real.exp_add, Real.exp_log (by norm_num)]
      have h1 := Real.exp_le_exp.mpr (le_max_left x y)
      have h2 := Real.exp_le_exp.mpr (le_max_right x y)
      linarith
    rw [hmin]
    constructor <;> nlinarith

/-- The hypotheses hold at `n = 40`, `k = 7`. -/
example : 32 ≤ 40 ∧ 1 ≤ 7 ∧ 7 < 40 := by norm_num

/-! ## Interleaved threads -/

/-- **C50, threads.** In every state that any interleaving of any number of threads can reach,
a thread that has finished `get_log_stirling1_row(n)` holds exactly the row that a call in a
fresh single-threaded process returns. -/
theorem C50_threads {F : Type} [FloatOps F] (L : Lib F) (s : Sys F) (h : Reach L s) (t n : Nat)
    (r : List F) (hd : s.pc t = .done n r) : ∃ cache, getRow L n [] [] = .ok (cache, r) := by
  have hg := (inv_reach h).good t
  rw [hd] at hg
  obtain ⟨m', hm'⟩ := getRow_rows L n 0 []
  exact ⟨_, by rw [show r = _ from hg]; exact hm'⟩

/-- **C50, no undefined behaviour and no stuck thread.** In every reachable state a thread in
a call can take its next step, unless it waits for the lock while another thread is in the
critical section.  (A step needs all the vector accesses it makes to be in range.) -/
theorem C50_progress {F : Type} [FloatOps F] (L : Lib F) (s : Sys F) (h : Reach L s) (t : Nat) :
    s.pc t = .idle ∨ (∃ n r, s.pc t = .done n r) ∨
    ((∃ n r, s.pc t = .called n r ∧ n < 32) ∧ ∃ t', t' ≠ t ∧ s.holder = some t') ∨
    ∃ s', Step L s s' ∧ (s'.pc t ≠ s.pc t ∨ s'.cache ≠ s.cache) := by
  have hi := inv_reach h
  have hg := hi.good t
  cases hp : s.pc t with
  | idle => exact Or.inl rfl
  | done n r => exact Or.inr (Or.inl ⟨n, r, rfl⟩)
  | called n r =>
    rw [hp] at hg
    by_cases hn : n < 32
    · cases hh : s.holder with
      | none =>
        refine Or.inr (Or.inr (Or.inr ⟨_, Step.acquire s t n r hp hn hh, Or.inl ?_⟩))
        simp
      | some t' =>
        refine Or.inr (Or.inr (Or.inl ⟨⟨n, r, rfl, hn⟩, t', ?_, rfl⟩))
        rintro rfl
        have := (hi.own t').mpr hh
        rw [hp] at this
        cases this
    · refine Or.inr (Or.inr (Or.inr ⟨_, Step.approx s t n r _ hp (by omega)
        (rowApprox_eq L n (by omega) r hg), Or.inl ?_⟩))
      simp
  | filling n r =>
    have hown : s.holder = some t := (hi.own t).mp (by rw [hp]; rfl)
    have hheld := hi.held t hown
    rw [hp] at hheld hg
    obtain ⟨m, hm⟩ := hheld
    by_cases hn : s.cache.length ≤ n
    · obtain ⟨e0, e1⟩ := partialRow_one L s.cache.length
      refine Or.inr (Or.inr (Or.inr ⟨_, Step.push s t n r _ _ hp hn e0 e1, Or.inr ?_⟩))
      simp
    · have hg' := getAt_rows L (m := m) (k := n) (by rw [hm] at hn; simpa using hn) []
      rw [List.append_nil, ← hm] at hg'
      refine Or.inr (Or.inr (Or.inr ⟨_, Step.copy s t n r _ _ hp (by omega) hg'
        (copyRow_fullRow L n r hg.1), Or.inl ?_⟩))
      simp
  | writing n r k =>
    have hown : s.holder = some t := (hi.own t).mp (by rw [hp]; rfl)
    have hheld := hi.held t hown
    rw [hp] at hheld hg
    obtain ⟨m, hk1, hk2, hmn, hm⟩ := hheld
    have hlen : s.cache.length = m + 2 := by rw [hm]; simp
    have e1 : s.cache.length - 1 = m + 1 := by omega
    have e2 : s.cache.length - 2 = m := by omega
    by_cases hk : k < s.cache.length - 1
    · refine Or.inr (Or.inr (Or.inr ⟨_, Step.write s t n k r (fullRow L m)
        (partialRow L (m + 1) k) (partialRow L (m + 1) (k + 1)) (entry L m k) (entry L m (k - 1))
        _ hp hk ?_ (getAt_fullRow L (by omega)) (getAt_fullRow L (by omega)) ?_ ?_
        (setAt_of (by omega)), Or.inl ?_⟩))
      · rw [e2, hm, getAt_rows L (by omega)]
      · rw [e1, getAt_of (by omega)]; simp [hm]
      · rw [e2]; exact setAt_partialRow L hk1 (by omega)
      · simp
    · refine Or.inr (Or.inr (Or.inr ⟨_, Step.rowEnd s t n k r hp (by omega), Or.inl ?_⟩))
      simp

/-- Two threads: thread 0 enters a call for row 3 and takes the lock, thread 1 enters a call. -/
example {F : Type} [FloatOps F] (L : Lib F) (x : F) : ∃ s : Sys F, Reach L s ∧
    s.pc 0 = .filling 3 [x, x, x, x] ∧ s.pc 1 = .called 1 [x, x] ∧ s.holder = some 0 := by
  have h1 := Reach.step .start (Step.call (L := L) Sys.start 0 3 [x, x, x, x] (.inl rfl) rfl)
  have h2 := Reach.step h1 (Step.acquire _ 0 3 [x, x, x, x] (by simp) (by norm_num) rfl)
  have h3 := Reach.step h2 (Step.call _ 1 1 [x, x] (.inl rfl) rfl)
  exact ⟨_, h3, by simp, by simp, rfl⟩

end Dist.Stirling
