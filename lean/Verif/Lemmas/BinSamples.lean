import Verif.Lemmas.GofSort

/-! # Lemmas on `bin_samples` and `histogram` -/

namespace Dist

open FloatOps FloatNotation

namespace Util

/-- The upper end of bin `i`. -/
def binHi {F : Type} [Inhabited F] (bins : List (List F)) (i : ℕ) : F :=
  match bins[i + 1]? with
  | some (x :: _) => x
  | _ => (bins[i]?.getD []).getLast?.getD default

theorem binRanges_eq {F : Type} [FloatOps F] [Inhabited F] (bins : List (List F))
    (h : ∀ b ∈ bins, b ≠ []) :
    ∃ out, binRanges bins = .ok out ∧ out.length = bins.length ∧
      ∀ i b, bins[i]? = some b →
        out[i]? = some ((b.head?.getD default, binHi bins i), b.length) := by
  induction bins with
  | nil => exact ⟨[], rfl, rfl, by simp⟩
  | cons b rest ih =>
    obtain ⟨out, ho, hl, hi⟩ := ih fun c hc => h c (List.mem_cons_of_mem _ hc)
    obtain ⟨x, b', rfl⟩ : ∃ x b', b = x :: b' := by
      cases b with
      | nil => exact absurd rfl (h [] (by simp))
      | cons x b' => exact ⟨x, b', rfl⟩
    have hlast : (x :: b').getLast? = some ((x :: b').getLast (by simp)) := by
      simp [List.getLast?_eq_some_getLast]
    refine ⟨((x, match rest.head? with
        | some (y :: _) => y
        | _ => (x :: b').getLast (by simp)), (x :: b').length) :: out, ?_, by simp [hl], ?_⟩
    · rw [binRanges]
      simp only [List.head?_cons, hlast, ho, Res.ok_bind]
      rfl
    · intro i c hc
      cases i with
      | zero =>
        simp only [List.getElem?_cons_zero, Option.some.injEq] at hc
        subst hc
        simp only [List.getElem?_cons_zero, List.head?_cons, Option.getD_some, binHi, zero_add,
          List.getElem?_cons_succ, hlast]
        rw [← List.head?_eq_getElem?]
      | succ i =>
        simp only [List.getElem?_cons_succ] at hc ⊢
        rw [hi i c hc]
        simp [binHi]

theorem binRanges_fail {F : Type} [FloatOps F] (bins : List (List F)) (h : [] ∈ bins) :
    binRanges bins = .fail := by
  induction bins with
  | nil => simp at h
  | cons b rest ih =>
    rw [binRanges]
    cases b with
    | nil => simp
    | cons x b' =>
      have hr : [] ∈ rest := by simpa using h
      have hlast : (x :: b').getLast? = some ((x :: b').getLast (by simp)) := by
        simp [List.getLast?_eq_some_getLast]
      simp only [List.head?_cons, hlast, ih hr]
      rfl

/-- The first index of bin `i` of `k` for `n` samples. -/
def binIndex (n k i : ℕ) : ℕ := i * (n / k) + min (n % k) i

theorem binIndex_zero (n k : ℕ) : binIndex n k 0 = 0 := by simp [binIndex]

theorem binIndex_last (n k : ℕ) (hk : 0 < k) : binIndex n k k = n := by
  have := Nat.mod_lt n hk
  rw [binIndex, min_eq_left this.le, Nat.div_add_mod]

theorem binIndex_succ (n k i : ℕ) :
    binIndex n k (i + 1) = binIndex n k i + (n / k + if i < n % k then 1 else 0) := by
  unfold binIndex
  rw [add_mul]
  split_ifs with h
  · rw [min_eq_right (by omega), min_eq_right h.le]; ring
  · rw [min_eq_left (by omega), min_eq_left (by omega)]; ring

theorem binIndex_mono (n k : ℕ) {i j : ℕ} (h : i ≤ j) : binIndex n k i ≤ binIndex n k j := by
  induction h with
  | refl => exact le_rfl
  | step _ ih => rw [binIndex_succ]; exact ih.trans (Nat.le_add_right _ _)

theorem binIndex_lt {n k : ℕ} (hk : 0 < k) (hn : k ≤ n) (i : ℕ) :
    binIndex n k i < binIndex n k (i + 1) := by
  have := Nat.div_pos hn hk
  rw [binIndex_succ]; omega

/-- The upper end of bin `i` of the sorted samples `s`. -/
noncomputable def binTop (s : List ℝ) (k i : ℕ) : ℝ :=
  if i + 1 < k then s.getD (binIndex s.length k (i + 1)) 0 else s.getD (s.length - 1) 0

noncomputable def binLow (s : List ℝ) (k i : ℕ) : ℝ := s.getD (binIndex s.length k i) 0

def binSize (n k i : ℕ) : ℕ := binIndex n k (i + 1) - binIndex n k i

noncomputable instance : Inhabited XR := ⟨XR.nan⟩

theorem binSamples_eq {l s : List ℝ} (hp : s.Perm l) (hs : s.Pairwise (· ≤ ·)) {k : ℕ} (hk : 0 < k)
    (hn : k ≤ l.length) (support : Option (XR × XR)) :
    binSamples (l.map XR.fin) k support = .ok ((List.range k).map (binSize l.length k),
      setSupport support ((List.range k).map fun i =>
        (XR.fin (binLow s k i), XR.fin (binTop s k i)))) := by
  have hlen : s.length = l.length := hp.length_eq
  rw [binSamples, sort_reals hp hs]
  simp only [List.length_map, hk.ne', if_false, hlen]
  set n := l.length with hndef
  set S := s.map XR.fin with hS
  have hSl : S.length = n := by simp [hS, hlen]
  set bins := (List.range k).map fun i =>
      (S.drop (i * (n / k) + min (n % k) i)).take
        ((i + 1) * (n / k) + min (n % k) (i + 1) - (i * (n / k) + min (n % k) i)) with hbins
  have hbl : bins.length = k := by simp [hbins]
  have hb : ∀ i, i < k → bins[i]? = some ((S.drop (binIndex n k i)).take (binSize n k i)) := by
    intro i hi
    simp [hbins, hi, binSize, binIndex]
  have hbn : ∀ i, k ≤ i → bins[i]? = none := by
    intro i hi; rw [List.getElem?_eq_none_iff, hbl]; exact hi
  have hlt : ∀ i, i < k → binIndex n k i < n := by
    intro i hi
    have h1 := binIndex_lt hk hn i
    have h2 := binIndex_mono n k (show i + 1 ≤ k by omega)
    rw [binIndex_last n k hk] at h2
    omega
  have hsz : ∀ i, binSize n k i ≠ 0 := by
    intro i
    have := binIndex_lt hk hn i
    unfold binSize; omega
  have hhead : ∀ i, i < k → ((S.drop (binIndex n k i)).take (binSize n k i)).head? =
      some (XR.fin (binLow s k i)) := by
    intro i hi
    rw [List.head?_take, if_neg (hsz i), List.head?_drop, hS, List.getElem?_map, binLow, hlen,
      List.getD_eq_getElem?_getD, List.getElem?_eq_getElem (by rw [hlen]; exact hlt i hi)]
    simp
  have hmem : ∀ b ∈ bins, b ≠ [] := by
    intro b hbm hbe
    obtain ⟨i, hi⟩ := List.mem_iff_getElem?.1 hbm
    have hik : i < k := by
      rw [← hbl]; exact (List.getElem?_eq_some_iff.1 hi).1
    rw [hb i hik] at hi
    have h1 := hhead i hik
    rw [Option.some.inj hi, hbe] at h1
    simp at h1
  obtain ⟨out, ho, hol, hoi⟩ := binRanges_eq bins hmem
  have htop : ∀ i, i < k → binHi bins i = XR.fin (binTop s k i) := by
    intro i hi
    rw [binHi, binTop]
    by_cases hi1 : i + 1 < k
    · rw [hb _ hi1, if_pos hi1]
      have h1 := hhead _ hi1
      rw [binLow] at h1
      cases hc : (S.drop (binIndex n k (i + 1))).take (binSize n k (i + 1)) with
      | nil => rw [hc] at h1; simp at h1
      | cons x t => rw [hc] at h1; simpa using h1
    · rw [hbn _ (by omega), hb i hi, if_neg hi1]
      have e : binIndex n k (i + 1) = n := by
        rw [show i + 1 = k by omega, binIndex_last n k hk]
      have e2 : (S.drop (binIndex n k i)).take (binSize n k i) = S.drop (binIndex n k i) := by
        rw [List.take_of_length_le]
        rw [List.length_drop, hSl, binSize, e]
      simp only [Option.getD_some, e2]
      have hd : S.drop (binIndex n k i) ≠ [] := by
        rw [ne_eq, List.drop_eq_nil_iff, hSl]
        have := hlt i hi; omega
      rw [List.getLast?_drop, if_neg (by rw [hSl]; have := hlt i hi; omega), hS,
        List.getLast?_map, List.getLast?_eq_getElem?, List.getD_eq_getElem?_getD,
        List.getElem?_eq_getElem (by rw [hlen]; omega)]
      simp
  have hout : out = (List.range k).map fun i =>
      ((XR.fin (binLow s k i), XR.fin (binTop s k i)), binSize n k i) := by
    refine List.ext_getElem? fun i => ?_
    by_cases hi : i < k
    · rw [hoi i _ (hb i hi), hhead i hi, htop i hi]
      have : ((S.drop (binIndex n k i)).take (binSize n k i)).length = binSize n k i := by
        rw [List.length_take, List.length_drop, hSl, min_eq_left]
        have h2 := binIndex_mono n k (show i + 1 ≤ k by omega)
        rw [binIndex_last n k hk] at h2
        unfold binSize; omega
      rw [this]
      simp [hi]
    · rw [List.getElem?_eq_none (by rw [hol, hbl]; omega), List.getElem?_eq_none (by simp; omega)]
  rw [ho, Res.ok_bind, hout]
  simp only [List.map_map, Function.comp_def, Res.pure_eq]

theorem binSamples_few {l : List ℝ} {k : ℕ} (hn : l.length < k) (support : Option (XR × XR)) :
    binSamples (l.map XR.fin) k support = .fail := by
  have hk : 0 < k := by omega
  rw [binSamples]
  simp only [hk.ne', if_false, List.length_mergeSort, List.length_map]
  rw [binRanges_fail]
  · rfl
  · refine List.mem_map.2 ⟨l.length, by simpa using hn, ?_⟩
    simp only [Nat.div_eq_of_lt hn, Nat.mod_eq_of_lt hn, mul_zero, zero_add]
    simp

theorem setSupport_getElem {F : Type} [FloatOps F] (support : Option (F × F)) (g : ℕ → F × F)
    {k : ℕ} {i : ℕ} (hi : i < k) :
    (setSupport support ((List.range k).map g))[i]? =
      some (match support with
        | none => g i
        | some (a, b) => (if i = 0 then a else (g i).1, if i + 1 = k then b else (g i).2)) := by
  cases support with
  | none => simp [setSupport, hi]
  | some ab =>
    obtain ⟨a, b⟩ := ab
    simp only [setSupport, List.length_map, List.length_range, List.getElem?_modify,
      List.getElem?_map, List.getElem?_range hi, Option.map_some, Option.map_eq_map]
    congr 1
    split_ifs <;> first | omega | rfl

/-- The samples of bin `i`. -/
theorem countP_bin {s : List ℝ} (hs : s.Pairwise (· < ·)) {k : ℕ} (hk : 0 < k)
    (hn : k ≤ s.length) {i : ℕ} (hi : i < k) (lo hi' : ℝ)
    (hlo : lo = binLow s k i ∨ i = 0 ∧ ∀ x ∈ s, lo ≤ x)
    (hhi : hi' = binTop s k i ∨ i + 1 = k ∧ ∀ x ∈ s, x ≤ hi') :
    (s.countP fun x => decide (lo ≤ x ∧ (x < hi' ∨ i + 1 = k ∧ x = hi'))) =
      binSize s.length k i := by
  have hlt : ∀ j j' (h : j < j') (h' : j' < s.length), s[j] < s[j'] := fun j j' h h' =>
    List.pairwise_iff_getElem.1 hs j j' (h.trans h') h' h
  have hle : ∀ j j' (h : j ≤ j') (h' : j' < s.length), s[j] ≤ s[j'] := fun j j' h h' => by
    rcases h.lt_or_eq with g | rfl
    · exact (hlt j j' g h').le
    · exact le_rfl
  set a := binIndex s.length k i with ha
  set b := binIndex s.length k (i + 1) with hb
  have hab : a < b := binIndex_lt hk hn i
  have hbn : b ≤ s.length := by
    have := binIndex_mono s.length k (show i + 1 ≤ k by omega)
    rwa [binIndex_last _ k hk] at this
  have hbl : i + 1 ≠ k → b < s.length := by
    intro h
    have h1 := binIndex_lt hk hn (i + 1)
    have h2 := binIndex_mono s.length k (show i + 1 + 1 ≤ k by omega)
    rw [binIndex_last _ k hk] at h2
    omega
  have hbk : i + 1 = k → b = s.length := by
    intro h; rw [hb, h, binIndex_last _ k hk]
  have ha0 : i = 0 → a = 0 := by rintro rfl; exact binIndex_zero _ _
  have hlow : binLow s k i = s[a]'(by omega) := by
    rw [binLow, List.getD_eq_getElem?_getD, List.getElem?_eq_getElem (by omega)]; rfl
  have htop : ∀ h : i + 1 ≠ k, binTop s k i = s[b]'(hbl h) := by
    intro h
    rw [binTop, if_pos (by omega), List.getD_eq_getElem?_getD,
      List.getElem?_eq_getElem (hbl h)]; rfl
  have htop' : i + 1 = k → binTop s k i = s[s.length - 1]'(by omega) := by
    intro h
    rw [binTop, if_neg (by omega), List.getD_eq_getElem?_getD,
      List.getElem?_eq_getElem (by omega)]; rfl
  -- the three parts
  have hlo1 : ∀ j (h : j < s.length), a ≤ j → lo ≤ s[j] := by
    intro j h haj
    rcases hlo with h1 | ⟨_, h1⟩
    · rw [h1, hlow]; exact hle a j haj h
    · exact h1 _ (List.getElem_mem h)
  have hlo2 : ∀ j (h : j < a), s[j]'(by omega) < lo := by
    intro j h
    rcases hlo with h1 | ⟨h0, _⟩
    · rw [h1, hlow]; exact hlt j a h (by omega)
    · have := ha0 h0; omega
  have hhi1 : ∀ j (h : j < b), (s[j]'(by omega) < hi' ∨ i + 1 = k ∧ s[j]'(by omega) = hi') := by
    intro j h
    by_cases hik : i + 1 = k
    · have hle' : s[j]'(by omega) ≤ hi' := by
        rcases hhi with h1 | ⟨_, h1⟩
        · rw [h1, htop' hik]; exact hle j _ (by omega) (by omega)
        · exact h1 _ (List.getElem_mem _)
      rcases hle'.lt_or_eq with g | g
      · exact .inl g
      · exact .inr ⟨hik, g⟩
    · rcases hhi with h1 | ⟨h1, _⟩
      · left; rw [h1, htop hik]; exact hlt j b h (hbl hik)
      · exact absurd h1 hik
  have hhi2 : ∀ j (h : j < s.length), b ≤ j → ¬ (s[j] < hi' ∨ i + 1 = k ∧ s[j] = hi') := by
    intro j h hbj
    have hik : i + 1 ≠ k := fun h' => by have := hbk h'; omega
    rcases hhi with h1 | ⟨h1, _⟩
    · rintro (h2 | h2)
      · rw [h1, htop hik] at h2
        exact absurd h2 (hle b j hbj h).not_gt
      · exact hik h2.1
    · exact absurd h1 hik
  set P : ℝ → Bool := fun x => decide (lo ≤ x ∧ (x < hi' ∨ i + 1 = k ∧ x = hi')) with hP
  have hsplit : s = s.take a ++ ((s.drop a).take (b - a) ++ s.drop b) := by
    have : s.drop b = (s.drop a).drop (b - a) := by
      rw [List.drop_drop]; congr 1; omega
    rw [this, List.take_append_drop, List.take_append_drop]
  have c1 : (s.take a).countP P = 0 := by
    rw [List.countP_eq_zero]
    intro x hx
    obtain ⟨j, hj, rfl⟩ := List.mem_iff_getElem.1 hx
    rw [List.length_take] at hj
    rw [List.getElem_take]
    have := hlo2 j (by omega)
    simp only [hP, decide_eq_true_eq, not_and]
    intro h; exact absurd h this.not_ge
  have c2 : ((s.drop a).take (b - a)).countP P = b - a := by
    have hl : ((s.drop a).take (b - a)).length = b - a := by
      rw [List.length_take, List.length_drop]; omega
    refine Eq.trans (List.countP_eq_length.2 ?_) hl
    intro x hx
    obtain ⟨j, hj, rfl⟩ := List.mem_iff_getElem.1 hx
    rw [hl] at hj
    rw [List.getElem_take, List.getElem_drop]
    simp only [hP, decide_eq_true_eq]
    exact ⟨hlo1 _ _ (by omega), hhi1 _ (by omega)⟩
  have c3 : (s.drop b).countP P = 0 := by
    rw [List.countP_eq_zero]
    intro x hx
    obtain ⟨j, hj, rfl⟩ := List.mem_iff_getElem.1 hx
    rw [List.length_drop] at hj
    rw [List.getElem_drop]
    simp only [hP, decide_eq_true_eq, not_and]
    intro _; exact hhi2 _ _ (by omega)
  have := congrArg (List.countP P) hsplit
  rw [List.countP_append, List.countP_append, c1, c2, c3] at this
  rw [this, binSize]
  omega

theorem sum_binSize (n k : ℕ) (hk : 0 < k) :
    ((List.range k).map (binSize n k)).sum = n := by
  have : ∀ m, ((List.range m).map (binSize n k)).sum = binIndex n k m := by
    intro m
    induction m with
    | zero => simp [binIndex_zero]
    | succ m ih =>
      rw [List.range_succ, List.map_append, List.sum_append, ih]
      have := binIndex_mono n k (Nat.le_succ m)
      simp only [List.map_cons, List.map_nil, List.sum_cons, List.sum_nil, binSize]
      rw [Nat.succ_eq_add_one] at this
      omega
  rw [this, binIndex_last n k hk]

theorem binSize_eq (n k i : ℕ) : binSize n k i = n / k ∨ binSize n k i = n / k + 1 := by
  rw [binSize, binIndex_succ, Nat.add_sub_cancel_left]
  split_ifs <;> simp

theorem histLoop_eq {B : ℕ} (xs : List ℕ) (h : ∀ x ∈ xs, x < B) (f : ℕ → ℤ) :
    histLoop (xs.map (fun x : ℕ => (x : ℤ))) ((List.range B).map f) =
      .ok ((List.range B).map fun b => f b + xs.count b) := by
  induction xs generalizing f with
  | nil => simp [histLoop]
  | cons x xs ih =>
    rw [List.map_cons, histLoop, npIncr_range f (h x (by simp)), Res.ok_bind,
      ih fun y hy => h y (List.mem_cons_of_mem _ hy)]
    congr 1
    refine List.map_congr_left fun b _ => ?_
    rw [List.count_cons]
    by_cases hb : x = b
    · simp [hb]; ring
    · simp [hb]

theorem histLoop_fail {B : ℕ} (xs : List ℕ) (h : ∃ x ∈ xs, B ≤ x) (f : ℕ → ℤ) :
    histLoop (xs.map (fun x : ℕ => (x : ℤ))) ((List.range B).map f) = .fail := by
  induction xs generalizing f with
  | nil => simp at h
  | cons x xs ih =>
    rw [List.map_cons, histLoop]
    by_cases hx : x < B
    · rw [npIncr_range f hx, Res.ok_bind]
      refine ih ?_ _
      obtain ⟨y, hy, hB⟩ := h
      rcases List.mem_cons.1 hy with rfl | hy
      · omega
      · exact ⟨y, hy, hB⟩
    · rw [npIncr_fail (by simpa using hx)]
      rfl

end Util

end Dist
