import Verif.Lemmas.SingleGibbsState
import Verif.Props.SinglePitmanYor
import Verif.Spec.SingleGibbs

/-! # Scores of the groups in single precision -/

namespace Dist

open Spec FloatOps FloatNotation Finset

namespace Single

theorem abs_log_le {x : ℝ} {k : ℕ} (h1 : 1 / 2 ^ k ≤ x) (h2 : x ≤ 2 ^ k) :
    |Real.log x| ≤ k * (7 / 10) := by
  have h0 : 0 < x := lt_of_lt_of_le (by positivity) h1
  have hl2 : Real.log 2 ≤ 7 / 10 := by have := Real.log_two_lt_d9; linarith
  have e1 := Real.log_le_log (by positivity) h1
  have e2 := Real.log_le_log h0 h2
  rw [one_div, Real.log_inv, Real.log_pow] at e1
  rw [Real.log_pow] at e2
  have : (k : ℝ) * Real.log 2 ≤ k * (7 / 10) := by gcongr
  rw [abs_le]
  constructor <;> linarith

/-- The cached score of a group, by its size. -/
theorem cell_near {lib : Libm} {alpha d : ℝ} (ha1 : 1 / 2 ^ 40 ≤ alpha) (ha2 : alpha ≤ 2 ^ 40)
    (hd0 : d = 0 ∨ 1 / 2 ^ 40 ≤ d) (hd1 : d ≤ 1 - 1 / 2 ^ 24) (l : List ℕ) (h0 : 0 ∈ l)
    (hs : l.sum < 2 ^ 31) (hlen : l.length < 2 ^ 31) {n : ℕ} (hn : n ∈ l) :
    |(PitmanYor.Cached.cell (⟨⟨alpha⟩, ⟨d⟩⟩ : PitmanYor (Single lib)) l n +
        -log (ofInt ((l.sum : ℕ) : ℤ) + (⟨alpha⟩ : Single lib))).val -
      seatScore alpha d (l.count 0) (l.length - l.count 0) l.sum n| ≤ 260 / 10 ^ 6 ∧
    |(PitmanYor.Cached.cell (⟨⟨alpha⟩, ⟨d⟩⟩ : PitmanYor (Single lib)) l n +
        -log (ofInt ((l.sum : ℕ) : ℤ) + (⟨alpha⟩ : Single lib))).val| ≤ 81 := by
  have hu := Factor.ulp_nonneg
  have hcl := List.count_le_length (a := 0) (l := l)
  have hcp : 0 < l.count 0 := List.count_pos_iff.mpr h0
  have hd0' : 0 ≤ d := by
    rcases hd0 with h | h
    · rw [h]
    · exact le_trans (by positivity) h
  unfold PitmanYor.Cached.cell PitmanYor.Cached.emptyScore seatScore
  set K := l.length - l.count 0 with hK
  set E := l.count 0 with hE
  have hE1 : (1 : ℝ) ≤ E := by exact_mod_cast hcp
  have hE2 : (E : ℝ) ≤ 2 ^ 31 := by exact_mod_cast (hcl.trans hlen.le)
  have hK2 : (K : ℝ) ≤ 2 ^ 31 := by exact_mod_cast ((Nat.sub_le _ _).trans hlen.le)
  have hK0 : (0 : ℝ) ≤ K := by positivity
  have hS2 : (l.sum : ℝ) ≤ 2 ^ 31 := by exact_mod_cast hs.le
  have hS0 : (0 : ℝ) ≤ l.sum := by positivity
  have p1 : (2 : ℝ) ^ 31 + 2 ^ 40 ≤ 2 ^ 41 := by norm_num
  have p2 : (1 : ℝ) / 2 ^ 126 ≤ 1 / 2 ^ 40 / 2 := by norm_num
  have p3 : (2 : ℝ) ^ 41 * 2 < 2 ^ 127 := by norm_num
  have p4 : (1 : ℝ) / 2 ^ 71 ≤ 1 / 2 ^ 40 := by norm_num
  have p5 : (2 : ℝ) ^ 41 ≤ 2 ^ 71 := by norm_num
  have p6 : (1 : ℝ) / 2 ^ 126 ≤ 1 / 2 ^ 24 / 2 := by norm_num
  have p7 : (1 : ℝ) / 2 ^ 71 ≤ 1 / 2 ^ 24 := by norm_num
  have p8 : (2 : ℝ) ^ 31 ≤ 2 ^ 41 := by norm_num
  have p9 : (1 : ℝ) / 2 ^ 41 ≤ 1 / 2 ^ 40 := by norm_num
  -- the number of rows
  have fS := (Factor.ofInt (n := ((l.sum : ℕ) : ℤ)) (by omega)).add
    ((Factor.refl (le_trans (by positivity) ha1)).mono hu)
  have hSh := fS.half (by unfold ulp; norm_num)
  have hSd := fS.double (by unfold ulp; norm_num)
  simp only [Int.cast_natCast] at fS hSh hSd
  have hshift := logf_factor fS (by linarith) (lt_of_le_of_lt hSd (by linarith))
  have hsh := abs_log_le (x := (l.sum : ℝ) + alpha) (k := 41) (by linarith) (by linarith)
  -- the size of the group
  have hcell : ∃ c : Single lib, (if n = 0 then log (((⟨alpha⟩ : Single lib) +
        (⟨d⟩ : Single lib) * ofInt ((K : ℕ) : ℤ)) / ofInt ((E : ℕ) : ℤ))
      else log (ofInt ((n : ℕ) : ℤ) - (⟨d⟩ : Single lib))) = c ∧
      |c.val - (if n = 0 then Real.log ((alpha + d * K) / E) else Real.log (n - d))| ≤
        1 / 2 ^ 13 + ulp + 4 * ulp ∧
      |if n = 0 then Real.log ((alpha + d * K) / E) else Real.log (n - d)| ≤ 71 * (7 / 10) := by
    refine ⟨_, rfl, ?_⟩
    by_cases hn0 : n = 0
    · simp only [hn0, if_true]
      have fN := new_table (alpha := alpha) (d := d) (K := K) ha1 hd0
      have hdK : 0 ≤ d * K := by positivity
      have hdK2 : d * K ≤ 1 * 2 ^ 31 := by
        gcongr
        exact hd1.trans (by norm_num)
      have hr := ratio_log fN (Factor.ofInt (n := ((E : ℕ) : ℤ)) (by omega))
        (ulp_small (by norm_num)) (by unfold ulp; norm_num)
        (by have : (1 : ℝ) / 2 ^ 44 ≤ 1 / 2 ^ 40 := by norm_num
            linarith)
        (by have : (2 : ℝ) ^ 40 + 1 * 2 ^ 31 ≤ 2 ^ 60 := by norm_num
            linarith)
        (by have : (1 : ℝ) / 2 ^ 60 ≤ 1 := by norm_num
            simp only [Int.cast_natCast]; linarith)
        (by have : (2 : ℝ) ^ 31 ≤ 2 ^ 80 := by norm_num
            simp only [Int.cast_natCast]; linarith)
      constructor
      · simp only [val_log, val_div, val_add, val_mul, val_ofInt]
        simp only [Int.cast_natCast] at hr ⊢
        exact hr.trans (le_of_eq (by ring))
      · have := abs_log_le (x := (alpha + d * K) / E) (k := 71) ?_ ?_
        · simpa using this
        · rw [le_div_iff₀ (by positivity)]
          calc 1 / 2 ^ 71 * (E : ℝ) ≤ 1 / 2 ^ 71 * 2 ^ 31 := by gcongr
            _ ≤ 1 / 2 ^ 40 := by norm_num
            _ ≤ _ := by linarith
        · rw [div_le_iff₀ (by positivity)]
          calc alpha + d * K ≤ 2 ^ 41 := by linarith
            _ ≤ 2 ^ 71 * 1 := by norm_num
            _ ≤ _ := by gcongr
    · simp only [hn0, if_false]
      have hn1 : 1 ≤ n := Nat.one_le_iff_ne_zero.2 hn0
      have hn1' : (1 : ℝ) ≤ n := by exact_mod_cast hn1
      have hnle : (n : ℝ) ≤ l.sum := by exact_mod_cast List.le_sum_of_mem hn
      have fs := size_sub hn1 hd0' hd1
      have hh := fs.half (by unfold ulp; norm_num)
      have hd := fs.double (by unfold ulp; norm_num)
      have hr := logf_factor fs (by linarith) (lt_of_le_of_lt hd (by linarith))
      constructor
      · simp only [val_log, val_sub, val_ofInt]
        exact hr.trans (by linarith)
      · have := abs_log_le (x := (n : ℝ) - d) (k := 71) (by linarith) (by linarith)
        simpa using this
  obtain ⟨c, hc, hc1, hc2⟩ := hcell
  rw [hc]
  set t : ℝ := if n = 0 then Real.log ((alpha + d * K) / E) else Real.log (n - d) with ht
  clear_value t
  have hv : (c + -log (ofInt ((l.sum : ℕ) : ℤ) + (⟨alpha⟩ : Single lib))).val =
      nearest (c.val + -logf (nearest (nearest (l.sum : ℝ) + alpha))) := by
    simp only [val_add, val_neg, val_log, val_ofInt, Int.cast_natCast]
  rw [hv]
  set u := logf (nearest (nearest (l.sum : ℝ) + alpha))
  set v := Real.log ((l.sum : ℝ) + alpha)
  have hr := nearest.error (c.val + -u)
  have q1 : 1 / 2 ^ 13 + ulp + 4 * ulp ≤ 124 / 10 ^ 6 := by unfold ulp; norm_num
  have q2 : 1 / 2 ^ 13 + ulp + ulp ≤ 123 / 10 ^ 6 := by unfold ulp; norm_num
  have hc3 := hc1.trans q1
  have hs3 := hshift.trans q2
  clear_value u v
  rw [abs_le] at hc2 hsh hc3 hs3
  norm_num at hc2 hsh
  have hB : |c.val + -u| ≤ 80 := by rw [abs_le]; constructor <;> linarith [hc2.1, hc2.2, hsh.1, hsh.2, hc3.1, hc3.2, hs3.1, hs3.2]
  have hr2 : |nearest (c.val + -u) - (c.val + -u)| ≤ 5 / 10 ^ 6 := by
    refine hr.trans ?_
    calc (2⁻¹ : ℝ) ^ 24 * |c.val + -u| + 2⁻¹ ^ 150 ≤ 2⁻¹ ^ 24 * 80 + 2⁻¹ ^ 150 := by gcongr
      _ ≤ _ := by norm_num
  rw [abs_le] at hr2 hB
  constructor
  · rw [abs_le]; constructor <;> linarith [hr2.1, hr2.2, hc3.1, hc3.2, hs3.1, hs3.2]
  · rw [abs_le]; constructor <;> linarith [hr2.1, hr2.2, hB.1, hB.2]

/-- Adding the score of a feature. -/
theorem feature_near {e k : ℕ} (hk : k ≤ 1000) {u v y z : ℝ} (h1 : |u - v| ≤ scoreError e k)
    (h2 : |u| ≤ 81 + 65 * k) (h3 : |y - z| ≤ e / 10 ^ 6) (h4 : |y| ≤ 64) :
    |nearest (u + y) - (v + z)| ≤ scoreError e (k + 1) ∧
      |nearest (u + y)| ≤ 81 + 65 * ((k + 1 : ℕ) : ℝ) := by
  have hk' : (k : ℝ) ≤ 1000 := by exact_mod_cast hk
  have hk0 : (0 : ℝ) ≤ k := by positivity
  have hr := nearest.error (u + y)
  have hB : |u + y| ≤ 145 + 65 * k := (abs_add_le u y).trans (by linarith)
  have hr2 : |nearest (u + y) - (u + y)| ≤ (9 + 4 * k) / 10 ^ 6 := by
    refine hr.trans ?_
    calc (2⁻¹ : ℝ) ^ 24 * |u + y| + 2⁻¹ ^ 150 ≤ 2⁻¹ ^ 24 * (145 + 65 * k) + 2⁻¹ ^ 150 := by gcongr
      _ ≤ _ := by norm_num; linarith
  unfold scoreError at *
  push_cast
  rw [abs_le] at h1 h3 hr2 hB
  constructor
  · rw [abs_le]
    have : (260 + ((e : ℝ) + 10) * ((k : ℝ) + 1) + 2 * ((k : ℝ) + 1) ^ 2) / 10 ^ 6 =
      (260 + ((e : ℝ) + 10) * (k : ℝ) + 2 * (k : ℝ) ^ 2) / 10 ^ 6 + (e + 12 + 4 * k) / 10 ^ 6 := by ring
    rw [this]
    constructor <;> linarith [h1.1, h1.2, h3.1, h3.2, hr2.1, hr2.2]
  · rw [abs_le]
    constructor <;> linarith [hr2.1, hr2.2, hB.1, hB.2]

end Single

namespace SCtx

open Single

variable {ι R S S' G V : Type} [DecidableEq ι] [Fintype ι] [DecidableEq V] {lib : Libm}
  {Y : SCtx lib ι R S S' G V} {w' : FullMixture R S' G V (Single lib)} {w : FullMixture R S G V XR}
  {a : ι → Option Nat} {s : Clusters ι} {ls : List (Nat × Multiset ι)}

theorem Coherent.seatScores (hY : Y.Ok) (h : Y.Coherent w' w a s ls) (hlen : ls.length ≤ 2 ^ 20) :
    ∃ F' : Nat × Multiset ι → ℝ, w'.clustering.scoreValue Y.X.lvl Y.model w'.size =
      .ok (ls.map fun x => ⟨F' x⟩) ∧
      ∀ x ∈ ls, |F' x - seatScore Y.X.alpha Y.X.d ((ls.map fun x => x.2.card).count 0)
        (clusters a).card (∑ b ∈ clusters a, b.card) x.2.card| ≤ scoreError Y.err 0 ∧ |F' x| ≤ 81 := by
  have hsz : w'.size = (ls.map fun x => x.2.card).length := by rw [h.size.1, List.length_map]
  refine ⟨fun x => (PitmanYor.Cached.cell Y.model (ls.map fun x => x.2.card) x.2.card +
    -log (ofInt (((ls.map fun x => x.2.card).sum : ℕ) : ℤ) + Y.model.alpha)).val, ?_, ?_⟩
  · rw [hsz, h.clus, PitmanYor.Cached.scoreValue_canon, Res.ok.injEq, List.map_map]
    rfl
  · intro x hx
    have hsum : (ls.map fun x => x.2.card).sum ≤ 2147483647 := by
      rw [← h.exact.base.rows]; exact h.exact.base.rowsLe
    have := cell_near (lib := lib) hY.alpha1 hY.alpha2 hY.d0 hY.d1 (ls.map fun x => x.2.card)
      h.exact.base.empty (by omega) (by rw [List.length_map]; omega)
      (List.mem_map.mpr ⟨x, hx, rfl⟩)
    rw [h.exact.nonempty_count, h.exact.sum_sizes] at this
    rw [h.exact.sum_sizes]
    refine ⟨this.1.trans (le_of_eq (by unfold scoreError; norm_num)), this.2⟩

theorem Coherent.scoreFeatures (h : Y.Coherent w' w a s ls) {i : ι} (hi : a i = none)
    (fs : List (FeatureModel R S' G V (Single lib) × MixtureSlave S' G))
    (hfs : ∀ f ∈ fs, f ∈ w'.features) (fx : List (FeatureModel R S G V XR))
    (hN : List.Forall₂ (fun f' f => SNear Y.X.lvl f' f Y.X.Sm (Y.Coh f') (Y.sc f') Y.err (Y.X.dat f)
      (Y.X.vals f univ.val)) (fs.map Prod.fst) fx) (k : ℕ) (hk : k + fs.length ≤ 1000)
    (F F' : Nat × Multiset ι → ℝ)
    (hF : ∀ x ∈ ls, |F' x - F x| ≤ scoreError Y.err k ∧ |F' x| ≤ 81 + 65 * k) :
    ∃ F'' : Nat × Multiset ι → ℝ,
      FullMixture.scoreFeatures Y.X.lvl (Y.X.rows i) fs (ls.map fun x => ⟨F' x⟩) =
        .ok (ls.map fun x => ⟨F'' x⟩) ∧
      ∀ x ∈ ls, |F'' x - (F x + (Y.X.D fx (insert i x.2.toFinset) - Y.X.D fx x.2.toFinset))| ≤
          scoreError Y.err (k + fs.length) ∧ |F'' x| ≤ 81 + 65 * ((k + fs.length : ℕ) : ℝ) := by
  induction fs generalizing F F' k fx with
  | nil =>
    cases hN
    refine ⟨F', rfl, fun x hx => ?_⟩
    simpa [Ctx.D] using hF x hx
  | cons f fs ih =>
    rw [List.map_cons] at hN
    cases hN with
    | @cons _ g _ fx h1 hN =>
    have hf := hfs f (by simp)
    have hpw := h.exact.base.slaves (FullMixture.feature Y.X.rows f.1, f.2.groups)
      (by rw [← h.world]; exact List.mem_map.mpr ⟨f, hf, rfl⟩)
    have hpw' : PW Y.X.Sm f.2.groups (ls.map fun x => Y.X.vals g x.2) := by
      refine ⟨by simpa using hpw.len, ?_⟩
      intro p q M hg hM
      rw [List.getElem?_map, Option.map_eq_some_iff] at hM
      obtain ⟨x, hx, rfl⟩ := hM
      have := hpw.rel p q x hg hx
      rw [feature_eq h1] at this
      exact this
    have hle : ∀ x ∈ ls, g.col (Y.X.rows i) ::ₘ Y.X.vals g x.2 ≤ Y.X.vals g univ.val := by
      intro x hx
      rw [← (h.exact.vals_insert hi hx g).1]
      exact Multiset.map_le_map (val_le_iff.mpr (subset_univ _))
    have hsc := h1.scores f.2 (f.1.col (Y.X.rows i)) (ls.map fun x => ⟨F' x⟩)
      (ls.map fun x => Y.X.vals g x.2) (h.caches f hf).2
      (by rw [List.length_map]; exact hpw.len.symm) hpw' (by
        intro M hM
        obtain ⟨x, hx, rfl⟩ := List.mem_map.mp hM
        rw [h1.col]; exact hle x hx)
    rw [List.zipWith_map, List.zipWith_self] at hsc
    simp only [List.length_cons] at hk
    obtain ⟨F'', e1, e2⟩ := ih (fun f hf => hfs f (List.mem_cons_of_mem _ hf)) fx hN (k + 1)
      (by omega)
      (fun x => F x + (Y.X.dat g (g.col (Y.X.rows i) ::ₘ Y.X.vals g x.2) -
        Y.X.dat g (Y.X.vals g x.2)))
      (fun x => nearest (F' x + Y.sc f.1 (g.col (Y.X.rows i)) (Y.X.vals g x.2))) (by
        intro x hx
        obtain ⟨n1, n2⟩ := h1.near _ _ (hle x hx)
        obtain ⟨m1, m2⟩ := hF x hx
        exact feature_near (by omega) m1 m2 n1 n2)
    refine ⟨F'', ?_, ?_⟩
    · rw [FullMixture.scoreFeatures, hsc, Res.ok_bind, ← e1, h1.col]
      rfl
    · intro x hx
      obtain ⟨m1, m2⟩ := e2 x hx
      obtain ⟨v1, v2⟩ := h.exact.vals_insert hi hx g
      have hkk : k + (f :: fs).length = k + 1 + fs.length := by simp only [List.length_cons]; omega
      rw [hkk]
      refine ⟨?_, m2⟩
      convert m1 using 2
      simp only [Ctx.D, List.map_cons, List.sum_cons, v1, v2]
      ring

omit [DecidableEq ι] [Fintype ι] [DecidableEq V] in
theorem scoreError_mono {e j k : ℕ} (h : j ≤ k) : scoreError e j ≤ scoreError e k := by
  unfold scoreError
  have : (j : ℝ) ≤ k := by exact_mod_cast h
  gcongr

/-- The scores of the groups before a draw. -/
theorem Coherent.scores (hY : Y.Ok) (h : Y.Coherent w' w a s ls) (hlen : ls.length ≤ 2 ^ 20) {i : ι}
    (hi : a i = none) (scored : Bool) :
    ∃ F' : Nat × Multiset ι → ℝ, (if scored then w'.scoreValue Y.X.lvl Y.model (Y.X.rows i)
        else w'.clustering.scoreValue Y.X.lvl Y.model w'.size : Res (List (Single lib))) =
          .ok (ls.map fun x => ⟨F' x⟩) ∧
      ∀ x ∈ ls, |F' x - (logWeight Y.X.alpha Y.X.d (Y.X.D (Y.X.used scored))
          (put i x.2.toFinset (clusters a)) -
        logWeight Y.X.alpha Y.X.d (Y.X.D (Y.X.used scored)) (clusters a) -
        Real.log (if x.2.toFinset = ∅ then ((ls.map fun x => x.2.card).count 0 : ℕ) else 1))| ≤
          scoreError Y.err Y.feats.length ∧ |F' x| ≤ 10 ^ 5 := by
  have hX := hY.ok
  have hiA : i ∉ univ.filter fun i => a i ≠ none := by simp [hi]
  have hE : 0 < (ls.map fun x => x.2.card).count 0 := List.count_pos_iff.mpr h.exact.base.empty
  have key : ∀ x ∈ ls, _ := fun x hx =>
    logWeight_put hX.alpha hX.d0 hX.d1 (Y.X.D (Y.X.used scored)) (Ctx.D_empty hX scored)
      (clusters_parts a) hiA (b := x.2.toFinset) (by
        by_cases h0 : x.2.toFinset = ∅
        · rw [h0]; exact mem_insert_self _ _
        · refine mem_insert_of_mem ?_
          have hx' := h.exact.assign x hx
          have hx2 : x.2.toFinset = univ.filter fun i => a i = some x.1 := by
            rw [hx', val_toFinset]
          obtain ⟨j, hj⟩ := nonempty_iff_ne_empty.mpr h0
          rw [hx2] at hj
          exact mem_clusters.mpr ⟨x.1, j, by simpa using hj, hx2⟩) hE
  obtain ⟨F0, f1, f2⟩ := h.seatScores hY hlen
  cases scored
  · refine ⟨F0, by simpa using f1, fun x hx => ?_⟩
    obtain ⟨m1, m2⟩ := f2 x hx
    refine ⟨?_, by linarith⟩
    rw [← key x hx, ← h.exact.card_group hx]
    refine le_trans ?_ (scoreError_mono (Nat.zero_le _))
    simpa [Ctx.used, Ctx.D] using m1
  · have hlenf : w'.features.length = Y.feats.length := by rw [← h.feats, List.length_map]
    have hc := hY.feats
    obtain ⟨F', e1, e2⟩ := h.scoreFeatures hi w'.features (fun _ h => h) Y.X.feats
      (by rw [h.feats]; exact hY.near) 0 (by omega) _ F0 (fun x hx => ⟨(f2 x hx).1, by
        have := (f2 x hx).2
        simpa using this⟩)
    refine ⟨F', ?_, fun x hx => ?_⟩
    · simp only [if_true]
      rw [FullMixture.scoreValue, f1, Res.ok_bind, e1]
    · obtain ⟨m1, m2⟩ := e2 x hx
      rw [zero_add, hlenf] at m1 m2
      constructor
      · rw [← key x hx, ← h.exact.card_group hx]
        simpa [Ctx.used] using m1
      · have : (Y.feats.length : ℝ) ≤ 1000 := by exact_mod_cast hc
        linarith

end SCtx

end Dist
