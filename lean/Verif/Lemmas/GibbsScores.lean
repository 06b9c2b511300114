import Verif.Lemmas.GibbsState

/-! # Scores of the groups in a state of the inference loops -/

namespace Dist

open Spec FloatOps FloatNotation Finset

variable {ι R S G V : Type} [DecidableEq ι] [Fintype ι] [DecidableEq V]

theorem ofSizes_inj {l l' : List Nat} (h : Driver.ofSizes l = Driver.ofSizes l') : l = l' := by
  have hc := congrArg Driver.counts h
  rw [Driver.ofSizes_counts, Driver.ofSizes_counts] at hc
  exact List.map_injective_iff.mpr (fun a b h => by simpa using h) hc

theorem FullMixture.addGroups_of {F : Type} [FloatOps F] {lvl : Nat} {f : FeatureModel R S G V F}
    {Sm : G → Multiset V → Prop} {C : S → List G → Prop}
    (L : MixtureSlave.Laws lvl f.ops f.vs Sm C) (n : Nat) :
    ∀ m : MixtureSlave S G, C m.scorer m.groups →
      ∃ m', FullMixture.addGroups lvl f n m = .ok m' ∧
        m'.groups = m.groups ++ List.replicate n f.ops.init ∧ C m'.scorer m'.groups := by
  induction n with
  | zero => intro m h; exact ⟨m, rfl, by simp, h⟩
  | succ n ih =>
    intro m h
    obtain ⟨m1, h1, h2, h3⟩ := L.addGroup _ h
    obtain ⟨m2, h4, h5, h6⟩ := ih m1 h3
    refine ⟨m2, ?_, ?_, h6⟩
    · rw [FullMixture.addGroups, h1, Res.ok_bind, h4]
    · rw [h5, h2, SlaveGroups.addGroup, packedAdd, List.replicate_succ]; simp

namespace Ctx

variable {X : Ctx ι R S G V} {w : FullMixture R S G V XR} {a : ι → Option Nat} {s : Clusters ι}
  {ls : List (Nat × Multiset ι)}

theorem coherent_init (hX : X.Ok) {n : Nat} (hn : 1 ≤ n) (hb : n ≤ 4294967296) :
    ∃ w ls, (FullMixture.raw X.feats).init X.lvl X.model n = .ok w ∧
      X.Coherent w (fun _ => none) (Clusters.start ι n) ls := by
  obtain ⟨W, ls, hW, hrep⟩ := World.rep_init (S := fun _ => X.Sm) hX.summ X.lvl n hn hb
  unfold World.init at hW
  obtain ⟨d, hd, hW⟩ := Res.bind_eq_ok.mp hW
  obtain ⟨t, ht, hW⟩ := Res.bind_eq_ok.mp hW
  rw [Res.pure_eq, Res.ok.injEq] at hW
  have hc := PitmanYor.Cached.init_eq X.lvl X.model (List.replicate n 0) [] (by simp)
    (.inr (by simp; omega))
  have h0 : (List.replicate n (0 : Nat)).map Int.ofNat = List.replicate n (0 : Int) := by simp
  rw [h0] at hc
  have hd' := Driver.init_eq X.lvl (List.replicate n 0) (by simp)
  rw [if_pos (.inr (by simp; omega)), h0, hd, Res.ok.injEq] at hd'
  have hfs : ∀ f ∈ X.feats.map (fun f => (f, (⟨[], f.fresh⟩ : MixtureSlave S G))),
      ∃ b : FeatureModel R S G V XR × MixtureSlave S G, (do
        let s ← FullMixture.addGroups X.lvl f.1 n ⟨[], f.2.scorer⟩
        let s ← s.init f.1.vs
        return (f.1, s) : Res _) = .ok b ∧ (b.1 = f.1 ∧
          b.2.groups = List.replicate n f.1.ops.init ∧
          MixtureSlave.Laws X.lvl b.1.ops b.1.vs X.Sm (X.Coh b.1) ∧
          X.Coh b.1 b.2.scorer b.2.groups) := by
    intro f' hf'
    obtain ⟨f, hf, rfl⟩ := List.mem_map.mp hf'
    have L := (hX.sound f hf).cache
    obtain ⟨m1, h1, h2, h3⟩ := FullMixture.addGroups_of L n ⟨[], f.fresh⟩ (hX.sound f hf).fresh
    obtain ⟨m2, h4, h5, h6⟩ := L.init m1 h3
    refine ⟨(f, m2), ?_, rfl, by rw [h5]; simpa using h2, L, h6⟩
    simp only
    rw [h1, Res.ok_bind, h4]
    rfl
  obtain ⟨fs, hfs, hall⟩ := mapM_exists hfs
  have hmap : fs.map Prod.fst = X.feats ∧
      fs.map (fun f => (FullMixture.feature X.rows f.1, f.2.groups)) =
      (X.feats.map (FullMixture.feature X.rows)).map fun f => (f, World.addGroups f n []) := by
    clear hfs hrep hW
    generalize X.feats = F at hall
    induction F generalizing fs with
    | nil => cases hall; exact ⟨rfl, rfl⟩
    | cons f F ih =>
      rw [List.map_cons] at hall
      cases hall with
      | cons h ht =>
        obtain ⟨e1, e2⟩ := ih _ ht
        simp only [List.map_cons]
        rw [e1, e2, h.1, h.2.1, World.addGroups_eq]
        exact ⟨rfl, rfl⟩
  have hto : (⟨PitmanYor.Cached.canon X.model (List.replicate n 0), fs, t⟩ :
      FullMixture R S G V XR).toWorld X.rows = W := by
    rw [← hW, hd', FullMixture.toWorld]
    simp only [PitmanYor.Cached.canon, hmap.2]
  have hM : ∀ x ∈ ls, x.2 = 0 := by
    intro x hx
    have := (hrep.members x.1 x.2).mpr hx
    simp only [Clusters.start] at this
    split_ifs at this
    simpa using this.symm
  refine ⟨⟨PitmanYor.Cached.canon X.model (List.replicate n 0), fs, t⟩, ls, ?_,
    ⟨by rw [hto]; exact hrep, ?_, hmap.1, ?_, ?_, by simp⟩⟩
  · simp only [FullMixture.init, FullMixture.raw]
    rw [distAssert0_of hn, Res.ok_bind, hc, Res.ok_bind,
      distAssert0_of (by simp [PitmanYor.Cached.canon]), Res.ok_bind, ht, Res.ok_bind, hfs]
    rfl
  · have hdr := hrep.driver
    rw [← hW, hd'] at hdr
    rw [ofSizes_inj hdr]
  · intro f hf
    have : ∀ b ∈ fs, MixtureSlave.Laws X.lvl b.1.ops b.1.vs X.Sm (X.Coh b.1) ∧
          X.Coh b.1 b.2.scorer b.2.groups := by
      clear hfs hmap hto hf
      generalize X.feats.map (fun f => (f, (⟨[], f.fresh⟩ : MixtureSlave S G))) = F at hall
      induction hall with
      | nil => simp
      | cons h _ ih =>
        intro b hb
        rcases List.mem_cons.mp hb with rfl | hb
        · exact h.2.2
        · exact ih b hb
    exact this f hf
  · intro x hx
    rw [hM x hx]; simp

/-- The scores of the clustering. -/
theorem Coherent.seatScores (hX : X.Ok) (h : X.Coherent w a s ls) :
    w.clustering.scoreValue X.lvl X.model w.size =
      .ok (ls.map fun x => .fin (seatScore X.alpha X.d ((ls.map fun x => x.2.card).count 0)
        (clusters a).card (∑ b ∈ clusters a, b.card) x.2.card)) := by
  have hsz : w.size = (ls.map fun x => x.2.card).length := by
    rw [FullMixture.size, h.clus, PitmanYor.Cached.canon, Driver.ofSizes_counts, List.length_map]
  rw [hsz, h.clus, PitmanYor.Cached.scoreValue_canon, Res.ok.injEq, List.map_map]
  apply List.map_congr_left
  intro x hx
  have ha := hX.alpha
  have hd := hX.d0
  have hd1 := hX.d1
  have hE : 0 < (ls.map fun x => x.2.card).count 0 := List.count_pos_iff.mpr h.base.empty
  have hE' : (0 : ℝ) < ((ls.map fun x => x.2.card).count 0 : ℕ) := by exact_mod_cast hE
  simp only [Function.comp, PitmanYor.Cached.cell, PitmanYor.Cached.emptyScore,
    h.nonempty_count, h.sum_sizes, XR.ofInt_eq, Int.cast_natCast, XR.fin_mul, XR.fin_add,
    XR.fin_sub]
  have hK : 0 < X.alpha + X.d * ((clusters a).card : ℝ) := by positivity
  have hN : (0 : ℝ) < ((∑ b ∈ clusters a, b.card : ℕ) : ℝ) + X.alpha := by positivity
  have hl := XR.log_fin hN
  unfold seatScore
  generalize ((∑ b ∈ clusters a, b.card : ℕ) : ℝ) + X.alpha = N at hl ⊢
  rw [hl]
  split_ifs with h0
  · rw [XR.fin_div _ _ hE'.ne', XR.log_fin (by positivity)]
    simp [sub_eq_add_neg]
  · have : (1 : ℝ) ≤ (x.2.card : ℝ) := by exact_mod_cast Nat.one_le_iff_ne_zero.mpr h0
    rw [XR.log_fin (by linarith)]
    simp [sub_eq_add_neg]

omit [DecidableEq V] in
theorem Coherent.vals_insert (h : X.Coherent w a s ls) {i : ι} (hi : a i = none)
    {x : Nat × Multiset ι} (hx : x ∈ ls) (f : FeatureModel R S G V XR) :
    X.vals f (insert i x.2.toFinset).val = f.col (X.rows i) ::ₘ X.vals f x.2 ∧
      X.vals f x.2.toFinset.val = X.vals f x.2 := by
  have hx2 : x.2.toFinset.val = x.2 := by rw [h.assign x hx, val_toFinset]
  have hn : i ∉ x.2.toFinset := by
    rw [Multiset.mem_toFinset, h.assign x hx]; simp [hi]
  refine ⟨?_, by rw [hx2]⟩
  rw [insert_val_of_notMem hn, hx2, vals, Multiset.map_cons]
  rfl

theorem Coherent.scoreFeatures (hX : X.Ok) (h : X.Coherent w a s ls) {i : ι} (hi : a i = none)
    (fs : List (FeatureModel R S G V XR × MixtureSlave S G)) (hfs : ∀ f ∈ fs, f ∈ w.features)
    (F : Nat × Multiset ι → ℝ) :
    FullMixture.scoreFeatures X.lvl (X.rows i) fs (ls.map fun x => .fin (F x)) =
      .ok (ls.map fun x => .fin (F x + (X.D (fs.map Prod.fst) (insert i x.2.toFinset) -
        X.D (fs.map Prod.fst) x.2.toFinset))) := by
  induction fs generalizing F with
  | nil => simp [FullMixture.scoreFeatures, D]
  | cons f fs ih =>
    have hf := hfs f (by simp)
    have hf1 : f.1 ∈ X.feats := by rw [← h.feats]; exact List.mem_map.mpr ⟨f, hf, rfl⟩
    have hpw := h.base.slaves (FullMixture.feature X.rows f.1, f.2.groups)
      (List.mem_map.mpr ⟨f, hf, rfl⟩)
    have hpw' : PW X.Sm f.2.groups (ls.map fun x => X.vals f.1 x.2) := by
      refine ⟨by simpa using hpw.len, ?_⟩
      intro p g M hg hM
      rw [List.getElem?_map, Option.map_eq_some_iff] at hM
      obtain ⟨x, hx, rfl⟩ := hM
      exact hpw.rel p g x hg hx
    rw [FullMixture.scoreFeatures, (hX.sound f.1 hf1).scores f.2 (f.1.col (X.rows i)) _ _
      (h.caches f hf).2 (by rw [List.length_map]; exact hpw.len.symm) hpw' ?_, Res.ok_bind]
    · rw [List.zipWith_map, List.zipWith_self]
      simp only [XR.fin_add]
      rw [ih (fun f hf => hfs f (List.mem_cons_of_mem _ hf))]
      congr 1
      apply List.map_congr_left
      intro x hx
      obtain ⟨e1, e2⟩ := h.vals_insert hi hx f.1
      simp only [D, List.map_cons, List.sum_cons, e1, e2]
      congr 1; ring
    · intro M hM
      obtain ⟨x, hx, rfl⟩ := List.mem_map.mp hM
      rw [← (h.vals_insert hi hx f.1).1]
      exact Multiset.map_le_map (val_le_iff.mpr (subset_univ _))

/-- The features that a draw uses. -/
def used (X : Ctx ι R S G V) (scored : Bool) : List (FeatureModel R S G V XR) :=
  if scored then X.feats else []

/-- The weight of a clustering in a draw. -/
noncomputable def W (X : Ctx ι R S G V) (scored : Bool) (C : Finset (Finset ι)) : ℝ :=
  Real.exp (logWeight X.alpha X.d (X.D (X.used scored)) C)

omit [DecidableEq ι] [Fintype ι] [DecidableEq V] in
theorem W_pos (X : Ctx ι R S G V) (scored : Bool) (C : Finset (Finset ι)) : 0 < X.W scored C :=
  Real.exp_pos _

theorem D_empty (hX : X.Ok) (scored : Bool) : X.D (X.used scored) ∅ = 0 := by
  unfold D used
  cases scored
  · simp
  · apply List.sum_eq_zero
    intro y hy
    obtain ⟨f, hf, rfl⟩ := List.mem_map.mp hy
    have := (hX.sound f hf).zero
    simpa [vals] using this

/-- The scores of the groups before a draw. -/
theorem Coherent.scores (hX : X.Ok) (h : X.Coherent w a s ls) {i : ι} (hi : a i = none)
    (scored : Bool) :
    ∃ l : List ℝ, (if scored then w.scoreValue X.lvl X.model (X.rows i)
        else w.clustering.scoreValue X.lvl X.model w.size : Res (List XR)) = .ok (l.map .fin) ∧
      l = ls.map fun x => logWeight X.alpha X.d (X.D (X.used scored))
          (put i x.2.toFinset (clusters a)) -
        logWeight X.alpha X.d (X.D (X.used scored)) (clusters a) -
        Real.log (if x.2.toFinset = ∅ then ((ls.map fun x => x.2.card).count 0 : ℕ) else 1) := by
  refine ⟨_, ?_, rfl⟩
  have hiA : i ∉ univ.filter fun i => a i ≠ none := by simp [hi]
  have hE : 0 < (ls.map fun x => x.2.card).count 0 := List.count_pos_iff.mpr h.base.empty
  have key : ∀ x ∈ ls, _ := fun x hx =>
    logWeight_put hX.alpha hX.d0 hX.d1 (X.D (X.used scored)) (D_empty hX scored)
      (clusters_parts a) hiA (b := x.2.toFinset) (by
        by_cases h0 : x.2.toFinset = ∅
        · rw [h0]; exact mem_insert_self _ _
        · refine mem_insert_of_mem ?_
          have hx' := h.assign x hx
          have hx2 : x.2.toFinset = univ.filter fun i => a i = some x.1 := by
            rw [hx', val_toFinset]
          obtain ⟨j, hj⟩ := nonempty_iff_ne_empty.mpr h0
          rw [hx2] at hj
          exact mem_clusters.mpr ⟨x.1, j, by simpa using hj, hx2⟩) hE
  rw [List.map_map]
  cases scored
  · simp only [Bool.false_eq_true, if_false]
    rw [h.seatScores hX]
    congr 1
    apply List.map_congr_left
    intro x hx
    simp only [Function.comp, ← key x hx, h.card_group hx]
    simp [used, D]
  · simp only [if_true]
    rw [FullMixture.scoreValue, h.seatScores hX, Res.ok_bind,
      h.scoreFeatures hX hi w.features (fun _ h => h)]
    congr 1
    apply List.map_congr_left
    intro x hx
    simp only [Function.comp, ← key x hx, h.card_group hx]
    simp only [used, if_true, h.feats]

end Ctx

end Dist
