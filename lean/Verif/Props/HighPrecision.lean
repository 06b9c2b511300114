import Verif.Lemmas.Hp
import Verif.Props.Reference

/-!
# C61: the high-precision implementation agrees with the C++ one and the reference

For every history of operations the statistics are the same, in exact arithmetic the scores of
all three implementations are the same number, and the samplers make the same draws.
-/

namespace Dist

open FloatOps FloatNotation Spec

/-! ## Dirichlet-Discrete -/

/-- The array of the Cython group starts with the counts of the C++ group. -/
def Hp.DD.Same (g : Dist.DD.Group) (p : Group) : Prop :=
  p.dim = g.counts.length ∧ p.counts.length = 256 ∧ ∃ tail, p.counts = g.counts ++ tail

theorem Hp.DD.bump {g : Dist.DD.Group} {p : Group} (hs : Same g p) {v n : Int}
    (hn : InInt32 n) {g' : Dist.DD.Group} (hA : (do
      let s ← i32 (g.countSum + n)
      let c ← Dist.DD.readAt g.counts v
      let c ← i32 (c + n)
      let cs ← Dist.DD.writeAt g.counts v c
      return (⟨s, cs⟩ : Dist.DD.Group)) = .ok g') :
    ∃ p', p.addRepeatedValue v n = .ok p' ∧ Same g' p' := by
  obtain ⟨h1, h2, tail, h3⟩ := hs
  obtain ⟨s, hs, hA1⟩ := Res.bind_eq_ok.1 hA
  obtain ⟨c, hc, hA2⟩ := Res.bind_eq_ok.1 hA1
  obtain ⟨c', hc', hA3⟩ := Res.bind_eq_ok.1 hA2
  obtain ⟨cs, hcs, hA4⟩ := Res.bind_eq_ok.1 hA3
  clear hA hA1 hA2 hA3
  obtain ⟨hr, rfl⟩ := i32_eq_ok.1 hc'
  simp only [Res.pure_eq, Res.ok.injEq] at hA4
  subst hA4
  unfold DD.readAt at hc
  split_ifs at hc with h0
  obtain ⟨hlt, hget⟩ := List.getElem?_eq_some_iff.1 (getAt_eq_ok.1 hc)
  rw [DD.writeAt, if_pos h0, setAt_of hlt] at hcs
  simp only [Res.ok.injEq] at hcs
  subst hcs
  have hlen : g.counts.length ≤ 256 := by rw [← h2, h3]; simp
  have hv : InInt32 v := by
    unfold InInt32 int32Min int32Max; constructor <;> omega
  have hlt' : v.toNat < p.counts.length := by omega
  have hget' : p.counts[v.toNat] = c := by
    rw [← hget]; simp only [h3]; exact List.getElem_append_left hlt
  refine ⟨⟨p.counts.set v.toNat (c + n), p.dim⟩, ?_, ?_, ?_, tail, ?_⟩
  · unfold Group.addRepeatedValue
    rw [cInt_of hv, Res.ok_bind, cInt_of hn, Res.ok_bind, DD.readAt, if_pos h0, getAt_of hlt',
      Res.ok_bind, hget', i32_of hr, Res.ok_bind, DD.writeAt, if_pos h0, setAt_of hlt']
    rfl
  · simp [h1]
  · simp [h2]
  · simp only [h3]; rw [List.set_append_left _ _ hlt]

theorem Hp.DD.add_eq (p : Group) (v : Int) : p.addValue v = p.addRepeatedValue v 1 := by
  unfold Group.addValue Group.addRepeatedValue
  rw [cInt_of (x := 1) (by decide)]; rfl

theorem Hp.DD.remove_eq (p : Group) (v : Int) : p.removeValue v = p.addRepeatedValue v (-1) := by
  unfold Group.removeValue Group.addRepeatedValue
  rw [cInt_of (x := -1) (by decide)]; rfl

theorem Hp.DD.mergeLoop_of (a b c ta tb : List Int) (h : Dist.DD.Group.mergeLoop a b = .ok c) :
    mergeLoop a.length (a ++ ta) (b ++ tb) = .ok (c ++ ta) := by
  induction a generalizing b c with
  | nil => simp [Dist.DD.Group.mergeLoop] at h; subst h; rfl
  | cons x as ih =>
    cases b with
    | nil => simp [Dist.DD.Group.mergeLoop] at h
    | cons y bs =>
      simp only [Dist.DD.Group.mergeLoop] at h
      obtain ⟨z, hz, h⟩ := Res.bind_eq_ok.1 h
      obtain ⟨zs, hzs, h⟩ := Res.bind_eq_ok.1 h
      simp only [Res.pure_eq, Res.ok.injEq] at h
      subst h
      simp only [List.cons_append, List.length_cons, mergeLoop]
      rw [hz, Res.ok_bind, ih _ _ hzs]; rfl

theorem Hp.DD.mergeLoop_length (a b c : List Int) (h : Dist.DD.Group.mergeLoop a b = .ok c) :
    c.length = a.length := by
  induction a generalizing b c with
  | nil => simp [Dist.DD.Group.mergeLoop] at h; simp [h]
  | cons x as ih =>
    cases b with
    | nil => simp [Dist.DD.Group.mergeLoop] at h
    | cons y bs =>
      simp only [Dist.DD.Group.mergeLoop] at h
      obtain ⟨z, hz, h⟩ := Res.bind_eq_ok.1 h
      obtain ⟨zs, hzs, h⟩ := Res.bind_eq_ok.1 h
      simp only [Res.pure_eq, Res.ok.injEq] at h
      subst h
      simp [ih _ _ hzs]

theorem Hp.DD.mapM_getAt {α : Type} (l r : List α) :
    ((List.range l.length).mapM (getAt (l ++ r)) : Res (List α)) = .ok l := by
  have aux : ∀ (pre l r : List α),
      ((List.range' pre.length l.length).mapM (getAt (pre ++ (l ++ r))) : Res (List α)) =
        .ok l := by
    intro pre l r
    induction l generalizing pre with
    | nil => rfl
    | cons x l ih =>
      simp only [List.length_cons, List.range'_succ, List.mapM_cons]
      rw [getAt_of (by simp)]
      have := ih (pre ++ [x])
      simp only [List.length_append, List.length_singleton, List.append_assoc,
        List.singleton_append] at this
      simp only [List.cons_append]
      rw [Res.ok_bind, this]
      simp
  have := aux [] l r
  simpa [List.range_eq_range'] using this

/-- Wherever the C++ group goes without an error, the Cython group goes too, and they hold the
same counts. -/
theorem C61_dd_updates (lvl dim : Nat) (hd : dim ≤ 256) (h : History Int) (hc : h.Counts InInt32)
    (g : DD.Group) (hg : h.run (DD.api lvl dim) = .ok g) :
    ∃ p, h.run (Hp.DD.api dim) = .ok p ∧ p.dim = dim ∧ p.dump = .ok g.counts ∧ Hp.DD.Same g p := by
  have key := h.simulates (DD.api lvl dim) (Hp.DD.api dim) InInt32
    (fun g p => Hp.DD.Same g p ∧ p.dim = dim)
    ⟨⟨by simp [Hp.DD.api, DD.api, DD.Group.init],
      by simp [Hp.DD.api, Hp.DD.maxDim, -List.reduceReplicate], List.replicate (256 - dim) 0, by
        show List.replicate 256 (0 : Int) = List.replicate dim 0 ++ List.replicate (256 - dim) 0
        rw [List.replicate_append_replicate, Nat.add_sub_cancel' hd]⟩, rfl⟩
    ?_ ?_ ?_ ?_ hc g hg
  · obtain ⟨p, h1, ⟨h2, h3, tail, h4⟩, h5⟩ := key
    refine ⟨p, h1, h5, ?_, h2, h3, tail, h4⟩
    unfold Hp.DD.Group.dump
    rw [h2, h4]; exact Hp.DD.mapM_getAt _ _
  · rintro g p v g' ⟨hs, hd⟩ hA
    obtain ⟨p', h1, h2⟩ := Hp.DD.bump hs (n := 1) (by decide) (Dbg.DD.skipAssert hA)
    refine ⟨p', by rw [← h1]; exact Hp.DD.add_eq p v, h2, ?_⟩
    have : p'.dim = p.dim := by
      unfold Hp.DD.Group.addRepeatedValue at h1
      simp only [Res.bind_eq_ok] at h1
      obtain ⟨_, _, _, _, _, _, _, _, _, _, h⟩ := h1
      simp only [Res.pure_eq, Res.ok.injEq] at h
      rw [← h]
    rw [this, hd]
  · rintro g p v g' ⟨hs, hd⟩ hA
    obtain ⟨p', h1, h2⟩ := Hp.DD.bump hs (n := -1) (by decide) (Dbg.DD.skipAssert hA)
    refine ⟨p', by rw [← h1]; exact Hp.DD.remove_eq p v, h2, ?_⟩
    have : p'.dim = p.dim := by
      unfold Hp.DD.Group.addRepeatedValue at h1
      simp only [Res.bind_eq_ok] at h1
      obtain ⟨_, _, _, _, _, _, _, _, _, _, h⟩ := h1
      simp only [Res.pure_eq, Res.ok.injEq] at h
      rw [← h]
    rw [this, hd]
  · rintro g p v n g' ⟨hs, hd⟩ hn hA
    obtain ⟨p', h1, h2⟩ := Hp.DD.bump hs hn (Dbg.DD.skipAssert hA)
    refine ⟨p', h1, h2, ?_⟩
    have : p'.dim = p.dim := by
      unfold Hp.DD.Group.addRepeatedValue at h1
      simp only [Res.bind_eq_ok] at h1
      obtain ⟨_, _, _, _, _, _, _, _, _, _, h⟩ := h1
      simp only [Res.pure_eq, Res.ok.injEq] at h
      rw [← h]
    rw [this, hd]
  · rintro g p s t g' ⟨⟨h1, h2, ta, h3⟩, hd⟩ ⟨⟨h4, h5, tb, h6⟩, -⟩ hA
    simp only [DD.api, DD.Group.merge] at hA
    obtain ⟨cs, hcs, hA⟩ := Res.bind_eq_ok.1 hA
    simp only [Res.pure_eq, Res.ok.injEq] at hA
    subst hA
    have e := Hp.DD.mergeLoop_of _ _ _ ta tb hcs
    have el := Hp.DD.mergeLoop_length _ _ _ hcs
    refine ⟨⟨cs ++ ta, p.dim⟩, ?_, ⟨?_, ?_, ta, rfl⟩, hd⟩
    · simp only [Hp.DD.api, Hp.DD.Group.merge]
      rw [h1, h3, h6, e]; rfl
    · simp [h1, el]
    · rw [← h2, h3]; simp [el]

example : ∃ p, (((History.init.add 1).repeated 0 3).merge (.add .init 1)).run (Hp.DD.api 2) =
    .ok p ∧ p.dump = .ok [3, 2] := by
  refine ⟨⟨3 :: 2 :: List.replicate 254 0, 2⟩, ?_, ?_⟩ <;> decide +kernel

/-- `init` on a newly made group gives the empty group of the history. -/
theorem C61_dd_init {F : Type} (sh : Hp.DD.Shared F) (hd : sh.dim ≤ 256) :
    Hp.DD.Group.new.init sh = .ok (Hp.DD.api sh.dim).init := by
  unfold Hp.DD.Group.init
  rw [if_pos (by simpa [Hp.DD.Group.new, Hp.DD.maxDim, -List.reduceReplicate] using hd)]
  simp only [Hp.DD.Group.new, Hp.DD.copyInto, Hp.DD.api, Hp.DD.maxDim, List.length_replicate,
    List.drop_replicate, List.replicate_append_replicate, Nat.add_sub_cancel' hd]

theorem Hp.DD.posterior_of (as : List XR) (cs : List Int) (ta : List XR) (tc : List Int)
    (h : as.length = cs.length) :
    posterior as.length (as ++ ta) (cs ++ tc) = Dist.DD.posterior as cs := by
  induction as generalizing cs with
  | nil => rfl
  | cons a as ih =>
    cases cs with
    | nil => simp at h
    | cons c cs =>
      simp only [List.length_cons, List.cons_append, posterior, Dist.DD.posterior]
      rw [ih cs (by simpa using h), XR.add_comm]

theorem Hp.DD.countSum_of (cs tc : List Int) (s : Int)
    (h : ∀ k ≤ cs.length, InInt32 (s + (cs.take k).sum)) :
    countSum cs.length (cs ++ tc) s = .ok (s + cs.sum) := by
  induction cs generalizing s with
  | nil => simp [countSum]
  | cons c cs ih =>
    simp only [List.length_cons, List.cons_append, countSum]
    have h1 := h 1 (by simp)
    simp only [List.take_succ_cons, List.take_zero, List.sum_cons, List.sum_nil,
      Int.add_zero] at h1
    rw [i32_of h1, Res.ok_bind, ih]
    · simp [Int.add_assoc]
    · intro k hk
      have := h (k + 1) (by simpa using hk)
      simpa [Int.add_assoc] using this

theorem Hp.DD.scoreLoop_of (as : List XR) (cs : List Int) (ta : List XR) (tc : List Int)
    (h : as.length = cs.length) (x : XR) (ts : List XR) (ht : Dbg.DD.terms as cs = .ok ts) :
    scoreLoop as.length (as ++ ta) (cs ++ tc) x = .ok (x + Dbg.npSum ts) := by
  induction as generalizing cs x ts with
  | nil =>
    simp [Dbg.DD.terms] at ht; subst ht
    simp [scoreLoop, Dbg.npSum, XR.add_zero]
  | cons a as ih =>
    cases cs with
    | nil => simp at h
    | cons c cs =>
      simp only [Dbg.DD.terms] at ht
      obtain ⟨xs, hxs, ht⟩ := Res.bind_eq_ok.1 ht
      simp only [Res.pure_eq, Res.ok.injEq] at ht
      subst ht
      simp only [List.length_cons, List.cons_append, scoreLoop]
      rw [ih cs (by simpa using h) _ xs hxs, Dbg.npSum_cons]
      simp only [XR.add_assoc]

/-- The hyperparameters as the Cython object holds them after `load`. -/
noncomputable def Hp.DD.shared (alphas : List ℝ) : Shared XR :=
  (Shared.new.load (alphas.map XR.fin)).1

theorem Hp.DD.shared_eq (alphas : List ℝ) (h : alphas.length ≤ 256) :
    ∃ t, shared alphas = ⟨alphas.map XR.fin ++ t, alphas.length⟩ ∧
      (alphas.map XR.fin ++ t).length = 256 := by
  refine ⟨(List.replicate maxDim (ofInt 0 : XR)).drop alphas.length, ?_, ?_⟩
  · simp [shared, Shared.load, maxDim, h, copyInto, Shared.new, -List.reduceReplicate]
  · simp [maxDim, h, -List.reduceReplicate]

theorem Dbg.npSum_map_fin (l : List ℝ) : npSum (l.map XR.fin) = XR.fin l.sum := by
  induction l with
  | nil => simp [npSum]
  | cons a l ih => rw [List.map_cons, npSum_cons, ih, XR.fin_add, List.sum_cons]

/-- `score_value` of the three implementations. -/
theorem C61_dd_score_value (lvl : Nat) (alphas : List ℝ) (g : DD.Group) (p : Hp.DD.Group) (v : Int)
    (hs : Hp.DD.Same g p) (hlen : alphas.length = g.counts.length) (hv : 0 ≤ v)
    (hv' : v < alphas.length) (hpos : ∀ a ∈ alphas, 0 < a) (hc : ∀ c ∈ g.counts, 0 ≤ c) :
    ∃ r : ℝ, p.scoreValue (Hp.DD.shared alphas) v = .ok (XR.fin r) ∧
      g.scoreValue lvl ⟨alphas.map XR.fin⟩ v = .ok (XR.fin r) ∧
      Dbg.DD.scoreValue (alphas.map XR.fin) g.counts v = .ok (XR.fin r) := by
  obtain ⟨r, hr⟩ := C57_dd_score_value_defined alphas g.counts v hlen hv hv' hpos hc
  have hcpp := C57_dd_score_value lvl (alphas.map XR.fin) g v (XR.fin r) (by simpa using hlen) hv hr
  refine ⟨r, ?_, hcpp, hr⟩
  obtain ⟨h1, h2, tc, h3⟩ := hs
  have hle : alphas.length ≤ 256 := by rw [hlen, ← h2, h3]; simp
  obtain ⟨ta, hsh, hsl⟩ := Hp.DD.shared_eq alphas hle
  have hlen' : (alphas.map XR.fin).length = g.counts.length := by simpa using hlen
  obtain ⟨ps, e1, e2, e3, e4⟩ := Dbg.DD.posterior_of (alphas.map XR.fin) g.counts hlen'
  lift v to Nat using hv
  have hlt : v < alphas.length := by omega
  have hltc : v < g.counts.length := by omega
  have hcv : (g.counts ++ tc)[v]'(by simp; omega) = g.counts[v] := List.getElem_append_left hltc
  have hav : (alphas.map XR.fin ++ ta)[v]'(by omega) = XR.fin alphas[v] := by
    rw [List.getElem_append_left (by simpa using hlt)]; simp
  have hi : InInt32 (v : Int) := by
    unfold InInt32 int32Min int32Max; constructor <;> omega
  have hpost := Hp.DD.posterior_of (alphas.map XR.fin) g.counts ta tc hlen'
  simp only [List.length_map] at hpost
  have hfold : ps.foldl (· + ·) (lit 0 1) = Dbg.npSum ps := by
    simp [Dbg.npSum]
  have hsum : Dbg.npSum ps = XR.fin (g.counts.sum + alphas.sum) := by
    rw [e3, Dbg.npSum_map_fin, XR.fin_add]
  have hne : ((g.counts.sum : ℝ) + alphas.sum) ≠ 0 := by
    have h0 : (0 : ℝ) ≤ g.counts.sum := by exact_mod_cast List.sum_nonneg hc
    have h1 : alphas[v] ≤ alphas.sum :=
      List.single_le_sum (fun a ha => (hpos a ha).le) _ (List.getElem_mem hlt)
    have h2 := hpos _ (List.getElem_mem hlt)
    exact (by linarith : (0 : ℝ) < g.counts.sum + alphas.sum).ne'
  unfold Dbg.DD.scoreValue at hr
  rw [Dbg.npIndex_of _ (by omega) (by omega), Dbg.npIndex_of _ (by omega) (by simpa using hv'),
    Dbg.npSum_map_fin] at hr
  simp only [Int.toNat_natCast] at hr
  rw [getAt_of hltc, getAt_of (by simpa using hlt)] at hr
  simp only [Res.ok_bind, List.getElem_map, XR.ofInt_eq, XR.fin_add] at hr
  obtain ⟨hr, -⟩ := Dbg.pyLog_ok hr
  unfold Hp.DD.Group.scoreValue
  rw [Hp.cInt_of hi, Res.ok_bind, hsh, h3]
  simp only [hpost, e1, Res.ok_bind]
  rw [DD.readAt, if_pos (by omega), Int.toNat_natCast, getAt_of (by simp; omega), Res.ok_bind,
    DD.readAt, if_pos (by omega), Int.toNat_natCast, getAt_of (by omega), Res.ok_bind,
    hcv, hav, hfold, hsum, XR.ofInt_eq, XR.fin_add, Hp.cyDiv_eq, Dbg.pyDiv_fin hne, Res.ok_bind,
    hr, XR.fin_div _ _ hne]
  rfl

/-- Two observations of value 1 and one of value 0. -/
example : Hp.DD.Same ⟨3, [1, 2]⟩ ⟨[1, 2] ++ List.replicate 254 0, 2⟩ := ⟨rfl, by simp [-List.reduceReplicate], _, rfl⟩

/-- `score_data` of the three implementations; the C++ one needs `count_sum` up to date, which
`merge` does not keep (C57_dd_merge_differs). -/
theorem C61_dd_score_data (alphas : List XR) (t : List XR) (g : DD.Group) (p : Hp.DD.Group) (x : XR)
    (hs : Hp.DD.Same g p) (hlen : alphas.length = g.counts.length)
    (hsum : ∀ k ≤ g.counts.length, InInt32 (g.counts.take k).sum)
    (h : Dbg.DD.scoreData alphas g.counts = .ok x) :
    p.scoreData ⟨alphas ++ t, alphas.length⟩ = .ok x ∧
      (g.countSum = g.counts.sum → g.scoreData ⟨alphas⟩ = .ok x) := by
  refine ⟨?_, fun hc => C57_dd_score_data alphas g x hlen hc h⟩
  obtain ⟨h1, h2, tc, h3⟩ := hs
  unfold Dbg.DD.scoreData at h
  obtain ⟨ts, ht, h⟩ := Res.bind_eq_ok.1 h
  simp only [Res.pure_eq, Res.ok.injEq] at h
  subst h
  unfold Hp.DD.Group.scoreData
  rw [h3]
  have e1 := Hp.DD.countSum_of g.counts tc 0 (by simpa using hsum)
  have e2 := Hp.DD.scoreLoop_of alphas g.counts t tc hlen (lit 0 1) ts ht
  rw [← hlen] at e1
  simp only [List.length_append, Nat.le_add_right, if_true, Res.ok_bind, List.take_left']
  rw [e1, Res.ok_bind, e2]
  simp only [Res.ok_bind, Res.pure_eq, Int.zero_add, XR.lit_eq, Int.cast_zero, zero_div,
    XR.zero_add, Dbg.npSum, XR.ofInt_eq, Int.cast_zero]

example : ∃ x, Dbg.DD.scoreData [XR.fin 1, XR.fin 1] (⟨3, [1, 2]⟩ : DD.Group).counts = .ok x :=
  ⟨_, rfl⟩

theorem Hp.dirichlet_same {F σ : Type} [FloatOps F] (rng : Rng F σ) (as : List F) (s : σ) (t : F)
    (h : ∀ a ∈ as, lt (ofInt 0) a = true) :
    dirichletLoop rng as s t = Dist.dirichletLoop rng as s t := by
  induction as generalizing s t with
  | nil => rfl
  | cons a as ih =>
    simp only [dirichletLoop, Dist.dirichletLoop]
    rw [if_pos (h a (by simp))]
    simp only [ih _ _ (fun b hb => h b (by simp [hb]))]

/-- With positive posterior parameters `sample_value` makes the same draws as in C++. -/
theorem C61_dd_sample_value {σ : Type} (rng : Rng XR σ) (s : σ) (alphas : List ℝ) (g : DD.Group)
    (p : Hp.DD.Group) (hs : Hp.DD.Same g p) (hlen : alphas.length = g.counts.length)
    (hd : 0 < alphas.length) (hpos : ∀ a ∈ alphas, 0 < a) (hc : ∀ c ∈ g.counts, 0 ≤ c) :
    p.sampleValue rng s (Hp.DD.shared alphas) = g.sampleValue rng s ⟨alphas.map XR.fin⟩ := by
  obtain ⟨h1, h2, tc, h3⟩ := hs
  have hle : alphas.length ≤ 256 := by rw [hlen, ← h2, h3]; simp
  obtain ⟨ta, hsh, hsl⟩ := Hp.DD.shared_eq alphas hle
  have hlen' : (alphas.map XR.fin).length = g.counts.length := by simpa using hlen
  obtain ⟨ps, e1, e2, e3, e4⟩ := Dbg.DD.posterior_of (alphas.map XR.fin) g.counts hlen'
  have hpost := Hp.DD.posterior_of (alphas.map XR.fin) g.counts ta tc hlen'
  simp only [List.length_map] at hpost e2
  have hp : ∀ a ∈ ps, lt (ofInt 0) a = true := by
    intro a ha
    obtain ⟨i, hi, rfl⟩ := List.mem_iff_getElem.1 ha
    have hia : i < alphas.length := by omega
    have hic : i < g.counts.length := by omega
    have := e4 i (XR.fin alphas[i]) g.counts[i] (by simp [hia]) (by simp [hic])
    rw [List.getElem?_eq_getElem hi, Option.some_inj] at this
    have ha := hpos _ (List.getElem_mem hia)
    have hcc : (0 : ℝ) ≤ g.counts[i] := by exact_mod_cast hc _ (List.getElem_mem hic)
    rw [this, XR.fin_add, XR.ofInt_eq, Int.cast_zero, XR.lt_fin]
    linarith
  unfold Hp.DD.Group.sampleValue Hp.DD.samplerInit DD.Group.sampleValue
  rw [hsh, h3]
  simp only [hpost, e1, Res.ok_bind, Res.pure_eq, Hp.sampleDirichlet, sampleDirichlet,
    Hp.dirichlet_same rng ps s _ hp, Hp.sampleDiscrete, sampleDiscrete]
  have hl : ∀ (as : List XR) (s : σ) (t : XR), (dirichletLoop rng as s t).1.length = as.length := by
    intro as
    induction as with
    | nil => intros; rfl
    | cons a as ih =>
      intro s t
      simp only [dirichletLoop]
      split_ifs <;> simp [ih]
  have hl0 := hl ps s (lit 0 1)
  have hl1 : 0 < (dirichletLoop rng ps s (lit 0 1)).1.length := by rw [hl0]; omega
  rw [if_neg (by rw [List.length_map]; omega)]
  simp only [List.length_map]
  rw [distAssert0_of hl1]
  rfl

/-- Before `init` or with no categories, `sample_value` reads outside the array. -/
theorem C61_dd_sample_empty {σ : Type} (rng : Rng XR σ) (s : σ) :
    Hp.DD.Group.new.sampleValue rng s (Hp.DD.shared []) = .ub ∧
    (DD.Group.init 0).sampleValue rng s (⟨[]⟩ : DD.Shared XR) = .fail := by
  constructor <;> rfl

/-- A category at or beyond the dimension but below 256 is accepted and counted nowhere the
object shows; the C++ group in a debug build raises. -/
theorem C61_dd_accepts_unknown (dim : Nat) (v : Int) (h1 : (dim : Int) ≤ v) (h2 : v < 256) :
    (∃ p, (Hp.DD.api dim).init.addValue v = .ok p ∧ p.dump = (Hp.DD.api dim).init.dump) ∧
    (DD.Group.init dim).addValue 3 v = .fail := by
  have hi : InInt32 v := by unfold InInt32 int32Min int32Max; constructor <;> omega
  have hlt : v.toNat < (List.replicate 256 (0 : Int)).length := by
    rw [List.length_replicate]; omega
  constructor
  · refine ⟨⟨(List.replicate 256 0).set v.toNat 1, dim⟩, ?_, ?_⟩
    · unfold Hp.DD.Group.addValue
      simp only [Hp.DD.api, Hp.DD.maxDim]
      rw [Hp.cInt_of hi, Res.ok_bind, DD.readAt, if_pos (by omega), getAt_of hlt, Res.ok_bind,
        List.getElem_replicate, i32_of (by decide), Res.ok_bind, DD.writeAt, if_pos (by omega),
        setAt_of hlt]
      rfl
    · unfold Hp.DD.Group.dump
      simp only [Hp.DD.api, Hp.DD.maxDim]
      have : ∀ l : List Nat, (∀ i ∈ l, i < dim) →
          (l.mapM (getAt ((List.replicate 256 (0 : Int)).set v.toNat 1)) : Res (List Int)) =
            l.mapM (getAt (List.replicate 256 (0 : Int))) := by
        intro l
        induction l with
        | nil => intros; rfl
        | cons i l ih =>
          intro h
          have hid := h i (by simp)
          have hil : i < 256 := by omega
          simp only [List.mapM_cons]
          rw [ih (fun j hj => h j (by simp [hj])), getAt_of (by simpa [-List.reduceReplicate] using hil),
            getAt_of (by simpa [-List.reduceReplicate] using hil), List.getElem_set_ne (by omega)]
      exact this _ (fun i hi => by simpa using hi)
  · unfold DD.Group.addValue
    rw [distAssert_of_not (by decide) (by simp [DD.Group.init]; omega)]
    rfl

/-- Loading parameters or counts of at most 256 categories and dumping them gives them back,
whatever the object held. -/
theorem C61_dd_load_dump {F : Type} [FloatOps F] (sh : Hp.DD.Shared F) (g : Hp.DD.Group)
    (alphas : List F) (counts : List Int) (ha : alphas.length ≤ 256) (hc : counts.length ≤ 256) :
    ((sh.load alphas).2 = true ∧ (sh.load alphas).1.dump = .ok alphas) ∧
      (g.load counts).2 = true ∧ (g.load counts).1.dump = .ok counts := by
  unfold Hp.DD.Shared.load Hp.DD.Group.load
  rw [if_pos (show alphas.length ≤ Hp.DD.maxDim from ha),
    if_pos (show counts.length ≤ Hp.DD.maxDim from hc)]
  exact ⟨⟨rfl, Hp.DD.mapM_getAt _ _⟩, rfl, Hp.DD.mapM_getAt _ _⟩

example : ((Hp.DD.Group.new.load [7, 8, 9]).1.load [1, 2]).1.dump = .ok [1, 2] := by decide +kernel

/-- `load` of too many categories raises, but the object then claims a dimension its array does
not have: the next `score_value` reads outside it. -/
theorem C61_dd_failed_load {F : Type} [FloatOps F] (sh : Hp.DD.Shared F) (raw : List F)
    (g : Hp.DD.Group) (v : Int) (hv : InInt32 v) (h : 256 < raw.length) (hg : g.counts.length = 256) :
    (sh.load raw).2 = false ∧ g.scoreValue (sh.load raw).1 v = .ub := by
  have e : sh.load raw = (⟨sh.alphas, raw.length⟩, false) := by
    unfold Hp.DD.Shared.load; rw [if_neg (by simp [Hp.DD.maxDim]; omega)]
  have key : ∀ (n : Nat) (as : List F) (cs : List Int), cs.length < n →
      Hp.DD.posterior n as cs = .ub := by
    intro n
    induction n with
    | zero => intro _ _ h; omega
    | succ n ih =>
      intro as cs h
      cases as with
      | nil => rfl
      | cons a as =>
        cases cs with
        | nil => rfl
        | cons c cs =>
          simp only [Hp.DD.posterior]
          rw [ih as cs (by simpa using h)]; rfl
  rw [e]
  refine ⟨rfl, ?_⟩
  unfold Hp.DD.Group.scoreValue
  rw [Hp.cInt_of hv, Res.ok_bind, key _ _ _ (by show g.counts.length < raw.length; omega)]
  rfl

example : (256 : Nat) < (List.replicate 257 (XR.fin 1)).length := by
  rw [List.length_replicate]; decide

end Dist
