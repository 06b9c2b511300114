import Verif.Lemmas.Mixture
import Verif.Lemmas.DD

/-! # The Dirichlet-Discrete value cache mirrors the groups -/

namespace Dist

open Spec FloatOps FloatNotation

variable {F : Type} [FloatOps F]

namespace DD

/-- Sum of the hyperparameters, in the order of the code. -/
def asum (sh : Shared F) : F := sh.alphas.foldl (· + ·) (ofInt 0)

/-- One column entry. -/
def entry (v : Nat) (a : F) (g : Group) : F := a + ofInt (g.counts.getD v 0)

structure Mirrors (sh : Shared F) (c : Cache F) (gs : List Group) : Prop where
  sum : c.alphaSum = some (asum sh)
  shift : c.shift = gs.map fun g => log (asum sh + ofInt g.countSum)
  len : c.scores.length = sh.alphas.length
  cols : ∀ v a, sh.alphas[v]? = some a → c.scores[v]? = some (gs.map fun g => log (entry v a g))
  dims : ∀ g ∈ gs, g.counts.length = sh.alphas.length

theorem forValues_spec (f : Nat → List F → Res (List F)) (r : Nat → List F) :
    ∀ (n v : Nat) (ss : List (List F)), ss.length = n →
      (∀ k s, ss[k]? = some s → f (v + k) s = .ok (r (v + k))) →
      ∃ ss', forValues f n v ss = .ok ss' ∧ ss'.length = n ∧
        ∀ k < n, ss'[k]? = some (r (v + k)) := by
  intro n
  induction n with
  | zero =>
    intro v ss h _
    rw [List.length_eq_zero_iff.mp h]
    exact ⟨[], rfl, rfl, by omega⟩
  | succ n ih =>
    intro v ss h hf
    obtain ⟨s, ss, rfl⟩ := List.exists_cons_of_length_eq_add_one h
    obtain ⟨ss', e, hl, hk⟩ := ih (v + 1) ss (by simpa using h) (fun k s' hs => by
      rw [show v + 1 + k = v + (k + 1) by omega]; exact hf (k + 1) s' (by simpa using hs))
    refine ⟨r v :: ss', ?_, by simp [hl], ?_⟩
    · simp only [forValues]
      rw [show f v s = .ok (r v) from hf 0 s rfl, Res.ok_bind, e]
      rfl
    · intro k hk'
      cases k with
      | zero => rfl
      | succ k =>
        rw [List.getElem?_cons_succ, hk k (by omega), show v + 1 + k = v + (k + 1) by omega]

theorem getAt_counts {sh : Shared F} {g : Group} (hd : g.counts.length = sh.alphas.length)
    {v : Nat} (hv : v < sh.alphas.length) : getAt g.counts v = .ok (g.counts.getD v 0) := by
  rw [getAt_eq_ok, List.getD_eq_getElem?_getD, List.getElem?_eq_getElem (by omega)]
  rfl

theorem updateGroup_mirrors (sh : Shared F) {c : Cache F} {gs' : List Group} {i : Nat}
    {g : Group} (hsum : c.alphaSum = some (asum sh)) (hlen : c.scores.length = sh.alphas.length)
    (hg : g.counts.length = sh.alphas.length)
    (hshift : setAt c.shift i (log (asum sh + ofInt g.countSum)) =
      .ok (gs'.map fun g => log (asum sh + ofInt g.countSum)))
    (hcols : ∀ v a s, sh.alphas[v]? = some a → c.scores[v]? = some s →
      setAt s i (log (entry v a g)) = .ok (gs'.map fun g => log (entry v a g)))
    (hd : ∀ g ∈ gs', g.counts.length = sh.alphas.length) :
    ∃ c', updateGroup sh c i g = .ok c' ∧ Mirrors sh c' gs' := by
  simp only [updateGroup, hsum, readInit, Res.ok_bind, hshift]
  obtain ⟨ss', e, hl, hk⟩ := forValues_spec (fun v s => do
      let a ← getAt sh.alphas v
      let n ← getAt g.counts v
      setAt s i (log (a + ofInt n)))
    (fun v => gs'.map fun g => log (entry v (sh.alphas.getD v (ofInt 0)) g))
    sh.alphas.length 0 c.scores hlen (by
      intro k s hs
      have hk : k < sh.alphas.length := by
        rw [← hlen]; exact (List.getElem?_eq_some_iff.mp hs).1
      have ha : sh.alphas[k]? = some (sh.alphas.getD k (ofInt 0)) := by
        rw [List.getD_eq_getElem?_getD, List.getElem?_eq_getElem hk]; rfl
      rw [Nat.zero_add]
      rw [getAt_eq_ok.mpr ha, Res.ok_bind, getAt_counts hg hk, Res.ok_bind]
      exact hcols k _ s ha hs)
  rw [e]
  refine ⟨_, rfl, rfl, rfl, hl, ?_, hd⟩
  intro v a ha
  have hv := (List.getElem?_eq_some_iff.mp ha).1
  have : sh.alphas.getD v (ofInt 0) = a := by
    rw [List.getD_eq_getElem?_getD, ha]; rfl
  rw [hk v hv, Nat.zero_add, this]

theorem vectorLog_map {G : Type} (f : G → F) (gs : List G) :
    vectorLog gs.length (gs.map f) = .ok (gs.map fun g => log (f g)) := by
  have h : gs.length ≤ (gs.map f).length := by simp
  rw [vectorLog, if_pos h, List.take_of_length_le (by simp), List.drop_of_length_le (by simp)]
  simp [Function.comp_def]

theorem updateAllLoop_spec (sh : Shared F) (A : F) (gs : List Group) :
    ∀ (xs : List Group) (scores : List (List F)) (shift os : List F),
      shift = xs.map (fun g => A + ofInt g.countSum) ++ os → os.length = gs.length →
      scores.length = sh.alphas.length →
      (∀ v a, sh.alphas[v]? = some a → ∃ o : List F, o.length = gs.length ∧
        scores[v]? = some (xs.map (entry v a) ++ o)) →
      (∀ g ∈ gs, g.counts.length = sh.alphas.length) →
      ∃ ss', updateAllLoop sh A xs.length gs scores shift =
          .ok (ss', (xs ++ gs).map (fun g => A + ofInt g.countSum)) ∧
        ss'.length = sh.alphas.length ∧
        ∀ v a, sh.alphas[v]? = some a → ss'[v]? = some ((xs ++ gs).map (entry v a)) := by
  induction gs with
  | nil =>
    intro xs scores shift os hs ho hl hc _
    rw [List.length_eq_zero_iff.mp ho] at hs
    refine ⟨scores, by simp [updateAllLoop, hs], hl, ?_⟩
    intro v a ha
    obtain ⟨o, ho', he⟩ := hc v a ha
    rw [List.length_eq_zero_iff.mp ho'] at he
    simpa using he
  | cons g gs ih =>
    intro xs scores shift os hs ho hl hc hd
    obtain ⟨o, os, rfl⟩ := List.exists_cons_of_length_eq_add_one ho
    have hg := hd g (by simp)
    simp only [updateAllLoop]
    have hr : ∀ v, ∃ r : List F, ∀ a s, sh.alphas[v]? = some a → scores[v]? = some s →
        setAt s xs.length (a + ofInt (g.counts.getD v 0)) = .ok r ∧
        ∃ o' : List F, o'.length = gs.length ∧ r = (xs ++ [g]).map (entry v a) ++ o' := by
      intro v
      cases ha : sh.alphas[v]? with
      | none => exact ⟨[], by simp⟩
      | some a =>
        obtain ⟨o', ho', he⟩ := hc v a ha
        obtain ⟨x, o', rfl⟩ := List.exists_cons_of_length_eq_add_one ho'
        refine ⟨(xs ++ [g]).map (entry v a) ++ o', ?_⟩
        intro a' s haa hss
        simp only [Option.some.injEq] at haa
        subst haa
        rw [he] at hss
        simp only [Option.some.injEq] at hss
        subst hss
        exact ⟨setAt_fill (entry v a) xs g x o', o', by simpa using ho', rfl⟩
    choose r hr using hr
    obtain ⟨ss', e, hl', hk⟩ := forValues_spec (fun v s => do
        let a ← getAt sh.alphas v
        let n ← getAt g.counts v
        setAt s xs.length (a + ofInt n)) r sh.alphas.length 0 scores hl (by
      intro k s hs'
      have hk : k < sh.alphas.length := by
        rw [← hl]; exact (List.getElem?_eq_some_iff.mp hs').1
      rw [Nat.zero_add]
      rw [getAt_of hk, Res.ok_bind, getAt_counts hg hk, Res.ok_bind]
      exact (hr k _ s (List.getElem?_eq_getElem hk) hs').1)
    rw [e, Res.ok_bind, hs, setAt_fill (fun g : Group => A + ofInt g.countSum), Res.ok_bind,
      show xs.length + 1 = (xs ++ [g]).length by simp]
    obtain ⟨ss'', e2, hl2, hk2⟩ := ih (xs ++ [g]) ss' _ os rfl (by simpa using ho) hl' (by
      intro v a ha
      have hv := (List.getElem?_eq_some_iff.mp ha).1
      have hsv : scores[v]? = some (scores[v]'(by omega)) := List.getElem?_eq_getElem (by omega)
      obtain ⟨_, o', ho', he⟩ := hr v a _ ha hsv
      refine ⟨o', ho', ?_⟩
      rw [hk v hv, Nat.zero_add, he]) (fun g' hg' => hd g' (by simp [hg']))
    refine ⟨ss'', ?_, hl2, ?_⟩
    · rw [e2]; simp
    · intro v a ha
      rw [hk2 v a ha]; simp

theorem updateAll_mirrors (sh : Shared F) (c : Cache F) (gs : List Group)
    (hlen : c.scores.length = sh.alphas.length) (hcol : ∀ s ∈ c.scores, s.length = gs.length)
    (hshift : c.shift.length = gs.length)
    (hd : ∀ g ∈ gs, g.counts.length = sh.alphas.length) :
    ∃ c', updateAll sh c gs = .ok c' ∧ Mirrors sh c' gs := by
  obtain ⟨ss, e, hl, hk⟩ := updateAllLoop_spec sh (asum sh) gs [] c.scores c.shift c.shift rfl
    hshift hlen (by
      intro v a ha
      have hv := (List.getElem?_eq_some_iff.mp ha).1
      exact ⟨c.scores[v]'(by omega), hcol _ (List.getElem_mem _), by
        rw [List.getElem?_eq_getElem (by omega)]; rfl⟩) hd
  simp only [List.nil_append, List.length_nil] at e hk
  simp only [updateAll]
  rw [show sh.alphas.foldl (· + ·) (ofInt 0) = asum sh from rfl, e, Res.ok_bind]
  dsimp only
  rw [vectorLog_map, Res.ok_bind]
  obtain ⟨ss', e', hl', hk'⟩ := forValues_spec (fun _ s => vectorLog gs.length s)
    (fun v => gs.map fun g => log (entry v (sh.alphas.getD v (ofInt 0)) g))
    sh.alphas.length 0 ss hl (by
      intro k s hs
      have hk0 : k < sh.alphas.length := by
        rw [← hl]; exact (List.getElem?_eq_some_iff.mp hs).1
      have ha : sh.alphas[k]? = some (sh.alphas.getD k (ofInt 0)) := by
        rw [List.getD_eq_getElem?_getD, List.getElem?_eq_getElem hk0]; rfl
      have := hk k _ ha
      rw [hs] at this
      simp only [Option.some.injEq] at this
      rw [this, Nat.zero_add, vectorLog_map])
  rw [e']
  refine ⟨_, rfl, rfl, rfl, hl', ?_, hd⟩
  intro v a ha
  have hv := (List.getElem?_eq_some_iff.mp ha).1
  have : sh.alphas.getD v (ofInt 0) = a := by
    rw [List.getD_eq_getElem?_getD, ha]; rfl
  rw [hk' v hv, Nat.zero_add, this]

/-- What a successful `add_value`/`remove_value` did. -/
theorem bump_inv {lvl : Nat} {g g' : Group} {v k : Int}
    (h : g.addRepeatedValue lvl v k = .ok g') :
    0 ≤ v ∧ v.toNat < g.counts.length ∧ g'.countSum = g.countSum + k ∧
      g'.counts = g.counts.set v.toNat (g.counts.getD v.toNat 0 + k) := by
  simp only [Group.addRepeatedValue, Res.bind_eq_ok, i32_eq_ok, readAt, writeAt] at h
  obtain ⟨_, _, s, ⟨_, hs⟩, c, hc, c', ⟨_, hc'⟩, cs, hcs, hg⟩ := h
  split_ifs at hc hcs with hv
  rw [getAt_eq_ok] at hc
  rw [setAt_eq_ok] at hcs
  simp only [Res.pure_eq, Res.ok.injEq] at hg
  subst hg
  refine ⟨hv, hcs.1, hs.symm, ?_⟩
  rw [hcs.2, List.getD_eq_getElem?_getD, hc]
  simp [hc']

theorem updateGroupValue_mirrors (lvl : Nat) (sh : Shared F) {c : Cache F} {gs : List Group}
    (h : Mirrors sh c gs) {i : Nat} {g g' : Group} {v k : Int} (hi : gs[i]? = some g)
    (hb : g.addRepeatedValue lvl v k = .ok g') :
    ∃ c', updateGroupValue lvl sh c i g' v = .ok c' ∧ Mirrors sh c' (gs.set i g') := by
  obtain ⟨hv, hlt, hsum, hcounts⟩ := bump_inv hb
  have hdim := h.dims g (List.mem_of_getElem? hi)
  have hlt' : v.toNat < sh.alphas.length := by omega
  have hvlt : v < sh.alphas.length := by omega
  have hg' : g'.counts.length = sh.alphas.length := by rw [hcounts]; simpa using hdim
  have hii := (List.getElem?_eq_some_iff.mp hi).1
  have ha := List.getElem?_eq_getElem hlt'
  have hcol := h.cols v.toNat _ ha
  have hset : ∀ (w : Nat) (a : F), w ≠ v.toNat → (gs.set i g').map (fun g => log (entry w a g)) =
      gs.map fun g => log (entry w a g) := by
    intro w a hw
    rw [List.map_set]
    apply List.ext_getElem?
    intro j
    rw [List.getElem?_set]
    split_ifs with hj hj2
    · subst hj
      have : entry w a g' = entry w a g := by
        unfold entry
        rw [hcounts, List.getD_eq_getElem?_getD, List.getElem?_set_ne (Ne.symm hw),
          ← List.getD_eq_getElem?_getD]
      rw [List.getElem?_map, hi, this]; rfl
    · subst hj; simp at hj2; omega
    · rfl
  have hread : readAt g'.counts v = .ok (g'.counts.getD v.toNat 0) := by
    rw [readAt, if_pos hv]; exact getAt_counts hg' hlt'
  refine ⟨⟨c.alphaSum, c.scores.set v.toNat
    ((gs.set i g').map fun g => log (entry v.toNat sh.alphas[v.toNat] g)),
    (gs.set i g').map fun g => log (asum sh + ofInt g.countSum)⟩, ?_, h.sum, rfl, ?_, ?_, ?_⟩
  · rw [updateGroupValue, distAssert_of hvlt, Res.ok_bind]
    rw [show readAt c.scores v = .ok _ by rw [readAt, if_pos hv]; exact getAt_eq_ok.mpr hcol,
      Res.ok_bind,
      show readAt sh.alphas v = .ok sh.alphas[v.toNat] by rw [readAt, if_pos hv]; exact getAt_of hlt',
      Res.ok_bind, hread, Res.ok_bind,
      show log (sh.alphas[v.toNat] + ofInt (g'.counts.getD v.toNat 0)) =
        (fun g => log (entry v.toNat sh.alphas[v.toNat] g)) g' from rfl,
      setAt_map (fun g => log (entry v.toNat sh.alphas[v.toNat] g)) g' hi, Res.ok_bind,
      writeAt, if_pos hv, setAt_of (by rw [h.len]; exact hlt'), Res.ok_bind, h.sum]
    simp only [readInit, Res.ok_bind, h.shift]
    rw [setAt_map (fun g => log (asum sh + ofInt g.countSum)) g' hi]
    rfl
  · simpa using h.len
  · intro w a hw
    have hwlt := (List.getElem?_eq_some_iff.mp hw).1
    simp only
    rw [List.getElem?_set]
    split_ifs with hwv hlen
    · subst hwv
      rw [ha] at hw
      simp only [Option.some.injEq] at hw
      rw [hw]
    · rw [h.len] at hlen; omega
    · rw [h.cols w a hw, hset w a (Ne.symm hwv)]
  · intro x hx
    rcases List.mem_or_eq_of_mem_set hx with hx | rfl
    · exact h.dims x hx
    · exact hg'

theorem laws (lvl : Nat) (sh : Shared F) :
    CacheLaws lvl (ops lvl sh.alphas.length) (valueScorer lvl sh)
      (fun g => g.counts.length = sh.alphas.length) (Mirrors sh) where
  valid _ _ h := h.dims
  init s gs hd := by
    have hl : ((resizeWith s.scores sh.alphas.length []).map
        fun s => resizeWith s gs.length (ofInt 0)).length = sh.alphas.length := by
      rw [List.length_map, resizeWith_length]
    obtain ⟨c', e, hm⟩ := updateAll_mirrors sh ⟨s.alphaSum,
      (resizeWith s.scores sh.alphas.length []).map fun s => resizeWith s gs.length (ofInt 0),
      resizeWith s.shift gs.length (ofInt 0)⟩ gs hl (by
        intro x hx
        obtain ⟨y, _, rfl⟩ := List.mem_map.mp hx
        exact resizeWith_length _ _ _) (resizeWith_length _ _ _) hd
    exact ⟨_, c', rfl, e, hm⟩
  addGroup s gs h := by
    have hg0 : (ops lvl sh.alphas.length).init.counts.length = sh.alphas.length := by
      simp [ops, Group.init]
    obtain ⟨ss, e, hl, hk⟩ := forValues_spec (fun _ s => .ok (packedAdd s (ofInt 0 : F)))
      (fun v => packedAdd (gs.map fun g => log (entry v (sh.alphas.getD v (ofInt 0)) g)) (ofInt 0))
      sh.alphas.length 0 s.scores h.len (by
        intro k x hx
        have hk0 : k < sh.alphas.length := by
          rw [← h.len]; exact (List.getElem?_eq_some_iff.mp hx).1
        have ha : sh.alphas[k]? = some (sh.alphas.getD k (ofInt 0)) := by
          rw [List.getD_eq_getElem?_getD, List.getElem?_eq_getElem hk0]; rfl
        have := h.cols k _ ha
        rw [hx] at this
        simp only [Option.some.injEq] at this
        rw [this, Nat.zero_add])
    refine ⟨⟨s.alphaSum, ss, packedAdd s.shift (ofInt 0)⟩, ?_⟩
    obtain ⟨c', e', hm⟩ := updateGroup_mirrors sh
      (c := ⟨s.alphaSum, ss, packedAdd s.shift (ofInt 0)⟩)
      (gs' := gs ++ [(ops lvl sh.alphas.length).init]) (i := gs.length)
      (g := (ops lvl sh.alphas.length).init) h.sum hl hg0
      (by
        simp only [h.shift]
        exact setAt_push (fun g => log (asum sh + ofInt g.countSum)) gs _ _)
      (by
        intro v a x ha hx
        have hv := (List.getElem?_eq_some_iff.mp ha).1
        have hget : sh.alphas.getD v (ofInt 0) = a := by
          rw [List.getD_eq_getElem?_getD, ha]; rfl
        have := hk v hv
        simp only at hx
        rw [hx, Nat.zero_add, hget] at this
        simp only [Option.some.injEq] at this
        rw [this]
        exact setAt_push (fun g => log (entry v a g)) gs _ _)
      (by
        intro g hg
        rcases List.mem_append.mp hg with hg | hg
        · exact h.dims g hg
        · rw [List.mem_singleton.mp hg]; exact hg0)
    refine ⟨c', ?_, e', hm⟩
    simp only [valueScorer]
    rw [e]; rfl
  removeGroup s gs i h hi := by
    obtain ⟨ss, e, hl, hk⟩ := forValues_spec (fun _ s => packedRemove lvl s i)
      (fun v => (swapRemove gs i).map fun g => log (entry v (sh.alphas.getD v (ofInt 0)) g))
      sh.alphas.length 0 s.scores h.len (by
        intro k x hx
        have hk0 : k < sh.alphas.length := by
          rw [← h.len]; exact (List.getElem?_eq_some_iff.mp hx).1
        have ha : sh.alphas[k]? = some (sh.alphas.getD k (ofInt 0)) := by
          rw [List.getD_eq_getElem?_getD, List.getElem?_eq_getElem hk0]; rfl
        have := h.cols k _ ha
        rw [hx] at this
        simp only [Option.some.injEq] at this
        rw [this, Nat.zero_add]
        exact packedRemove_map lvl _ hi)
    refine ⟨⟨s.alphaSum, ss, (swapRemove gs i).map fun g => log (asum sh + ofInt g.countSum)⟩,
      ?_, h.sum, rfl, hl, ?_, ?_⟩
    · simp only [valueScorer, h.shift]
      rw [packedRemove_map lvl (fun g => log (asum sh + ofInt g.countSum)) hi, Res.ok_bind, e]
      rfl
    · intro v a ha
      have hv := (List.getElem?_eq_some_iff.mp ha).1
      have : sh.alphas.getD v (ofInt 0) = a := by
        rw [List.getD_eq_getElem?_getD, ha]; rfl
      rw [hk v hv, Nat.zero_add, this]
    · intro g hg
      refine h.dims g ?_
      have hp := Driver.perm_swapRemove (List.getElem?_eq_getElem hi)
      exact hp.subset (by simp [hg])
  add s gs i g v g' h hi hadd := updateGroupValue_mirrors lvl sh h hi (k := 1) hadd
  remove s gs i g v g' h hi hrem := updateGroupValue_mirrors lvl sh h hi (k := -1) hrem

theorem mirrors_scores (lvl : Nat) (sh : Shared F) (m : MixtureSlave (Cache F) Group)
    (h : Mirrors sh m.scorer m.groups) (v : Nat) (a : F) (ha : sh.alphas[v]? = some a) :
    ScoresLike lvl (valueScorer lvl sh) m v (fun g =>
      log (a + ofInt (g.counts.getD v 0)) - log (asum sh + ofInt g.countSum)) := by
  have hv := (List.getElem?_eq_some_iff.mp ha).1
  have hv' : (v : Int) < sh.alphas.length := by exact_mod_cast hv
  have hread : readAt m.scorer.scores (v : Int) =
      .ok (m.groups.map fun g => log (entry v a g)) := by
    rw [readAt, if_pos (by positivity), Int.toNat_natCast]
    exact getAt_eq_ok.mpr (h.cols v a ha)
  constructor
  · intro i g hi
    rw [MixtureSlave.scoreValueGroup, distAssert_of (List.getElem?_eq_some_iff.mp hi).1,
      Res.ok_bind]
    simp only [valueScorer]
    rw [distAssert_of hv', Res.ok_bind, hread, Res.ok_bind, getAt_map _ hi, Res.ok_bind, h.shift,
      getAt_map _ hi]
    rfl
  · intro accum hacc
    rw [MixtureSlave.scoreValue, distAssert_of hacc, Res.ok_bind]
    simp only [valueScorer]
    rw [distAssert_of hv', Res.ok_bind, hread, Res.ok_bind, vectorAddSubtract, h.shift]
    exact accumulate_map _ _ m.groups 0 accum hacc (fun k g hk => by
      rw [Nat.zero_add, getAt_map _ hk, Res.ok_bind, getAt_map _ hk]; rfl)

end DD

end Dist
