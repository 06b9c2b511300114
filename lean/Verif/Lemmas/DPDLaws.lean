import Verif.Lemmas.DPDMixture
import Verif.Lemmas.GibbsCode

/-! # Dirichlet-Process-Discrete caches in the inference loops -/

namespace Dist.DPD

open Spec FloatOps FloatNotation

variable {F : Type} [FloatOps F] {K : Finset UInt32}

/-- The operations on values of the set `K`. -/
def opsIn (lvl : Nat) (sh : Shared F) (K : Finset UInt32) : GroupOps Group {v // v ∈ K} :=
  ⟨SparseCounter.raw.clear, fun g v => Group.addValue lvl sh g v.val,
    fun g v => Group.removeValue lvl sh g v.val⟩

/-- The scorer of values of the set `K`. -/
def scorerIn (lvl : Nat) (sh : Shared F) (K : Finset UInt32) :
    ValueScorerOps (Cache F) Group {v // v ∈ K} F :=
  let vs := valueScorer lvl sh
  ⟨vs.resize, vs.addGroup, vs.removeGroup, vs.updateGroup,
      fun s i g v => vs.addValue s i g v.val, fun s i g v => vs.removeValue s i g v.val,
      vs.updateAll, fun s gs i v => vs.scoreValueGroup s gs i v.val,
      fun s gs v accum => vs.scoreValue s gs v.val accum⟩

/-- The group of some values of the set `K`. -/
def grpIn (M : Multiset {v // v ∈ K}) : Group := ctr (M.map Subtype.val)

theorem grpIn_inj {M M' : Multiset {v // v ∈ K}} (h : grpIn M = grpIn M') : M = M' := by
  have : M.map Subtype.val = M'.map Subtype.val := by
    ext v
    have := congrArg (fun g => SparseCounter.getCount g v) h
    simp only [grpIn, getCount_ctr] at this
    exact_mod_cast this
  exact Multiset.map_injective Subtype.val_injective this

theorem summarisesIn (lvl : Nat) (sh : Shared F) (hK : K ⊆ sh.betas.keys)
    (ho : other ∉ sh.betas.keys) :
    Summarises (opsIn lvl sh K) (fun g M => g = grpIn M ∧ M.card ≤ 2147483647) := by
  have hne : ∀ v : {v // v ∈ K}, v.val ≠ other := fun v h => ho (h ▸ hK v.2)
  refine ⟨⟨eq_ctr (SparseCounter.holds_clear SparseCounter.raw), by simp⟩, ?_, ?_⟩
  · rintro g M v ⟨rfl, hM⟩ hlt
    refine ⟨_, group_add lvl (hne v) (hK v.2) (by simpa using hlt), ?_, by simp; omega⟩
    rw [grpIn, Multiset.map_cons]
  · rintro g M v ⟨rfl, hM⟩ hv
    refine ⟨_, group_remove lvl (hne v) (hK v.2) (Multiset.mem_map_of_mem _ hv) (by simpa using hM),
      ?_, (Multiset.card_le_card (Multiset.erase_le _ _)).trans hM⟩
    rw [grpIn, Multiset.map_erase_of_mem _ _ hv]

/-- The values of the groups, the cache mirroring them. -/
def CohIn (sh : Shared F) (K : Finset UInt32) (c : Cache F) (gs : List Group) : Prop :=
  ∃ Ms : List (Multiset {v // v ∈ K}), gs = Ms.map grpIn ∧ (Ms.map Multiset.card).sum ≤ 2147483647 ∧
    Mirror sh c (Ms.map (Multiset.map Subtype.val))

theorem card_map_sum (Ms : List (Multiset {v // v ∈ K})) :
    (Ms.map (Multiset.map Subtype.val)).sum.card = (Ms.map Multiset.card).sum := by
  induction Ms with
  | nil => rfl
  | cons M Ms ih => simp [ih]

theorem map_grpIn (Ms : List (Multiset {v // v ∈ K})) :
    Ms.map grpIn = (Ms.map (Multiset.map Subtype.val)).map ctr := by
  rw [List.map_map]; rfl

theorem known_of_in {sh : Shared F} (hK : K ⊆ sh.betas.keys) (Ms : List (Multiset {v // v ∈ K})) :
    ∀ v ∈ (Ms.map (Multiset.map Subtype.val)).sum, v ∈ sh.betas.keys := by
  induction Ms with
  | nil => simp
  | cons M Ms ih =>
    intro v hv
    rw [List.map_cons, List.sum_cons, Multiset.mem_add] at hv
    rcases hv with hv | hv
    · obtain ⟨w, _, rfl⟩ := Multiset.mem_map.mp hv
      exact hK w.2
    · exact ih v hv

theorem pw_grpIn {gs : List Group} {Ms : List (Multiset {v // v ∈ K})}
    (h : PW (fun g (M : Multiset {v // v ∈ K}) => g = grpIn M ∧ M.card ≤ 2147483647) gs Ms) :
    gs = Ms.map grpIn := by
  apply List.ext_getElem
  · simp [h.len]
  · intro p h1 h2
    have hp : p < Ms.length := by simpa using h2
    rw [List.getElem_map]
    exact (h.rel p _ _ (List.getElem?_eq_getElem h1) (List.getElem?_eq_getElem hp)).1

theorem map_grpIn_inj {Ms Ms' : List (Multiset {v // v ∈ K})}
    (h : Ms.map grpIn = Ms'.map grpIn) : Ms = Ms' :=
  List.map_injective_iff.mpr (fun _ _ h => grpIn_inj h) h

theorem addValue_groups {S G V F : Type} {lvl : Nat} {ops : GroupOps G V}
    {vs : ValueScorerOps S G V F} {m m' : MixtureSlave S G} {p : Nat} {v : V} {gs : List G}
    (h : m.addValue lvl ops vs p v = .ok m')
    (hg : SlaveGroups.addValue lvl ops m.groups p v = .ok gs) : m'.groups = gs := by
  rw [MixtureSlave.addValue, hg, Res.ok_bind] at h
  obtain ⟨_, _, h⟩ := Res.bind_eq_ok.mp h
  obtain ⟨_, _, h⟩ := Res.bind_eq_ok.mp h
  simp only [Res.pure_eq, Res.ok.injEq] at h
  rw [← h]

theorem removeValue_groups {S G V F : Type} {lvl : Nat} {ops : GroupOps G V}
    {vs : ValueScorerOps S G V F} {m m' : MixtureSlave S G} {p : Nat} {v : V} {gs : List G}
    (h : m.removeValue lvl ops vs p v = .ok m')
    (hg : SlaveGroups.removeValue lvl ops m.groups p v = .ok gs) : m'.groups = gs := by
  rw [MixtureSlave.removeValue, hg, Res.ok_bind] at h
  obtain ⟨_, _, h⟩ := Res.bind_eq_ok.mp h
  obtain ⟨_, _, h⟩ := Res.bind_eq_ok.mp h
  simp only [Res.pure_eq, Res.ok.injEq] at h
  rw [← h]

theorem removeGroup_groups {S G V F : Type} {lvl : Nat}
    {vs : ValueScorerOps S G V F} {m m' : MixtureSlave S G} {p : Nat} {gs : List G}
    (h : m.removeGroup lvl vs p = .ok m')
    (hg : SlaveGroups.removeGroup lvl m.groups p = .ok gs) : m'.groups = gs := by
  rw [MixtureSlave.removeGroup, hg, Res.ok_bind] at h
  obtain ⟨_, _, h⟩ := Res.bind_eq_ok.mp h
  simp only [Res.pure_eq, Res.ok.injEq] at h
  rw [← h]

theorem cards_set {Ms : List (Multiset {v // v ∈ K})} {p : Nat} (hp : p < Ms.length)
    (M' : Multiset {v // v ∈ K}) : ((Ms.set p M').map Multiset.card).sum + (Ms[p]).card =
      (Ms.map Multiset.card).sum + M'.card := by
  induction Ms generalizing p with
  | nil => simp at hp
  | cons M Ms ih =>
    cases p with
    | zero => simp; omega
    | succ p =>
      have hp' : p < Ms.length := by simpa using hp
      have := ih hp'
      simp only [List.set_cons_succ, List.map_cons, List.sum_cons, List.getElem_cons_succ]
      omega

theorem lawsIn (lvl : Nat) {sh : Shared F} (hK : K ⊆ sh.betas.keys) (ho : other ∉ sh.betas.keys)
    (hz : ∀ b, sh.alpha * b + ofInt 0 = sh.alpha * b) :
    MixtureSlave.Laws lvl (opsIn lvl sh K) (scorerIn lvl sh K)
      (fun g (M : Multiset {v // v ∈ K}) => g = grpIn M ∧ M.card ≤ 2147483647) (CohIn sh K) where
  init := by
    rintro ⟨gs, c⟩ ⟨Ms, hgs, hc, hm⟩
    simp only at hgs hm
    subst hgs
    obtain ⟨c', h1, h2, -⟩ := init_mirror lvl (known_of_in hK Ms) c
    rw [← map_grpIn] at h1
    exact ⟨_, h1, rfl, Ms, rfl, hc, h2⟩
  addGroup := by
    rintro ⟨gs, c⟩ ⟨Ms, hgs, hc, hm⟩
    simp only at hgs hm
    subst hgs
    obtain ⟨c', h1, h2, -⟩ := addGroup_mirror lvl hm
    rw [← map_grpIn] at h1
    have e : (Ms.map (Multiset.map Subtype.val) ++ [0]) =
        (Ms ++ [0]).map (Multiset.map Subtype.val) := by simp
    rw [e] at h1 h2
    rw [← map_grpIn] at h1
    refine ⟨_, h1, ?_, Ms ++ [0], rfl, by simpa using hc, h2⟩
    have h0 : (SparseCounter.raw.clear : Group) = ctr 0 := eq_ctr (SparseCounter.holds_clear _)
    simp [SlaveGroups.addGroup, packedAdd, opsIn, h0, grpIn]
  removeGroup := by
    rintro ⟨gs, c⟩ p gs' ⟨Ms, hgs, hc, hm⟩ hp hrm
    simp only at hgs hm hp hrm
    subst hgs
    have h0 : (SparseCounter.raw.clear : Group) = grpIn (K := K) 0 :=
      eq_ctr (SparseCounter.holds_clear _)
    have hp0 : Ms[p]? = some 0 := by
      rw [List.getElem?_map] at hp
      cases hx : Ms[p]? with
      | none => simp [hx] at hp
      | some M =>
        rw [hx, Option.map_some, Option.some.injEq, opsIn, h0] at hp
        rw [grpIn_inj hp]
    obtain ⟨c', h1, h2, -⟩ := removeGroup_mirror lvl hm (i := p) (by simp [hp0])
    rw [← map_grpIn] at h1
    have hlt : p < Ms.length := (List.getElem?_eq_some_iff.mp hp0).1
    have e : swapRemove (Ms.map (Multiset.map Subtype.val)) p =
        (swapRemove Ms p).map (Multiset.map Subtype.val) := by
      unfold swapRemove
      by_cases h : Ms = []
      · simp [h]
      · simp [h, List.map_dropLast, List.map_set]
    rw [e] at h1 h2
    rw [← map_grpIn] at h1
    have h1' : (⟨Ms.map grpIn, c⟩ : MixtureSlave _ _).removeGroup lvl (scorerIn lvl sh K) p =
      .ok ⟨(swapRemove Ms p).map grpIn, c'⟩ := h1
    refine ⟨_, h1', removeGroup_groups h1' hrm, swapRemove Ms p, rfl, ?_, h2⟩
    have := ((Driver.perm_swapRemove hp0).map Multiset.card).sum_eq
    rw [List.map_cons, List.sum_cons, Multiset.card_zero, zero_add] at this
    rw [← this] at hc
    exact hc
  add := by
    rintro ⟨gs, c⟩ p v gs' ⟨Ms, hgs, hc, hm⟩ hadd ⟨Ms', hpw, hlt⟩
    simp only at hgs hm hadd hpw
    subst hgs
    have := map_grpIn_inj (pw_grpIn hpw)
    subst this
    have hp : p < Ms.length := by
      unfold SlaveGroups.addValue at hadd
      obtain ⟨g, hg, -⟩ := Res.bind_eq_ok.mp hadd
      unfold SlaveGroups.groupAt at hg
      obtain ⟨_, _, hg⟩ := Res.bind_eq_ok.mp hg
      rw [getAt_eq_ok] at hg
      simpa using (List.getElem?_eq_some_iff.mp hg).1
    obtain ⟨c', h1, h2, -⟩ := addValue_mirror lvl hz hm (i := p)
      (M := Ms[p].map Subtype.val) (by simp [hp]) (hK v.2) (fun h => ho (h ▸ hK v.2))
      (by rw [card_map_sum]; exact hlt)
    rw [← map_grpIn] at h1
    have e : (Ms.map (Multiset.map Subtype.val)).set p (v.val ::ₘ Ms[p].map Subtype.val) =
        (Ms.set p (v ::ₘ Ms[p])).map (Multiset.map Subtype.val) := by simp [List.map_set]
    rw [e] at h1 h2
    rw [← map_grpIn] at h1
    have h1' : (⟨Ms.map grpIn, c⟩ : MixtureSlave _ _).addValue lvl (opsIn lvl sh K)
      (scorerIn lvl sh K) p v = .ok ⟨(Ms.set p (v ::ₘ Ms[p])).map grpIn, c'⟩ := h1
    refine ⟨_, h1', addValue_groups h1' hadd, _, rfl, ?_, h2⟩
    have := cards_set hp (v ::ₘ Ms[p])
    rw [Multiset.card_cons] at this
    omega
  remove := by
    rintro ⟨gs, c⟩ p v gs' ⟨Ms, hgs, hc, hm⟩ hrm ⟨g, M, hg, ⟨rfl, hM⟩, hv⟩
    simp only at hgs hm hrm hg
    subst hgs
    have hpM : Ms[p]? = some M := by
      rw [List.getElem?_map] at hg
      cases hx : Ms[p]? with
      | none => simp [hx] at hg
      | some N =>
        rw [hx, Option.map_some, Option.some.injEq] at hg
        rw [grpIn_inj hg]
    obtain ⟨hp, hM'⟩ := List.getElem?_eq_some_iff.mp hpM
    obtain ⟨c', h1, h2, -⟩ := removeValue_mirror lvl hm (i := p)
      (M := M.map Subtype.val) (by simp [hpM]) (Multiset.mem_map_of_mem _ hv) (hK v.2)
      (fun h => ho (h ▸ hK v.2)) (by rw [card_map_sum]; exact hc)
    rw [← map_grpIn] at h1
    have e : (Ms.map (Multiset.map Subtype.val)).set p ((M.map Subtype.val).erase v.val) =
        (Ms.set p (M.erase v)).map (Multiset.map Subtype.val) := by
      rw [List.map_set, Multiset.map_erase_of_mem _ _ hv]
    rw [e] at h1 h2
    rw [← map_grpIn] at h1
    have h1' : (⟨Ms.map grpIn, c⟩ : MixtureSlave _ _).removeValue lvl (opsIn lvl sh K)
      (scorerIn lvl sh K) p v = .ok ⟨(Ms.set p (M.erase v)).map grpIn, c'⟩ := h1
    refine ⟨_, h1', removeValue_groups h1' hrm, _, rfl, ?_, h2⟩
    have := cards_set hp (M.erase v)
    rw [hM', Multiset.card_erase_of_mem hv, Nat.pred_eq_sub_one] at this
    have := Multiset.card_pos_iff_exists_mem.mpr ⟨v, hv⟩
    omega

theorem freshIn (sh : Shared F) : CohIn sh K Cache.raw [] :=
  ⟨[], rfl, by simp, ⟨rfl, fun v e he => by simp [Cache.raw, FMap.empty] at he, fun v _ => by simp⟩⟩

/-- The cached scores of the groups. -/
theorem scoresIn (lvl : Nat) {sh : Shared F} (hK : K ⊆ sh.betas.keys) (ho : other ∉ sh.betas.keys)
    (hz : ∀ b, sh.alpha * b + ofInt 0 = sh.alpha * b) {m : MixtureSlave (Cache F) Group}
    (hm : CohIn sh K m.scorer m.groups) (v : {v // v ∈ K}) {b : F}
    (hb : sh.betas.lookup v.val = some b) :
    ScoresLike lvl (scorerIn lvl sh K) m v (fun g =>
      log (sh.alpha * b + ofInt (SparseCounter.getCount g v.val)) -
        log (sh.alpha + ofInt (g.total.getD 0))) := by
  obtain ⟨gs, c⟩ := m
  obtain ⟨Ms, hgs, -, hm⟩ := hm
  simp only at hgs hm
  subst hgs
  have := mirror_scores lvl ho hz hm (v := v.val) (b := b)
    (by
      have hne : v.val ≠ other := fun h => ho (h ▸ hK v.2)
      rw [if_neg hne]; exact hb)
  rw [← map_grpIn] at this
  exact this

end Dist.DPD
