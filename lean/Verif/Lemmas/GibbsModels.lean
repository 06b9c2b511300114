import Verif.Lemmas.GibbsState
import Verif.Lemmas.Caches
import Verif.Lemmas.DDCache
import Verif.Lemmas.DPDLaws
import Verif.Props.BB
import Verif.Props.BNB
import Verif.Props.DD
import Verif.Props.DPD
import Verif.Props.GP
import Verif.Props.NICH

/-! # The features of the library in the inference loops -/

namespace Dist

open Spec FloatOps FloatNotation Finset

variable {ι R S G V : Type}

theorem sound_of [DecidableEq V] {lvl : Nat} {f : FeatureModel R S G V XR} {grp : Multiset V → G}
    {Coh : S → List G → Prop} {all : Multiset V} (hall : all.card ≤ 2147483647)
    (hS : Summarises f.ops (fun g M => g = grp M ∧ M.card ≤ 2147483647))
    (fresh : Coh f.fresh []) 
    (cache : MixtureSlave.Laws lvl f.ops f.vs (fun g M => g = grp M ∧ M.card ≤ 2147483647) Coh)
    (data : G → XR)
    (hdata : ∀ M, M ≤ all → f.scoreData (grp M) = .ok (data (grp M))) (hfin : ∀ M, M ≤ all → ∃ x, data (grp M) = .fin x)
    (h0 : data f.ops.init = .fin 0) (sc : G → V → XR)
    (hstep : ∀ M v g', v ::ₘ M ≤ all → f.ops.add (grp M) v = .ok g' →
      data g' = data (grp M) + sc (grp M) v)
    (hsc : ∀ (sl : MixtureSlave S G) v, Coh sl.scorer sl.groups →
      ScoresLike lvl f.vs sl v fun g => sc g v) :
    Sound lvl f (fun g M => g = grp M ∧ M.card ≤ 2147483647) Coh
      (fun M => value (.ok (data (grp M)))) all := by
  have hval : ∀ M, M ≤ all → data (grp M) = .fin (value (.ok (data (grp M)))) := by
    intro M hM
    obtain ⟨x, hx⟩ := hfin M hM
    rw [hx]; rfl
  refine ⟨hS, ?_, fresh, cache, ?_, ?_, ?_⟩
  · rintro g ⟨rfl, _⟩
    exact hS.init.1.symm
  · rintro g M ⟨rfl, _⟩ hM
    rw [hdata M hM, ← hval M hM]
  · have := hS.init.1
    rw [← this, h0]; rfl
  · intro sl v accum Ms hC hlen hpw hM
    rw [(hsc sl v hC).2 accum hlen, Res.ok.injEq]
    apply List.ext_getElem
    · simp [hpw.len]
    · intro p h1 h2
      rw [List.getElem_zipWith, List.getElem_zipWith]
      have hp1 : p < sl.groups.length := by simp at h1; omega
      have hp2 : p < Ms.length := by simp at h2; omega
      obtain ⟨hg, hcard⟩ := hpw.rel p sl.groups[p] Ms[p] (List.getElem?_eq_getElem hp1)
        (List.getElem?_eq_getElem hp2)
      have hle := hM Ms[p] (List.getElem_mem hp2)
      have hle' : Ms[p] ≤ all := (Multiset.le_cons_self _ _).trans hle
      have hlt : Ms[p].card < 2147483647 := by
        have := Multiset.card_le_card hle
        rw [Multiset.card_cons] at this
        omega
      obtain ⟨g', hadd, hg', _⟩ := hS.add _ Ms[p] v ⟨rfl, hcard⟩ hlt
      have hs := hstep Ms[p] v g' hle hadd
      rw [hg', hval _ hle, hval _ hle'] at hs
      show accum[p] + sc sl.groups[p] v = _
      rw [hg]
      congr 1
      generalize hx : sc (grp Ms[p]) v = x at hs
      cases x with
      | fin x =>
        simp only [XR.fin_add, XR.fin_inj] at hs
        rw [hs]
        simp
      | nan => simp at hs

/-- Features of one model with different hyperparameters. -/
theorem sound_family [DecidableEq V] {α : Type} {lvl : Nat} {feat : α → FeatureModel R S G V XR}
    {l : List α} {Sm : G → Multiset V → Prop} {all : FeatureModel R S G V XR → Multiset V}
    (h : ∀ x ∈ l, ∃ C d, Sound lvl (feat x) Sm C d (all (feat x))) :
    ∃ (Coh : FeatureModel R S G V XR → S → List G → Prop)
      (dat : FeatureModel R S G V XR → Multiset V → ℝ),
      ∀ f ∈ l.map feat, Sound lvl f Sm (Coh f) (dat f) (all f) := by
  have : ∀ f : FeatureModel R S G V XR, ∃ (C : S → List G → Prop) (d : Multiset V → ℝ),
      f ∈ l.map feat → Sound lvl f Sm C d (all f) := by
    intro f
    by_cases hf : f ∈ l.map feat
    · obtain ⟨x, hx, rfl⟩ := List.mem_map.mp hf
      obtain ⟨C, d, h⟩ := h x hx
      exact ⟨C, d, fun _ => h⟩
    · exact ⟨fun _ _ => True, fun _ => 0, fun h => absurd h hf⟩
  choose C d h using this
  exact ⟨C, d, h⟩

theorem bb_sound {lvl : Nat} {x : ℝ × ℝ × (R → Bool)} (h1 : 0 < x.1) (h2 : 0 < x.2.1)
    {all : Multiset Bool} (hall : all.card ≤ 2147483647) :
    ∃ C d, Sound lvl (bbFeature lvl x)
      (fun g M => g = ⟨M.count true, M.count false⟩ ∧ M.card ≤ 2147483647) C d all := by
  refine ⟨_, _, sound_of hall (f := bbFeature lvl x)
    (grp := fun M => ⟨M.count true, M.count false⟩)
    BB.summarises (Coh := BB.Mirrors (BB.real x.1 x.2.1)) ⟨rfl, rfl⟩ (MixtureSlave.laws_of (BB.laws lvl _) _)
    (fun g => g.scoreData (BB.real x.1 x.2.1)) (fun _ _ => rfl) ?_ (C28_bb_empty _ _ h1 h2)
    (fun g v => g.scoreValue (BB.real x.1 x.2.1) v) ?_ (fun sl v h => BB.mirrors_scores lvl _ sl h v)⟩
  · intro M _
    exact ⟨_, BB.scoreData_eq h1 h2 _ (by simp; positivity) (by simp; positivity)⟩
  · intro M v g' _ hg
    exact C28_bb_step _ _ h1 h2 _ g' (by simp; positivity) (by simp; positivity) v hg

theorem gp_sound {lvl : Nat} {x : ℝ × ℝ × (R → UInt32)} (h1 : 0 < x.1) (h2 : 0 < x.2.1)
    {all : Multiset UInt32} (hall : all.card ≤ 2147483647) (hsum : totalValue all < 4294967296) :
    ∃ C d, Sound lvl (gpFeature lvl x)
      (fun g M => g = ⟨UInt32.ofNat M.card, UInt32.ofNat (totalValue M), .fin (totalLogFact M)⟩ ∧
        M.card ≤ 2147483647) C d all := by
  refine ⟨_, _, sound_of hall (f := gpFeature lvl x)
    (grp := fun M => ⟨UInt32.ofNat M.card, UInt32.ofNat (totalValue M), .fin (totalLogFact M)⟩)
    GP.summarises (Coh := GP.Mirrors (GP.real x.1 x.2.1)) ⟨rfl, rfl, rfl⟩ (MixtureSlave.laws_of (GP.laws lvl _) _)
    (fun g => g.scoreData (GP.real x.1 x.2.1)) (fun _ _ => rfl) ?_ (C28_gp_empty _ _ h1 h2)
    (fun g v => g.scoreValue (GP.real x.1 x.2.1) v) ?_ (fun sl v h => GP.mirrors_scores lvl _ sl h v)⟩
  · intro M _
    exact ⟨_, GP.scoreData_eq h1 h2 _ _ _⟩
  · intro M v g' hle hg
    have ht := totalValue_le hle
    have hc := Multiset.card_le_card hle
    rw [totalValue_cons] at ht
    rw [Multiset.card_cons] at hc
    simp only [gpFeature, GP.ops, Res.ok.injEq] at hg
    subst hg
    refine C28_gp_step _ _ h1 h2 _ _ _ v ?_ ?_
    · rw [UInt32.toNat_ofNat', Nat.mod_eq_of_lt (by omega)]; omega
    · rw [UInt32.toNat_ofNat', Nat.mod_eq_of_lt (by omega)]; omega

theorem bnb_sound {lvl : Nat} {x : ℝ × ℝ × UInt32 × (R → UInt32)} (h1 : 0 < x.1) (h2 : 0 < x.2.1)
    {all : Multiset UInt32} (hall : all.card ≤ 2147483647) (hsum : totalValue all < 4294967296) :
    ∃ C d, Sound lvl (bnbFeature lvl x)
      (fun g M => g = ⟨UInt32.ofNat M.card, UInt32.ofNat (totalValue M)⟩ ∧
        M.card ≤ 2147483647) C d all := by
  have hcomm : ∀ a b : XR, a + b = b + a := by
    intro a b
    cases a <;> cases b <;> simp [add_comm]
  refine ⟨_, _, sound_of hall (f := bnbFeature lvl x)
    (grp := fun M => ⟨UInt32.ofNat M.card, UInt32.ofNat (totalValue M)⟩)
    BNB.summarises (Coh := BNB.Mirrors (BNB.real x.1 x.2.1 x.2.2.1)) ⟨rfl, rfl, rfl⟩
    (MixtureSlave.laws_of (BNB.laws lvl _) _)
    (fun g => g.scoreData (BNB.real x.1 x.2.1 x.2.2.1)) (fun _ _ => rfl) ?_
    (C28_bnb_empty _ _ h1 h2 _)
    (fun g v => (BNB.Scorer.init (BNB.real x.1 x.2.1 x.2.2.1) g).eval v) ?_
    (fun sl v h => BNB.mirrors_scores hcomm lvl _ sl h v)⟩
  · intro M _
    exact ⟨_, BNB.scoreData_eq h1 h2 _ _ _⟩
  · intro M v g' hle hg
    have ht := totalValue_le hle
    have hc := Multiset.card_le_card hle
    rw [totalValue_cons] at ht
    rw [Multiset.card_cons] at hc
    simp only [bnbFeature, BNB.ops, Res.ok.injEq] at hg
    subst hg
    rw [C34_bnb _ _ h1 h2]
    refine C28_bnb_step _ _ h1 h2 _ _ v ?_ ?_
    · rw [UInt32.toNat_ofNat', Nat.mod_eq_of_lt (by omega)]; omega
    · rw [UInt32.toNat_ofNat', Nat.mod_eq_of_lt (by omega)]; omega

theorem nich_sound {lvl : Nat} {x : ℝ × ℝ × ℝ × ℝ × (R → ℝ)} (h1 : 0 < x.2.1) (h2 : 0 < x.2.2.1)
    (h3 : 0 < x.2.2.2.1) {all : Multiset ℝ} (hall : all.card ≤ 2147483647) :
    ∃ C d, Sound lvl (nichFeature lvl x)
      (fun g M => g = NICH.stats M ∧ M.card ≤ 2147483647) C d all := by
  have L := NICH.laws lvl (NICH.real x.1 x.2.1 x.2.2.1 x.2.2.2.1)
  refine ⟨_, _, sound_of hall (f := nichFeature lvl x) (grp := NICH.stats)
    NICH.summarises (Coh := NICH.Mirrors (NICH.real x.1 x.2.1 x.2.2.1 x.2.2.2.1))
    ⟨rfl, rfl, rfl, rfl⟩
    (MixtureSlave.laws_of (ops := (nichFeature lvl x).ops) (vs := (nichFeature lvl x).vs)
      ⟨L.valid, L.init, L.addGroup, L.removeGroup, fun s gs i g v g' => L.add s gs i g (.fin v) g',
      fun s gs i g v g' => L.remove s gs i g (.fin v) g'⟩ _)
    (fun g => g.scoreData (NICH.real x.1 x.2.1 x.2.2.1 x.2.2.2.1)) (fun _ _ => rfl) ?_
    (C28_nich_empty _ _ _ _ h1 h2 h3)
    (fun g v => g.scoreValue (NICH.real x.1 x.2.1 x.2.2.1 x.2.2.2.1) (.fin v)) ?_
    (fun sl v h => NICH.mirrors_scores lvl _ sl h (.fin v))⟩
  · intro M _
    rw [NICH.stats_eq]
    exact ⟨_, NICH.scoreData_eq h1 h2 h3 _ (by omega) _ _ (NICH.sqDev_nonneg M)⟩
  · intro M v g' hle hg
    have hc := Multiset.card_le_card hle
    rw [Multiset.card_cons] at hc
    rw [NICH.stats_eq] at hg ⊢
    obtain ⟨g'', e, h⟩ := C28_nich_step x.1 _ _ _ h1 h2 h3 M.card (by omega) (by omega)
      (meanOf M) (sqDev M) v (NICH.sqDev_nonneg M)
    have := hg.symm.trans e
    simp only [Res.ok.injEq] at this
    subst this
    exact h

theorem dd_sound {lvl dim : Nat} (hd : 0 < dim) {x : (Fin dim → ℝ) × (R → Fin dim)}
    (hx : ∀ i, 0 < x.1 i) {all : Multiset (Fin dim)} (hall : all.card ≤ 2147483647) :
    ∃ C d, Sound lvl (ddFeature lvl x)
      (fun g M => g = DD.mk M.card (fun v => (M.count v : Int)) ∧ M.card ≤ 2147483647) C d all := by
  have L := DD.laws lvl (DD.real x.1)
  rw [show (DD.real x.1).alphas.length = dim by simp [DD.real]] at L
  have hsum : ∀ M : Multiset (Fin dim), (M.card : Int) = ∑ v, (M.count v : Int) := fun M => by
    rw [← DD.card_eq_sum M]; push_cast; rfl
  have hpos : ∀ (M : Multiset (Fin dim)) i, 0 < x.1 i + ((M.count i : Int) : ℝ) := fun M i => by
    have := hx i
    positivity
  have h0 : 0 < ∑ i, x.1 i := Finset.sum_pos (fun i _ => hx i) ⟨⟨0, hd⟩, Finset.mem_univ _⟩
  have hasum : DD.asum (DD.real x.1) = .fin (∑ i, x.1 i) := by
    unfold DD.asum DD.real
    rw [XR.ofInt_eq, Int.cast_zero, DD.foldl_fin, zero_add]
  have hdata : ∀ M : Multiset (Fin dim), ∃ r : ℝ,
      (DD.mk M.card (fun v => (M.count v : Int))).scoreData (DD.real x.1) = .ok (.fin r) := fun M =>
    ⟨_, DD.scoreData_eq x.1 hx _ _ (hpos M) h0 (by positivity)⟩
  have hval : ∀ M : Multiset (Fin dim),
      (DD.mk M.card (fun v => (M.count v : Int))).scoreData (DD.real x.1) =
      .ok (.fin (value ((DD.mk M.card (fun v => (M.count v : Int))).scoreData (DD.real x.1)))) := by
    intro M
    obtain ⟨r, h⟩ := hdata M
    rw [h]; rfl
  refine ⟨_, _, sound_of hall (f := ddFeature lvl x)
    (grp := fun M => DD.mk M.card (fun v => (M.count v : Int)))
    (DD.summarises lvl dim) (Coh := DD.Mirrors (DD.real x.1))
    ⟨by rw [hasum]; rfl, rfl, by simp [ddFeature, DD.real], ?_, by simp⟩
    (MixtureSlave.laws_of (ops := (ddFeature lvl x).ops) (vs := (ddFeature lvl x).vs)
      ⟨L.valid, L.init, L.addGroup, L.removeGroup, fun s gs i g v g' => L.add s gs i g (v.val : Nat) g',
      fun s gs i g v g' => L.remove s gs i g (v.val : Nat) g'⟩ _)
    (fun g => .fin (value (g.scoreData (DD.real x.1)))) (fun M _ => hval M)
    (fun M _ => ⟨_, rfl⟩) ?_
    (fun g v => log (.fin (x.1 v) + ofInt (g.counts.getD v 0)) -
      log (DD.asum (DD.real x.1) + ofInt g.countSum)) ?_
    (fun sl v h => ?_)⟩
  · intro v a ha
    have hv := (List.getElem?_eq_some_iff.mp ha).1
    have hv' : v < dim := by simpa [DD.real] using hv
    simp [ddFeature, hv']
  · show XR.fin (value ((DD.Group.init dim).scoreData (DD.real x.1))) = _
    rw [C28_dd_empty dim hd x.1 hx]; rfl
  · intro M v g' hle hg
    have hg0 : (⟨∑ i, (M.count i : Int), List.ofFn fun i => (M.count i : Int)⟩ : DD.Group) =
        DD.mk M.card (fun v => (M.count v : Int)) := by rw [DD.mk, hsum]
    obtain ⟨d, s, d', e1, e2, e3, e4⟩ := C28_dd_step lvl dim x.1 hx (fun i => (M.count i : Int))
      (hpos M) v g' (by rw [hg0]; exact hg)
    rw [hg0] at e1 e2
    rw [DD.scoreValue_eq lvl x.1 _ _ (hpos M) v, Res.ok.injEq] at e2
    obtain ⟨r, hr⟩ := hdata M
    rw [hr, Res.ok.injEq] at e1
    have hT : 0 < ∑ i, x.1 i + ((M.card : Int) : ℝ) := by positivity
    have hT' : ∑ i, (x.1 i + ((M.count i : Int) : ℝ)) = ∑ i, x.1 i + ((M.card : Int) : ℝ) := by
      rw [Finset.sum_add_distrib, hsum]; push_cast; rfl
    subst e1 e2
    rw [e4, XR.fin_add] at e3
    simp only [e3, hr, value]
    simp only [hasum, DD.mk, XR.ofInt_eq, XR.fin_add]
    have hget : (List.ofFn fun v => (M.count v : Int)).getD v.val 0 = (M.count v : Int) := by
      simp [List.getD_eq_getElem?_getD]
    rw [hget, XR.log_fin (hpos M v), XR.log_fin hT, hT', Real.log_div (hpos M v).ne' hT.ne']
    simp
  · have := DD.mirrors_scores lvl (DD.real x.1) sl h v.val (.fin (x.1 v)) (by simp [DD.real])
    exact this

theorem dpd_sound {lvl : Nat} {K : Finset UInt32}
    {x : DPD.Shared ℝ × (DPD.Group → List UInt32) × (R → {v // v ∈ K})} (hα : 0 < x.1.alpha)
    (hb : ∀ v b, x.1.betas.lookup v = some b → 0 < b) (hK : K ⊆ x.1.betas.keys)
    (ho : DPD.other ∉ x.1.betas.keys) (hord : ∀ g : DPD.Group, g.map.Enum (x.2.1 g))
    {all : Multiset {v // v ∈ K}} (hall : all.card ≤ 2147483647) :
    ∃ C d, Sound lvl (dpdFeature lvl x)
      (fun g M => g = DPD.grpIn M ∧ M.card ≤ 2147483647) C d all := by
  let sh := DPD.real x.1.gamma x.1.alpha x.1.beta0 x.1.betas x.1.counts
  have hK' : K ⊆ sh.betas.keys := hK
  have ho' : DPD.other ∉ sh.betas.keys := ho
  have hz : ∀ b, sh.alpha * b + ofInt 0 = sh.alpha * b := by
    intro b
    show XR.fin x.1.alpha * b + ofInt 0 = XR.fin x.1.alpha * b
    cases b <;> simp [XR.ofInt_eq]
  have hpos : ∀ v ∈ x.1.betas.keys, 0 < DPD.weight x.1.betas v := by
    intro v hv
    obtain ⟨b, e⟩ := (x.1.betas.mem_keys_iff v).mp hv
    rw [DPD.weight, e]; exact hb v b e
  have hlook : ∀ v : {v // v ∈ K}, x.1.betas.lookup v.val = some (DPD.weight x.1.betas v.val) := by
    intro v
    obtain ⟨b, e⟩ := (x.1.betas.mem_keys_iff v.val).mp (hK v.2)
    rw [DPD.weight, e]; rfl
  have hin : ∀ (M : Multiset {v // v ∈ K}), ∀ v ∈ M.map Subtype.val, v ∈ x.1.betas.keys := by
    intro M v hv
    obtain ⟨w, _, rfl⟩ := Multiset.mem_map.mp hv
    exact hK w.2
  have hdata : ∀ M : Multiset {v // v ∈ K}, M.card ≤ 2147483647 → ∃ r : ℝ,
      DPD.Group.scoreData lvl sh (DPD.grpIn M) (x.2.1 (DPD.grpIn M)) = .ok (.fin r) := fun M hM =>
    ⟨_, DPD.scoreData_eq lvl hα hpos (DPD.ctr_holds (M.map Subtype.val)) (by simpa using hM) (hin M)
      (hord _)⟩
  refine ⟨_, _, sound_of hall (f := dpdFeature lvl x) (grp := DPD.grpIn)
    (DPD.summarisesIn lvl sh hK' ho') (Coh := DPD.CohIn sh K) (DPD.freshIn sh)
    (DPD.lawsIn lvl hK' ho' hz)
    (fun g => .fin (value (DPD.Group.scoreData lvl sh g (x.2.1 g)))) (fun M hM => ?_)
    (fun M _ => ⟨_, rfl⟩) ?_
    (fun g v => log (.fin x.1.alpha * .fin (DPD.weight x.1.betas v.val) +
        ofInt (SparseCounter.getCount g v.val)) -
      log (.fin x.1.alpha + ofInt (g.total.getD 0))) ?_
    (fun sl v h => ?_)⟩
  · obtain ⟨r, hr⟩ := hdata M ((Multiset.card_le_card hM).trans hall)
    show DPD.Group.scoreData lvl sh (DPD.grpIn M) (x.2.1 (DPD.grpIn M)) = _
    rw [hr]; rfl
  · have h0 : (dpdFeature lvl x).ops.init = DPD.grpIn (K := K) 0 :=
      DPD.eq_ctr (SparseCounter.holds_clear SparseCounter.raw)
    have e := DPD.scoreData_eq (gamma := x.1.gamma) (beta0 := x.1.beta0) (counts := x.1.counts) lvl
      hα hpos (DPD.ctr_holds 0) (by simp) (by simp) (hord (DPD.ctr 0))
    have e' : DPD.Group.scoreData lvl sh (dpdFeature lvl x).ops.init
        (x.2.1 (dpdFeature lvl x).ops.init) = .ok (.fin 0) := by
      rw [h0]
      refine e.trans ?_
      simp [DPD.term]
    show XR.fin (value (DPD.Group.scoreData lvl sh (dpdFeature lvl x).ops.init
        (x.2.1 (dpdFeature lvl x).ops.init))) = _
    rw [e']; rfl
  · intro M v g' hle hg
    have hc := Multiset.card_le_card hle
    rw [Multiset.card_cons] at hc
    have hM : (M.map Subtype.val).card < 2147483647 := by simp; omega
    have hne : v.val ≠ DPD.other := fun h => ho (h ▸ hK v.2)
    obtain ⟨d, s, d', e1, e2, e3, e4⟩ := C28_dpd_step (gamma := x.1.gamma) (beta0 := x.1.beta0)
      (counts := x.1.counts) lvl hα hpos (DPD.grpIn M) g' _ (DPD.ctr_holds (M.map Subtype.val)) hM
      (hin M) ⟨v.val, hne, by rw [FMap.contains_iff]; exact hK' v.2⟩ hg _ _ (hord _) (hord g')
    have hn : 0 < x.1.alpha * DPD.weight x.1.betas v.val + (((M.map Subtype.val).count v.val : Int) : ℝ) := by
      have := mul_pos hα (hpos v.val (hK v.2))
      push_cast; positivity
    have ht : 0 < x.1.alpha + (((M.map Subtype.val).card : Int) : ℝ) := by push_cast; positivity
    have e2 := (DPD.scoreValue_known lvl (hK v.2) hne ((DPD.ctr_holds _).getCount _)
      (DPD.ctr_holds _).getTotal hn ht).symm.trans e2
    rw [Res.ok.injEq, XR.fin_inj] at e2
    simp only [sh] at e1 e3 ⊢
    rw [e1, e3]
    have hcnt : SparseCounter.getCount (DPD.grpIn M) v.val = ((M.map Subtype.val).count v.val : Int) :=
      DPD.getCount_ctr _ _
    have htot : (DPD.grpIn M).total.getD 0 = ((M.map Subtype.val).card : Int) := rfl
    rw [hcnt, htot]
    simp only [value, XR.ofInt_eq, XR.fin_mul, XR.fin_add]
    rw [XR.log_fin hn, XR.log_fin ht, e4, ← e2, Real.log_div hn.ne' ht.ne']
    simp
  · exact DPD.scoresIn lvl hK' ho' hz h v
      (b := .fin (DPD.weight x.1.betas v.val)) (by
        show (x.1.betas.mapValues fun _ b => XR.fin b).lookup v.val = _
        simp [FMap.mapValues, hlook v])

variable [DecidableEq ι] [Fintype ι]

/-- Features of the library satisfy what the loops need. -/
theorem library_sound {lvl : Nat} {rows : ι → R} {fs : List (FeatureModel R S G V XR)}
    (h : LibraryFeatures lvl rows fs) (hcard : Fintype.card ι ≤ 2147483647) :
    ∃ (_ : DecidableEq V) (Sm : G → Multiset V → Prop)
      (Coh : FeatureModel R S G V XR → S → List G → Prop)
      (dat : FeatureModel R S G V XR → Multiset V → ℝ),
      ∀ f ∈ fs, Sound lvl f Sm (Coh f) (dat f)
        ((univ : Finset ι).val.map fun i => f.col (rows i)) := by
  have hc : ∀ {V : Type} (c : R → V),
      ((univ : Finset ι).val.map fun i => c (rows i)).card ≤ 2147483647 := by
    intro V c; rw [Multiset.card_map]; exact hcard
  have ht : ∀ (c : R → UInt32), ∑ i, (c (rows i)).toNat < 4294967296 →
      totalValue ((univ : Finset ι).val.map fun i => c (rows i)) < 4294967296 := by
    intro c h
    rw [totalValue, Multiset.map_map]; exact h
  cases h with
  | bb l h =>
    obtain ⟨C, d, hs⟩ := sound_family (lvl := lvl) (feat := bbFeature lvl) (l := l)
      (all := fun f => (univ : Finset ι).val.map fun i => f.col (rows i))
      fun x hx => bb_sound (lvl := lvl) (h x hx).1 (h x hx).2 (hc _)
    exact ⟨inferInstance, _, C, d, hs⟩
  | gp l h =>
    obtain ⟨C, d, hs⟩ := sound_family (lvl := lvl) (feat := gpFeature lvl) (l := l)
      (all := fun f => (univ : Finset ι).val.map fun i => f.col (rows i))
      fun x hx => gp_sound (lvl := lvl) (h x hx).1 (h x hx).2.1 (hc _) (ht _ (h x hx).2.2)
    exact ⟨inferInstance, _, C, d, hs⟩
  | bnb l h =>
    obtain ⟨C, d, hs⟩ := sound_family (lvl := lvl) (feat := bnbFeature lvl) (l := l)
      (all := fun f => (univ : Finset ι).val.map fun i => f.col (rows i))
      fun x hx => bnb_sound (lvl := lvl) (h x hx).1 (h x hx).2.1 (hc _) (ht _ (h x hx).2.2)
    exact ⟨inferInstance, _, C, d, hs⟩
  | nich l h =>
    obtain ⟨C, d, hs⟩ := sound_family (lvl := lvl) (feat := nichFeature lvl) (l := l)
      (all := fun f => (univ : Finset ι).val.map fun i => f.col (rows i))
      fun x hx => nich_sound (lvl := lvl) (h x hx).1 (h x hx).2.1 (h x hx).2.2 (hc _)
    exact ⟨inferInstance, _, C, d, hs⟩
  | dd l hd h =>
    obtain ⟨C, d, hs⟩ := sound_family (lvl := lvl) (feat := ddFeature lvl) (l := l)
      (all := fun f => (univ : Finset ι).val.map fun i => f.col (rows i))
      fun x hx => dd_sound (lvl := lvl) hd (h x hx) (hc _)
    exact ⟨inferInstance, _, C, d, hs⟩
  | dpd l h =>
    obtain ⟨C, d, hs⟩ := sound_family (lvl := lvl) (feat := dpdFeature lvl) (l := l)
      (all := fun f => (univ : Finset ι).val.map fun i => f.col (rows i))
      fun x hx => by
        obtain ⟨h1, h2, h3, h4, h5⟩ := h x hx
        exact dpd_sound (lvl := lvl) h1 h2 h3 h4 h5 (hc _)
    exact ⟨inferInstance, _, C, d, hs⟩

end Dist
