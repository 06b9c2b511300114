import Verif.Lemmas.SingleGibbsState
import Verif.Lemmas.SingleGibbsScores
import Verif.Lemmas.SingleDPD
import Verif.Lemmas.GibbsModels
import Verif.Spec.SingleGibbs

/-! # The features of the library in the inference loops in single precision -/

namespace Dist

open Spec FloatOps FloatNotation Finset

variable {ι R : Type} {lib : Libm}

/-- The score of a value in a group of single precision. -/
noncomputable def bbScore (lib : Libm) (x : ℝ × ℝ × (R → Bool)) (v : Bool) (M : Multiset Bool) : ℝ :=
  (BB.Group.scoreValue (⟨⟨x.1⟩, ⟨x.2.1⟩⟩ : BB.Shared (Single lib)) ⟨M.count true, M.count false⟩ v).val

/-- The scores of a feature are determined by its operations. -/
theorem bbSingle_scores {lvl : Nat} {x y : ℝ × ℝ × (R → Bool)}
    (h : bbSingle lib lvl x = bbSingle lib lvl y) (g : BB.Group) (v : Bool) :
    g.scoreValue (⟨⟨x.1⟩, ⟨x.2.1⟩⟩ : BB.Shared (Single lib)) v =
      g.scoreValue (⟨⟨y.1⟩, ⟨y.2.1⟩⟩ : BB.Shared (Single lib)) v := by
  have h1 := congrArg (fun f => f.vs.updateGroup ⟨[ofInt 0], [ofInt 0]⟩ 0 g) h
  simp only [bbSingle, BB.valueScorer, BB.updateGroup, setAt, List.length_cons, List.length_nil,
    Nat.zero_add, Nat.lt_one_iff, if_true, Res.ok_bind, List.set_cons_zero, Res.pure_eq,
    Res.ok.injEq, BB.Cache.mk.injEq, List.cons.injEq, and_true] at h1
  cases v
  · simpa [BB.Group.scoreValue, BB.Scorer.eval] using h1.2
  · simpa [BB.Group.scoreValue, BB.Scorer.eval] using h1.1

theorem bb_near {lvl : Nat} {x x0 : ℝ × ℝ × (R → Bool)} (ha1 : 1 / 2 ^ 40 ≤ x.1) (ha2 : x.1 ≤ 2 ^ 40)
    (hb1 : 1 / 2 ^ 40 ≤ x.2.1) (hb2 : x.2.1 ≤ 2 ^ 40)
    (h0 : bbSingle lib lvl x0 = bbSingle lib lvl x) {all : Multiset Bool}
    (hall : all.card ≤ 2147483647) {C : BB.Cache XR → List BB.Group → Prop} {dat : Multiset Bool → ℝ}
    (hs : Sound lvl (bbFeature lvl x)
      (fun g M => g = ⟨M.count true, M.count false⟩ ∧ M.card ≤ 2147483647) C dat all) :
    SNear lvl (bbSingle lib lvl x) (bbFeature lvl x)
      (fun g M => g = ⟨M.count true, M.count false⟩ ∧ M.card ≤ 2147483647)
      (BB.Mirrors (⟨⟨x0.1⟩, ⟨x0.2.1⟩⟩ : BB.Shared (Single lib))) (bbScore lib x0) 125 dat all := by
  have hsc : ∀ v M, bbScore lib x0 v M = bbScore lib x v M := by
    intro v M
    unfold bbScore
    rw [bbSingle_scores h0]
  rw [← h0]
  refine ⟨congrArg FeatureModel.col h0, rfl, ⟨rfl, rfl⟩, MixtureSlave.laws_of (BB.laws lvl _) _, ?_, ?_⟩
  · intro sl v accum Ms hC hlen hpw hM
    have h1 := (BB.mirrors_scores lvl _ sl hC v).2 accum hlen
    have h1' : sl.scoreValue lvl (bbSingle lib lvl x0).vs v accum = _ := h1
    rw [h1', Res.ok.injEq]
    apply List.ext_getElem
    · simp [hpw.len]
    · intro p h1 h2
      rw [List.getElem_zipWith, List.getElem_zipWith]
      have hp1 : p < sl.groups.length := by simp at h1; omega
      have hp2 : p < Ms.length := by simp at h2; omega
      obtain ⟨hg, -⟩ := hpw.rel p sl.groups[p] Ms[p] (List.getElem?_eq_getElem hp1)
        (List.getElem?_eq_getElem hp2)
      rw [hg]
      rfl
  · intro v M hle
    rw [hsc]
    have hle' : M ≤ all := (Multiset.le_cons_self _ _).trans hle
    have hcard := Multiset.card_le_card hle
    rw [Multiset.card_cons] at hcard
    have ha : 0 < x.1 := lt_of_lt_of_le (by positivity) ha1
    have hb : 0 < x.2.1 := lt_of_lt_of_le (by positivity) hb1
    have hct := Multiset.count_le_card true M
    have hcf := Multiset.count_le_card false M
    obtain ⟨g', hadd, hg', -⟩ := hs.summarises.add (⟨M.count true, M.count false⟩ : BB.Group) M v
      ⟨rfl, by omega⟩ (by omega)
    have hstep := C28_bb_step x.1 x.2.1 ha hb ⟨M.count true, M.count false⟩ g'
      (by simp; positivity) (by simp; positivity) v hadd
    have hd1 := hs.data _ (v ::ₘ M) ⟨rfl, by rw [Multiset.card_cons]; omega⟩ hle
    have hd2 := hs.data _ M ⟨rfl, by omega⟩ hle'
    rw [← hg'] at hd1
    simp only [bbFeature, Res.ok.injEq] at hd1 hd2
    have hd1' : g'.scoreData (BB.real x.1 x.2.1) = _ := hd1
    have hd2' : (⟨M.count true, M.count false⟩ : BB.Group).scoreData (BB.real x.1 x.2.1) = _ := hd2
    rw [hd1', hd2', BB.scoreValue_eq _ (by simp; positivity) (by simp; positivity), XR.fin_add,
      XR.fin_inj] at hstep
    have hexact : dat (v ::ₘ M) - dat M = Real.log ((if v then x.1 + (M.count true : ℕ) else
        x.2.1 + (M.count false : ℕ)) / ((x.1 + (M.count true : ℕ)) + (x.2.1 + (M.count false : ℕ)))) := by
      rw [hstep]; simp
    have hbb := Single.C75_bb (lib := lib) x.1 x.2.1 ⟨M.count true, M.count false⟩ ha1 ha2 hb1 hb2
      (by simp) (by simp; omega) (by simp) (by simp; omega)
    have hnear : |bbScore lib x v M - (dat (v ::ₘ M) - dat M)| ≤ 125 / 10 ^ 6 := by
      rw [hexact]
      cases v
      · simpa [bbScore] using hbb.2.1
      · simpa [bbScore] using hbb.1
    refine ⟨hnear, ?_⟩
    have hct' : ((M.count true : ℕ) : ℝ) ≤ 2 ^ 31 := by
      exact_mod_cast (by omega : M.count true ≤ 2 ^ 31)
    have hcf' : ((M.count false : ℕ) : ℝ) ≤ 2 ^ 31 := by
      exact_mod_cast (by omega : M.count false ≤ 2 ^ 31)
    have hct0 : (0 : ℝ) ≤ (M.count true : ℕ) := Nat.cast_nonneg _
    have hcf0 : (0 : ℝ) ≤ (M.count false : ℕ) := Nat.cast_nonneg _
    have p1 : (2 : ℝ) ^ 40 + 2 ^ 31 ≤ 2 ^ 41 := by norm_num
    have hlog : |dat (v ::ₘ M) - dat M| ≤ 82 * (7 / 10) := by
      rw [hexact]
      set num : ℝ := if v then x.1 + (M.count true : ℕ) else x.2.1 + (M.count false : ℕ) with hnum
      have hn1 : 1 / 2 ^ 40 ≤ num := by rw [hnum]; split_ifs <;> linarith
      have hn2 : num ≤ (x.1 + (M.count true : ℕ)) + (x.2.1 + (M.count false : ℕ)) := by
        rw [hnum]; split_ifs <;> linarith
      set den : ℝ := (x.1 + (M.count true : ℕ)) + (x.2.1 + (M.count false : ℕ)) with hden
      have hden2 : den ≤ 2 ^ 42 := by
        have : (2 : ℝ) ^ 41 + 2 ^ 41 = 2 ^ 42 := by norm_num
        rw [hden]; linarith
      have hdpos : 0 < den := by rw [hden]; positivity
      have := Single.abs_log_le (x := num / den) (k := 82) ?_ ?_
      · simpa using this
      · rw [le_div_iff₀ hdpos]
        calc 1 / 2 ^ 82 * den ≤ 1 / 2 ^ 82 * 2 ^ 42 := by gcongr
          _ ≤ 1 / 2 ^ 40 := by norm_num
          _ ≤ num := hn1
      · rw [div_le_iff₀ hdpos]
        calc num ≤ 1 * den := by linarith
          _ ≤ _ := by gcongr; norm_num
    rw [abs_le] at hnear hlog ⊢
    constructor <;> linarith [hnear.1, hnear.2, hlog.1, hlog.2]

/-- The features of a mixture of Beta-Bernoulli features. -/
theorem bb_single [DecidableEq ι] [Fintype ι] (lvl : Nat) {alpha d : ℝ} (ha1 : 1 / 2 ^ 40 ≤ alpha)
    (ha2 : alpha ≤ 2 ^ 40) (hd0 : d = 0 ∨ 1 / 2 ^ 40 ≤ d) (hd1 : d ≤ 1 - 1 / 2 ^ 24) (rows : ι → R)
    {l : List (ℝ × ℝ × (R → Bool))}
    (hl : ∀ x ∈ l, (1 / 2 ^ 40 ≤ x.1 ∧ x.1 ≤ 2 ^ 40) ∧ 1 / 2 ^ 40 ≤ x.2.1 ∧ x.2.1 ≤ 2 ^ 40)
    (hK : l.length ≤ 1000) (hcard : Fintype.card ι ≤ 2147483647) :
    ∃ Y : SCtx lib ι R (BB.Cache XR) (BB.Cache (Single lib)) BB.Group Bool, Y.Ok ∧
      Y.X.lvl = lvl ∧ Y.X.alpha = alpha ∧ Y.X.d = d ∧ Y.X.rows = rows ∧
      Y.X.feats = l.map (bbFeature lvl) ∧ Y.feats = l.map (bbSingle lib lvl) ∧ Y.err = 125 := by
  have hc : ∀ f : FeatureModel R (BB.Cache XR) BB.Group Bool XR,
      ((univ : Finset ι).val.map fun i => f.col (rows i)).card ≤ 2147483647 := by
    intro f
    rw [Multiset.card_map]
    exact hcard
  obtain ⟨C, dat, hs⟩ := sound_family (lvl := lvl) (feat := bbFeature lvl) (l := l)
      (all := fun f => (univ : Finset ι).val.map fun i => f.col (rows i))
      fun x hx => bb_sound (lvl := lvl) (lt_of_lt_of_le (by positivity) (hl x hx).1.1)
        (lt_of_lt_of_le (by positivity) (hl x hx).2.1) (hc _)
  have hchoose : ∀ f : FeatureModel R (BB.Cache (Single lib)) BB.Group Bool (Single lib),
      ∃ x0 : ℝ × ℝ × (R → Bool), (∃ x ∈ l, bbSingle lib lvl x = f) → bbSingle lib lvl x0 = f := by
    intro f
    by_cases h : ∃ x ∈ l, bbSingle lib lvl x = f
    · obtain ⟨x, -, hx⟩ := h
      exact ⟨x, fun _ => hx⟩
    · exact ⟨⟨0, 0, f.col⟩, fun h' => absurd h' h⟩
  choose x0 hx0 using hchoose
  have hd0' : 0 ≤ d := by
    rcases hd0 with h | h
    · rw [h]
    · exact le_trans (by positivity) h
  refine ⟨⟨⟨lvl, alpha, d, rows, l.map (bbFeature lvl), _, C, dat⟩, l.map (bbSingle lib lvl),
    fun f => BB.Mirrors (⟨⟨(x0 f).1⟩, ⟨(x0 f).2.1⟩⟩ : BB.Shared (Single lib)),
    fun f => bbScore lib (x0 f), 125⟩,
    ⟨⟨lt_of_lt_of_le (by positivity) ha1, hd0', lt_of_le_of_lt hd1 (by norm_num), hcard, hs⟩, ?_,
      ha1, ha2, hd0, hd1, by simpa using hK⟩, rfl, rfl, rfl, rfl, rfl, rfl, rfl⟩
  rw [List.forall₂_map_left_iff, List.forall₂_map_right_iff, List.forall₂_same]
  intro x hx
  obtain ⟨⟨a1, a2⟩, b1, b2⟩ := hl x hx
  exact bb_near a1 a2 b1 b2 (hx0 _ ⟨x, hx, rfl⟩) (hc (bbFeature lvl x))
    (hs (bbFeature lvl x) (List.mem_map.mpr ⟨x, hx, rfl⟩))

/-! ### Dirichlet-Discrete -/

/-- The hyperparameters in single precision. -/
def ddShared (lib : Libm) {dim : Nat} (a : Fin dim → ℝ) : DD.Shared (Single lib) :=
  ⟨List.ofFn fun i => ⟨a i⟩⟩

/-- The cached score of a value in a group of single precision. -/
noncomputable def ddScore (lib : Libm) {dim : Nat} (x : (Fin dim → ℝ) × (R → Fin dim)) (v : Fin dim)
    (M : Multiset (Fin dim)) : ℝ :=
  (log ((⟨x.1 v⟩ : Single lib) + ofInt (M.count v : Int)) -
    log (DD.asum (ddShared lib x.1) + ofInt (M.card : Int))).val

/-- The scores of a feature are determined by its operations. -/
theorem ddSingle_scores {lvl dim : Nat} {x y : (Fin dim → ℝ) × (R → Fin dim)}
    (h : ddSingle lib lvl x = ddSingle lib lvl y) (v : Fin dim) (M : Multiset (Fin dim)) :
    ddScore lib x v M = ddScore lib y v M := by
  have h1 := congrArg (fun f => f.vs.updateAll ⟨none, List.replicate dim [ofInt 0], [ofInt 0]⟩
    [DD.mk M.card (fun v => (M.count v : Int))]) h
  have key : ∀ z : (Fin dim → ℝ) × (R → Fin dim), ∃ c',
      (ddSingle lib lvl z).vs.updateAll ⟨none, List.replicate dim [ofInt 0], [ofInt 0]⟩
        [DD.mk M.card (fun v => (M.count v : Int))] = .ok c' ∧
      DD.Mirrors (ddShared lib z.1) c' [DD.mk M.card (fun v => (M.count v : Int))] := fun z =>
    DD.updateAll_mirrors (ddShared lib z.1) _ _ (by simp [ddShared])
      (by intro s hs; rw [List.eq_of_mem_replicate hs]; rfl) rfl
      (by intro g hg; rw [List.mem_singleton.mp hg]; simp [DD.mk, ddShared])
  obtain ⟨c, e, hc⟩ := key x
  obtain ⟨c', e', hc'⟩ := key y
  simp only [e, e', Res.ok.injEq] at h1
  subst h1
  have s1 := hc.shift.symm.trans hc'.shift
  have c1 := (hc.cols v ⟨x.1 v⟩ (by simp [ddShared])).symm.trans (hc'.cols v ⟨y.1 v⟩ (by simp [ddShared]))
  have hget : (List.ofFn fun v => (M.count v : Int)).getD v.val 0 = (M.count v : Int) := by
    simp [List.getD_eq_getElem?_getD]
  simp only [List.map_cons, List.map_nil, List.cons.injEq, and_true, Option.some.injEq, DD.entry,
    DD.mk] at s1 c1
  rw [hget] at c1
  rw [ddScore, ddScore, s1, c1]

theorem dd_near {lvl dim : Nat} (hd' : dim ≤ 256)
    {x x0 : (Fin dim → ℝ) × (R → Fin dim)} (hx : ∀ i, 1 / 2 ^ 40 ≤ x.1 i ∧ x.1 i ≤ 2 ^ 40)
    (h0 : ddSingle lib lvl x0 = ddSingle lib lvl x) {all : Multiset (Fin dim)}
    (hall : all.card ≤ 2147483647) {C : DD.Cache XR → List DD.Group → Prop}
    {dat : Multiset (Fin dim) → ℝ}
    (hs : Sound lvl (ddFeature lvl x)
      (fun g M => g = DD.mk M.card (fun v => (M.count v : Int)) ∧ M.card ≤ 2147483647) C dat all) :
    SNear lvl (ddSingle lib lvl x) (ddFeature lvl x)
      (fun g M => g = DD.mk M.card (fun v => (M.count v : Int)) ∧ M.card ≤ 2147483647)
      (DD.Mirrors (ddShared lib x0.1)) (ddScore lib x0) 315 dat all := by
  have hx0 : ∀ i, 0 < x.1 i := fun i => lt_of_lt_of_le (by positivity) (hx i).1
  have L := DD.laws lvl (ddShared lib x0.1)
  rw [show (ddShared lib x0.1).alphas.length = dim by simp [ddShared]] at L
  have hget : ∀ (M : Multiset (Fin dim)) (v : Fin dim),
      (List.ofFn fun v => (M.count v : Int)).getD v.val 0 = (M.count v : Int) := fun M v => by
    simp [List.getD_eq_getElem?_getD]
  have hsc : ∀ v M, ddScore lib x0 v M = ddScore lib x v M := ddSingle_scores h0
  rw [← h0]
  refine ⟨congrArg FeatureModel.col h0, rfl, ⟨rfl, rfl, by simp [ddSingle, ddShared], ?_, by simp⟩,
    MixtureSlave.laws_of (ops := (ddSingle lib lvl x0).ops) (vs := (ddSingle lib lvl x0).vs)
      ⟨L.valid, L.init, L.addGroup, L.removeGroup, fun s gs i g v g' => L.add s gs i g (v.val : Nat) g',
      fun s gs i g v g' => L.remove s gs i g (v.val : Nat) g'⟩ _, ?_, ?_⟩
  · intro v a ha
    have hv := (List.getElem?_eq_some_iff.mp ha).1
    have hv' : v < dim := by simpa [ddShared] using hv
    simp [ddSingle, hv']
  · intro sl v accum Ms hC hlen hpw hM
    have h1 := (DD.mirrors_scores lvl (ddShared lib x0.1) sl hC v.val ⟨x0.1 v⟩ (by simp [ddShared])).2
      accum hlen
    have h1' : sl.scoreValue lvl (ddSingle lib lvl x0).vs v accum = _ := h1
    rw [h1', Res.ok.injEq]
    apply List.ext_getElem
    · simp [hpw.len]
    · intro p h1 h2
      rw [List.getElem_zipWith, List.getElem_zipWith]
      have hp1 : p < sl.groups.length := by simp at h1; omega
      have hp2 : p < Ms.length := by simp at h2; omega
      obtain ⟨hg, -⟩ := hpw.rel p sl.groups[p] Ms[p] (List.getElem?_eq_getElem hp1)
        (List.getElem?_eq_getElem hp2)
      rw [hg]
      simp only [DD.mk]
      rw [hget]
      rfl
  · intro v M hle
    rw [hsc]
    have hle' : M ≤ all := (Multiset.le_cons_self _ _).trans hle
    have hcard := Multiset.card_le_card hle
    rw [Multiset.card_cons] at hcard
    have hct := Multiset.count_le_card v M
    have hd0 : 0 < ∑ i, x.1 i := Finset.sum_pos (fun i _ => hx0 i) ⟨v, Finset.mem_univ _⟩
    have hsum : (M.card : Int) = ∑ v, (M.count v : Int) := by
      rw [← DD.card_eq_sum M]; push_cast; rfl
    have hpos : ∀ i, 0 < x.1 i + ((M.count i : Int) : ℝ) := fun i => by
      have := hx0 i
      positivity
    have hg0 : (⟨∑ i, (M.count i : Int), List.ofFn fun i => (M.count i : Int)⟩ : DD.Group) =
        DD.mk M.card (fun v => (M.count v : Int)) := by rw [DD.mk, hsum]
    obtain ⟨g', hadd, hg', -⟩ := hs.summarises.add (DD.mk M.card (fun v => (M.count v : Int))) M v
      ⟨rfl, by omega⟩ (by omega)
    obtain ⟨d, s, d', e1, e2, e3, e4⟩ := C28_dd_step lvl dim x.1 hx0 (fun i => (M.count i : Int))
      hpos v g' (by rw [hg0]; exact hadd)
    rw [hg0] at e1 e2
    rw [DD.scoreValue_eq lvl x.1 _ _ hpos v, Res.ok.injEq] at e2
    have hd1 := hs.data _ (v ::ₘ M) ⟨rfl, by rw [Multiset.card_cons]; omega⟩ hle
    have hd2 := hs.data _ M ⟨rfl, by omega⟩ hle'
    rw [← hg'] at hd1
    have hd1' : g'.scoreData (DD.real x.1) = _ := hd1
    have hd2' : (DD.mk M.card (fun v => (M.count v : Int))).scoreData (DD.real x.1) = _ := hd2
    rw [hd1', Res.ok.injEq] at e3
    rw [hd2', Res.ok.injEq] at e1
    rw [← e3, ← e1, ← e2, XR.fin_add, XR.fin_inj] at e4
    have hT' : ∑ i, (x.1 i + ((M.count i : Int) : ℝ)) = ∑ i, x.1 i + ((M.card : Int) : ℝ) := by
      rw [Finset.sum_add_distrib, hsum]; push_cast; rfl
    have hexact : dat (v ::ₘ M) - dat M =
        Real.log ((x.1 v + ((M.count v : Int) : ℝ)) / (∑ i, x.1 i + ((M.card : Int) : ℝ))) := by
      rw [e4, hT']; ring
    rw [hexact]
    exact Single.dd_cell (lib := lib) hd' x.1 hx v (c := M.count v) (s := M.card) (by positivity)
      (by exact_mod_cast hct) (by omega)

/-- The features of a mixture of Dirichlet-Discrete features. -/
theorem dd_single [DecidableEq ι] [Fintype ι] (lvl : Nat) {alpha d : ℝ} (ha1 : 1 / 2 ^ 40 ≤ alpha)
    (ha2 : alpha ≤ 2 ^ 40) (hd0 : d = 0 ∨ 1 / 2 ^ 40 ≤ d) (hd1 : d ≤ 1 - 1 / 2 ^ 24) (rows : ι → R)
    {dim : Nat} (hd : 0 < dim) (hd' : dim ≤ 256) {l : List ((Fin dim → ℝ) × (R → Fin dim))}
    (hl : ∀ x ∈ l, ∀ i, 1 / 2 ^ 40 ≤ x.1 i ∧ x.1 i ≤ 2 ^ 40)
    (hK : l.length ≤ 1000) (hcard : Fintype.card ι ≤ 2147483647) :
    ∃ Y : SCtx lib ι R (DD.Cache XR) (DD.Cache (Single lib)) DD.Group (Fin dim), Y.Ok ∧
      Y.X.lvl = lvl ∧ Y.X.alpha = alpha ∧ Y.X.d = d ∧ Y.X.rows = rows ∧
      Y.X.feats = l.map (ddFeature lvl) ∧ Y.feats = l.map (ddSingle lib lvl) ∧ Y.err = 315 := by
  have hc : ∀ f : FeatureModel R (DD.Cache XR) DD.Group (Fin dim) XR,
      ((univ : Finset ι).val.map fun i => f.col (rows i)).card ≤ 2147483647 := by
    intro f
    rw [Multiset.card_map]
    exact hcard
  obtain ⟨C, dat, hs⟩ := sound_family (lvl := lvl) (feat := ddFeature lvl) (l := l)
      (all := fun f => (univ : Finset ι).val.map fun i => f.col (rows i))
      fun x hx => dd_sound (lvl := lvl) hd (fun i => lt_of_lt_of_le (by positivity) (hl x hx i).1) (hc _)
  have hchoose : ∀ f : FeatureModel R (DD.Cache (Single lib)) DD.Group (Fin dim) (Single lib),
      ∃ x0 : (Fin dim → ℝ) × (R → Fin dim),
        (∃ x ∈ l, ddSingle lib lvl x = f) → ddSingle lib lvl x0 = f := by
    intro f
    by_cases h : ∃ x ∈ l, ddSingle lib lvl x = f
    · obtain ⟨x, -, hx⟩ := h
      exact ⟨x, fun _ => hx⟩
    · exact ⟨⟨fun _ => 0, f.col⟩, fun h' => absurd h' h⟩
  choose x0 hx0 using hchoose
  have hd0' : 0 ≤ d := by
    rcases hd0 with h | h
    · rw [h]
    · exact le_trans (by positivity) h
  refine ⟨⟨⟨lvl, alpha, d, rows, l.map (ddFeature lvl), _, C, dat⟩, l.map (ddSingle lib lvl),
    fun f => DD.Mirrors (ddShared lib (x0 f).1), fun f => ddScore lib (x0 f), 315⟩,
    ⟨⟨lt_of_lt_of_le (by positivity) ha1, hd0', lt_of_le_of_lt hd1 (by norm_num), hcard, hs⟩, ?_,
      ha1, ha2, hd0, hd1, by simpa using hK⟩, rfl, rfl, rfl, rfl, rfl, rfl, rfl⟩
  rw [List.forall₂_map_left_iff, List.forall₂_map_right_iff, List.forall₂_same]
  intro x hx
  exact dd_near hd' (hl x hx) (hx0 _ ⟨x, hx, rfl⟩) (hc (ddFeature lvl x))
    (hs (ddFeature lvl x) (List.mem_map.mpr ⟨x, hx, rfl⟩))

/-! ### Dirichlet-Process-Discrete -/

/-- The shared state in single precision. -/
def dpdShared (lib : Libm) (x : DPD.Shared ℝ) : DPD.Shared (Single lib) :=
  ⟨⟨x.gamma⟩, ⟨x.alpha⟩, ⟨x.beta0⟩, x.betas.mapValues fun _ b => ⟨b⟩, x.counts⟩

theorem dpdShared_lookup {x : DPD.Shared ℝ} {v : UInt32} (hv : v ∈ x.betas.keys) :
    (dpdShared lib x).betas.lookup v = some ⟨DPD.weight x.betas v⟩ := by
  obtain ⟨b, e⟩ := (x.betas.mem_keys_iff v).mp hv
  simp [dpdShared, FMap.mapValues, DPD.weight, e]

/-- The cached score of a value in a group of single precision. -/
noncomputable def dpdScore (lib : Libm) {K : Finset UInt32}
    (x : DPD.Shared ℝ × (DPD.Group → List UInt32) × (R → {v // v ∈ K})) (v : {v // v ∈ K})
    (M : Multiset {v // v ∈ K}) : ℝ :=
  (log ((⟨x.1.alpha⟩ : Single lib) * ⟨DPD.weight x.1.betas v.val⟩ +
      ofInt ((M.map Subtype.val).count v.val : Int)) -
    log ((⟨x.1.alpha⟩ : Single lib) + ofInt ((M.map Subtype.val).card : Int))).val

/-- The scores of a feature are determined by its operations. -/
theorem dpdSingle_scores {lvl : Nat} {K : Finset UInt32}
    {x y : DPD.Shared ℝ × (DPD.Group → List UInt32) × (R → {v // v ∈ K})}
    (hx : K ⊆ x.1.betas.keys) (hox : DPD.other ∉ x.1.betas.keys)
    (hy : K ⊆ y.1.betas.keys) (hoy : DPD.other ∉ y.1.betas.keys)
    (h : dpdSingle lib lvl x = dpdSingle lib lvl y) (v : {v // v ∈ K})
    (M : Multiset {v // v ∈ K}) : dpdScore lib x v M = dpdScore lib y v M := by
  have key : ∀ z : DPD.Shared ℝ × (DPD.Group → List UInt32) × (R → {v // v ∈ K}),
      K ⊆ z.1.betas.keys → DPD.other ∉ z.1.betas.keys →
      ∃ c', (⟨[DPD.grpIn M], DPD.Cache.raw⟩ : MixtureSlave _ _).init (dpdSingle lib lvl z).vs =
          .ok ⟨[DPD.grpIn M], c'⟩ ∧
        (⟨[DPD.grpIn M], c'⟩ : MixtureSlave _ _).scoreValue lvl (dpdSingle lib lvl z).vs v
          [⟨0⟩] = .ok [(⟨0⟩ : Single lib) + ⟨dpdScore lib z v M⟩] := by
    intro z hz hoz
    obtain ⟨c', e, hm, -⟩ := DPD.init_mirror (F := Single lib) lvl (sh := dpdShared lib z.1)
      (Ms := [M.map Subtype.val])
      (by
        intro w hw
        simp only [List.sum_cons, List.sum_nil, add_zero, Multiset.mem_map] at hw
        obtain ⟨w', -, rfl⟩ := hw
        exact hz w'.2) DPD.Cache.raw
    refine ⟨c', e, ?_⟩
    have hs := (DPD.mirror_scores lvl (sh := dpdShared lib z.1) hoz
      (fun b => Single.add_zero_count _ b) hm (v := v.val)
      (b := ⟨DPD.weight z.1.betas v.val⟩) (by
        have hne : v.val ≠ DPD.other := fun h => hoz (h ▸ hz v.2)
        rw [if_neg hne]; exact dpdShared_lookup (hz v.2))).2 [⟨0⟩] rfl
    refine Eq.trans hs ?_
    simp only [List.map_cons, List.map_nil, List.zipWith_cons_cons, List.zipWith_nil_right,
      DPD.getCount_ctr]
    rfl
  obtain ⟨c, e1, e2⟩ := key x hx hox
  obtain ⟨c', e1', e2'⟩ := key y hy hoy
  rw [← h] at e1' e2'
  rw [e1] at e1'
  simp only [Res.ok.injEq, MixtureSlave.mk.injEq, true_and] at e1'
  subst e1'
  rw [e2] at e2'
  simp only [Res.ok.injEq, List.cons.injEq, and_true] at e2'
  have := congrArg Single.val e2'
  simp only [Single.val_add, zero_add] at this
  simp only [dpdScore, Single.val_sub, nearest.idem] at this ⊢
  exact this

theorem dpd_ops (lvl : Nat) {K : Finset UInt32}
    (x : DPD.Shared ℝ × (DPD.Group → List UInt32) × (R → {v // v ∈ K})) :
    (dpdSingle lib lvl x).ops = (dpdFeature lvl x).ops := by
  have h : ∀ v, (x.1.betas.mapValues fun _ b => (⟨b⟩ : Single lib)).contains v =
      (x.1.betas.mapValues fun _ b => XR.fin b).contains v := by
    intro v
    simp [FMap.contains, FMap.mapValues]
  simp only [dpdSingle, dpdFeature, DPD.Group.addValue, DPD.Group.removeValue, h]

theorem dpd_near {lvl : Nat} {K : Finset UInt32}
    {x x0 : DPD.Shared ℝ × (DPD.Group → List UInt32) × (R → {v // v ∈ K})}
    (ha1 : 1 / 2 ^ 20 ≤ x.1.alpha) (ha2 : x.1.alpha ≤ 2 ^ 40)
    (hb : ∀ v b, x.1.betas.lookup v = some b → 1 / 2 ^ 40 ≤ b ∧ b ≤ 1) (hK : K ⊆ x.1.betas.keys)
    (ho : DPD.other ∉ x.1.betas.keys) (hord : ∀ g : DPD.Group, g.map.Enum (x.2.1 g))
    (hK0 : K ⊆ x0.1.betas.keys) (ho0 : DPD.other ∉ x0.1.betas.keys)
    (h0 : dpdSingle lib lvl x0 = dpdSingle lib lvl x) {all : Multiset {v // v ∈ K}}
    (hall : all.card ≤ 2147483647) {C : DPD.Cache XR → List DPD.Group → Prop}
    {dat : Multiset {v // v ∈ K} → ℝ}
    (hs : Sound lvl (dpdFeature lvl x)
      (fun g M => g = DPD.grpIn M ∧ M.card ≤ 2147483647) C dat all) :
    SNear lvl (dpdSingle lib lvl x) (dpdFeature lvl x)
      (fun g M => g = DPD.grpIn M ∧ M.card ≤ 2147483647)
      (DPD.CohIn (dpdShared lib x0.1) K) (dpdScore lib x0) 255 dat all := by
  have hz : ∀ b, (dpdShared lib x0.1).alpha * b + ofInt 0 = (dpdShared lib x0.1).alpha * b :=
    fun b => Single.add_zero_count _ b
  have hsc : ∀ v M, dpdScore lib x0 v M = dpdScore lib x v M :=
    dpdSingle_scores hK0 ho0 hK ho h0
  have hops := dpd_ops (lib := lib) lvl x
  rw [← h0] at hops ⊢
  refine ⟨congrArg FeatureModel.col h0, hops, DPD.freshIn _, DPD.lawsIn lvl hK0 ho0 hz, ?_, ?_⟩
  · intro sl v accum Ms hC hlen hpw hM
    have h1 := (DPD.scoresIn lvl (sh := dpdShared lib x0.1) hK0 ho0 hz hC v
      (dpdShared_lookup (hK0 v.2))).2 accum hlen
    have h1' : sl.scoreValue lvl (dpdSingle lib lvl x0).vs v accum = _ := h1
    rw [h1', Res.ok.injEq]
    apply List.ext_getElem
    · simp [hpw.len]
    · intro p h1 h2
      rw [List.getElem_zipWith, List.getElem_zipWith]
      have hp1 : p < sl.groups.length := by simp at h1; omega
      have hp2 : p < Ms.length := by simp at h2; omega
      obtain ⟨hg, -⟩ := hpw.rel p sl.groups[p] Ms[p] (List.getElem?_eq_getElem hp1)
        (List.getElem?_eq_getElem hp2)
      rw [hg]
      have hcnt : SparseCounter.getCount (DPD.grpIn Ms[p]) v.val =
        ((Ms[p].map Subtype.val).count v.val : Int) := DPD.getCount_ctr _ _
      simp only []
      rw [hcnt]
      rfl
  · intro v M hle
    rw [hsc]
    have hα : 0 < x.1.alpha := lt_of_lt_of_le (by positivity) ha1
    have hpos : ∀ v ∈ x.1.betas.keys, 0 < DPD.weight x.1.betas v := by
      intro v hv
      obtain ⟨b, e⟩ := (x.1.betas.mem_keys_iff v).mp hv
      rw [DPD.weight, e]; exact lt_of_lt_of_le (by positivity) (hb v b e).1
    have hin : ∀ v ∈ M.map Subtype.val, v ∈ x.1.betas.keys := by
      intro v hv
      obtain ⟨w, _, rfl⟩ := Multiset.mem_map.mp hv
      exact hK w.2
    have hle' : M ≤ all := (Multiset.le_cons_self _ _).trans hle
    have hcard := Multiset.card_le_card hle
    rw [Multiset.card_cons] at hcard
    have hM : (M.map Subtype.val).card < 2147483647 := by simp; omega
    have hne : v.val ≠ DPD.other := fun h => ho (h ▸ hK v.2)
    obtain ⟨g', hadd, hg', -⟩ := hs.summarises.add (DPD.grpIn M) M v ⟨rfl, by omega⟩ (by omega)
    obtain ⟨d, s, d', e1, e2, e3, e4⟩ := C28_dpd_step (gamma := x.1.gamma) (beta0 := x.1.beta0)
      (counts := x.1.counts) lvl hα hpos (DPD.grpIn M) g' _ (DPD.ctr_holds (M.map Subtype.val)) hM
      hin ⟨v.val, hne, by rw [FMap.contains_iff]; exact hK v.2⟩ hadd _ _ (hord _) (hord g')
    have hn : 0 < x.1.alpha * DPD.weight x.1.betas v.val +
        (((M.map Subtype.val).count v.val : Int) : ℝ) := by
      have := mul_pos hα (hpos v.val (hK v.2))
      push_cast; positivity
    have ht : 0 < x.1.alpha + (((M.map Subtype.val).card : Int) : ℝ) := by push_cast; positivity
    have e2 := (DPD.scoreValue_known lvl (hK v.2) hne ((DPD.ctr_holds _).getCount _)
      (DPD.ctr_holds _).getTotal hn ht).symm.trans e2
    rw [Res.ok.injEq, XR.fin_inj] at e2
    have hd1 := hs.data _ (v ::ₘ M) ⟨rfl, by rw [Multiset.card_cons]; omega⟩ hle
    have hd2 := hs.data _ M ⟨rfl, by omega⟩ hle'
    rw [← hg'] at hd1
    have hd1' := hd1.symm.trans e3
    have hd2' := hd2.symm.trans e1
    rw [Res.ok.injEq, XR.fin_inj] at hd1' hd2'
    have hexact : dat (v ::ₘ M) - dat M = Real.log ((x.1.alpha * DPD.weight x.1.betas v.val +
        (((M.map Subtype.val).count v.val : Int) : ℝ)) /
          (x.1.alpha + (((M.map Subtype.val).card : Int) : ℝ))) := by
      rw [hd1', hd2', e4, ← e2]; ring
    rw [hexact]
    obtain ⟨b, e⟩ := (x.1.betas.mem_keys_iff v.val).mp (hK v.2)
    have hw : DPD.weight x.1.betas v.val = b := by rw [DPD.weight, e]; rfl
    have hct := Multiset.count_le_card v.val (M.map Subtype.val)
    rw [dpdScore, hw]
    exact Single.dpd_cell (lib := lib) ha1 ha2 (hb _ b e).1 (hb _ b e).2 (by positivity)
      (by exact_mod_cast hct) (by omega)

/-- The features of a mixture of Dirichlet-Process-Discrete features. -/
theorem dpd_single [DecidableEq ι] [Fintype ι] (lvl : Nat) {alpha d : ℝ} (ha1 : 1 / 2 ^ 40 ≤ alpha)
    (ha2 : alpha ≤ 2 ^ 40) (hd0 : d = 0 ∨ 1 / 2 ^ 40 ≤ d) (hd1 : d ≤ 1 - 1 / 2 ^ 24) (rows : ι → R)
    {K : Finset UInt32} {l : List (DPD.Shared ℝ × (DPD.Group → List UInt32) × (R → {v // v ∈ K}))}
    (hl : ∀ x ∈ l, (1 / 2 ^ 20 ≤ x.1.alpha ∧ x.1.alpha ≤ 2 ^ 40) ∧
        (∀ v b, x.1.betas.lookup v = some b → 1 / 2 ^ 40 ≤ b ∧ b ≤ 1) ∧
        K ⊆ x.1.betas.keys ∧ DPD.other ∉ x.1.betas.keys ∧
        ∀ g : DPD.Group, g.map.Enum (x.2.1 g))
    (hlen : l.length ≤ 1000) (hcard : Fintype.card ι ≤ 2147483647) :
    ∃ Y : SCtx lib ι R (DPD.Cache XR) (DPD.Cache (Single lib)) DPD.Group {v // v ∈ K}, Y.Ok ∧
      Y.X.lvl = lvl ∧ Y.X.alpha = alpha ∧ Y.X.d = d ∧ Y.X.rows = rows ∧
      Y.X.feats = l.map (dpdFeature lvl) ∧ Y.feats = l.map (dpdSingle lib lvl) ∧ Y.err = 255 := by
  have hc : ∀ f : FeatureModel R (DPD.Cache XR) DPD.Group {v // v ∈ K} XR,
      ((univ : Finset ι).val.map fun i => f.col (rows i)).card ≤ 2147483647 := by
    intro f
    rw [Multiset.card_map]
    exact hcard
  obtain ⟨C, dat, hs⟩ := sound_family (lvl := lvl) (feat := dpdFeature lvl) (l := l)
      (all := fun f => (univ : Finset ι).val.map fun i => f.col (rows i))
      fun x hx => by
        obtain ⟨⟨h1, -⟩, h2, h3, h4, h5⟩ := hl x hx
        exact dpd_sound (lvl := lvl) (lt_of_lt_of_le (by positivity) h1)
          (fun v b e => lt_of_lt_of_le (by positivity) (h2 v b e).1) h3 h4 h5 (hc _)
  have hchoose : ∀ f : FeatureModel R (DPD.Cache (Single lib)) DPD.Group {v // v ∈ K} (Single lib),
      ∃ x0 : DPD.Shared ℝ × (DPD.Group → List UInt32) × (R → {v // v ∈ K}),
        (∃ x ∈ l, dpdSingle lib lvl x = f) → x0 ∈ l ∧ dpdSingle lib lvl x0 = f := by
    intro f
    by_cases h : ∃ x ∈ l, dpdSingle lib lvl x = f
    · obtain ⟨x, hx, e⟩ := h
      exact ⟨x, fun _ => ⟨hx, e⟩⟩
    · exact ⟨⟨⟨0, 0, 0, FMap.empty, SparseCounter.raw⟩, fun _ => [], f.col⟩, fun h' => absurd h' h⟩
  choose x0 hx0 using hchoose
  have hd0' : 0 ≤ d := by
    rcases hd0 with h | h
    · rw [h]
    · exact le_trans (by positivity) h
  refine ⟨⟨⟨lvl, alpha, d, rows, l.map (dpdFeature lvl), _, C, dat⟩, l.map (dpdSingle lib lvl),
    fun f => DPD.CohIn (dpdShared lib (x0 f).1) K, fun f => dpdScore lib (x0 f), 255⟩,
    ⟨⟨lt_of_lt_of_le (by positivity) ha1, hd0', lt_of_le_of_lt hd1 (by norm_num), hcard, hs⟩, ?_,
      ha1, ha2, hd0, hd1, by simpa using hlen⟩, rfl, rfl, rfl, rfl, rfl, rfl, rfl⟩
  rw [List.forall₂_map_left_iff, List.forall₂_map_right_iff, List.forall₂_same]
  intro x hx
  obtain ⟨⟨h1, h1'⟩, h2, h3, h4, h5⟩ := hl x hx
  obtain ⟨hm, he⟩ := hx0 _ ⟨x, hx, rfl⟩
  obtain ⟨-, -, h3', h4', -⟩ := hl _ hm
  exact dpd_near h1 h1' h2 h3 h4 h5 h3' h4' he (hc (dpdFeature lvl x))
    (hs (dpdFeature lvl x) (List.mem_map.mpr ⟨x, hx, rfl⟩))

/-- Features of the library in single precision satisfy what the loops need. -/
theorem library_single [DecidableEq ι] [Fintype ι] {S S' G V : Type} {lvl : Nat} {alpha d : ℝ}
    (ha1 : 1 / 2 ^ 40 ≤ alpha) (ha2 : alpha ≤ 2 ^ 40) (hd0 : d = 0 ∨ 1 / 2 ^ 40 ≤ d)
    (hd1 : d ≤ 1 - 1 / 2 ^ 24) (rows : ι → R) {fs' : List (FeatureModel R S' G V (Single lib))}
    {fs : List (FeatureModel R S G V XR)} {e : Nat} (hf : SingleFeatures lib lvl fs' fs e)
    (hK : fs'.length ≤ 1000) (hcard : Fintype.card ι ≤ 2147483647) :
    ∃ (_ : DecidableEq V) (Y : SCtx lib ι R S S' G V), Y.Ok ∧
      Y.X.lvl = lvl ∧ Y.X.alpha = alpha ∧ Y.X.d = d ∧ Y.X.rows = rows ∧
      Y.X.feats = fs ∧ Y.feats = fs' ∧ Y.err = e := by
  cases hf with
  | bb l hl =>
    exact ⟨inferInstance, bb_single lvl ha1 ha2 hd0 hd1 rows hl (by simpa using hK) hcard⟩
  | dd l h1 h2 hl =>
    exact ⟨inferInstance, dd_single lvl ha1 ha2 hd0 hd1 rows h1 h2 hl (by simpa using hK) hcard⟩
  | dpd l hl =>
    exact ⟨inferInstance, dpd_single lvl ha1 ha2 hd0 hd1 rows hl (by simpa using hK) hcard⟩

end Dist
