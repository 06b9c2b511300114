import Mathlib.Tactic.FieldSimp
import Mathlib.Tactic.Positivity
import Mathlib.Tactic.Linarith
import Mathlib.Algebra.BigOperators.Group.List.Basic
import Verif.Lemmas.Reference
import Verif.Lemmas.Counts
import Verif.Model.GroupApi

/-!
# C57: the C++ implementation and the Python reference compute the same scores

`dbg = .ok x` says that the Python call returns `x` rather than raising; the theorems named
`_defined` say when it does.  Where the C++ statistics are `uint32_t`, `same` reads the Python
integer modulo `2^32`, and the score theorems ask that it fits.
-/

namespace Dist

open FloatOps FloatNotation Spec

/-! ## Beta-Bernoulli -/

/-- The two groups hold the same counts. -/
def Dbg.BB.Same (g : Dist.BB.Group) (p : Group) : Prop := g.heads = p.heads ∧ g.tails = p.tails

theorem C57_bb_updates (h : History Bool) (g : BB.Group) (p : Dbg.BB.Group)
    (hg : h.run BB.api = .ok g) (hp : h.run Dbg.BB.api = .ok p) : Dbg.BB.Same g p := by
  refine h.related BB.api Dbg.BB.api Dbg.BB.Same ⟨rfl, rfl⟩ ?_ ?_ ?_ ?_ g p hg hp
  · rintro g p v g' p' ⟨h1, h2⟩ hA hB
    simp only [BB.api, Dbg.BB.api, BB.Group.addValue, Dbg.BB.Group.addValue, Res.ok.injEq] at hA hB
    subst hB
    cases v <;> simp [Res.bind_eq_ok, i32_eq_ok] at hA <;> obtain ⟨_, rfl⟩ := hA <;>
      simp [Dbg.BB.Same, h1, h2]
  · rintro g p v g' p' ⟨h1, h2⟩ hA hB
    simp only [BB.api, Dbg.BB.api, BB.Group.removeValue, Dbg.BB.Group.removeValue,
      Res.ok.injEq] at hA hB
    subst hB
    cases v <;> simp [Res.bind_eq_ok, i32_eq_ok] at hA <;> obtain ⟨_, rfl⟩ := hA <;>
      simp [Dbg.BB.Same, h1, h2]
  · rintro g p v n g' p' ⟨h1, h2⟩ hA hB
    simp only [BB.api, Dbg.BB.api, BB.Group.addRepeatedValue, Dbg.BB.Group.addRepeatedValue,
      Res.ok.injEq] at hA hB
    subst hB
    cases v <;> simp [Res.bind_eq_ok, i32_eq_ok] at hA <;> obtain ⟨_, rfl⟩ := hA <;>
      simp [Dbg.BB.Same, h1, h2]
  · rintro g p s t g' p' ⟨h1, h2⟩ ⟨h3, h4⟩ hA hB
    simp only [BB.api, Dbg.BB.api, BB.Group.merge, Dbg.BB.Group.merge, Res.ok.injEq] at hA hB
    subst hB
    simp [Res.bind_eq_ok, i32_eq_ok] at hA
    obtain ⟨_, _, rfl⟩ := hA
    simp [Dbg.BB.Same, h1, h2, h3, h4]

/-- `true` added twice, merged with a group holding one `false`. -/
example : ((History.repeated .init true 2).merge (.add .init false)).run BB.api = .ok ⟨2, 1⟩ ∧
    ((History.repeated .init true 2).merge (.add .init false)).run Dbg.BB.api = .ok ⟨2, 1⟩ := by
  constructor <;> rfl

theorem C57_bb_score_value (sh : BB.Shared XR) (g : BB.Group) (p : Dbg.BB.Group) (v : Bool) (x : XR)
    (hs : Dbg.BB.Same g p) (h : p.scoreValue sh v = .ok x) : g.scoreValue sh v = x := by
  obtain ⟨h1, h2⟩ := hs
  unfold Dbg.BB.Group.scoreValue at h
  obtain ⟨q, hq, hx⟩ := Res.bind_eq_ok.1 h
  obtain ⟨rfl, _⟩ := Dbg.pyDiv_ok hq
  obtain ⟨rfl, _⟩ := Dbg.pyLog_ok hx
  cases v <;> simp [BB.Group.scoreValue, BB.Scorer.init, BB.Scorer.eval, h1, h2]

theorem C57_bb_score_value_defined (a b : ℝ) (p : Dbg.BB.Group) (v : Bool) (ha : 0 < a)
    (hb : 0 < b) (h1 : 0 ≤ p.heads) (h2 : 0 ≤ p.tails) :
    ∃ r : ℝ, p.scoreValue ⟨XR.fin a, XR.fin b⟩ v = .ok (XR.fin r) := by
  have h1' : (0 : ℝ) ≤ p.heads := by exact_mod_cast h1
  have h2' : (0 : ℝ) ≤ p.tails := by exact_mod_cast h2
  cases v
  · refine ⟨Real.log ((b + p.tails) / (a + p.heads + (b + p.tails))), ?_⟩
    simp only [Dbg.BB.Group.scoreValue, XR.ofInt_eq, XR.fin_add, Bool.false_eq_true, if_false]
    rw [Dbg.pyDiv_fin (by positivity), Res.ok_bind, Dbg.pyLog_fin (by positivity)]
  · refine ⟨Real.log ((a + p.heads) / (a + p.heads + (b + p.tails))), ?_⟩
    simp only [Dbg.BB.Group.scoreValue, XR.ofInt_eq, XR.fin_add, if_true]
    rw [Dbg.pyDiv_fin (by positivity), Res.ok_bind, Dbg.pyLog_fin (by positivity)]

theorem C57_bb_score_data (sh : BB.Shared XR) (g : BB.Group) (p : Dbg.BB.Group)
    (hs : Dbg.BB.Same g p) : g.scoreData sh = p.scoreData sh := by
  obtain ⟨h1, h2⟩ := hs
  simp only [BB.Group.scoreData, Dbg.BB.Group.scoreData, h1, h2, XR.ofInt_eq, Int.cast_zero,
    XR.zero_add]
  ac_rfl

example : Dbg.BB.Same ⟨2, 1⟩ ⟨2, 1⟩ := ⟨rfl, rfl⟩

/-! ## Gamma-Poisson -/

/-- The same statistics, the integers modulo `2^32`. -/
def Dbg.GP.Same {F : Type} (g : Dist.GP.Group F) (p : Group F) : Prop :=
  g.count = UInt32.ofInt p.count ∧ g.sum = UInt32.ofInt p.sum ∧ g.logProd = p.logProd

theorem logFact_u32 {F : Type} [FloatOps F] (v : UInt32) :
    (Dbg.logFact v.toNat : Res F) = .ok (GP.logFact v) := by
  unfold Dbg.logFact GP.logFact
  rw [if_neg (by omega)]; simp

theorem C57_gp_updates {F : Type} [FloatOps F] (h : History UInt32) (g : GP.Group F)
    (p : Dbg.GP.Group F) (hg : h.run GP.api = .ok g) (hp : h.run Dbg.GP.api = .ok p) :
    Dbg.GP.Same g p := by
  refine h.related GP.api Dbg.GP.api Dbg.GP.Same ⟨rfl, rfl, rfl⟩ ?_ ?_ ?_ ?_ g p hg hp
  · rintro g p v g' p' ⟨h1, h2, h3⟩ hA hB
    simp only [GP.api, Dbg.GP.api, Dbg.GP.Group.addValue, logFact_u32, Res.ok_bind, Res.pure_eq,
      Res.ok.injEq] at hA hB
    subst hA hB
    simp [Dbg.GP.Same, GP.Group.addValue, h1, h2, h3, UInt32.ofInt_add, u32_ofInt_toNat]
  · rintro g p v g' p' ⟨h1, h2, h3⟩ hA hB
    simp only [GP.api, Dbg.GP.api, Dbg.GP.Group.removeValue, logFact_u32, Res.ok_bind, Res.pure_eq,
      Res.ok.injEq] at hA hB
    subst hA hB
    simp [Dbg.GP.Same, GP.Group.removeValue, h1, h2, h3, u32_ofInt_sub, u32_ofInt_toNat]
  · rintro g p v n g' p' ⟨h1, h2, h3⟩ hA hB
    simp only [GP.api, Dbg.GP.api, Dbg.GP.Group.addRepeatedValue, logFact_u32, Res.ok_bind,
      Res.pure_eq, Res.ok.injEq] at hA hB
    subst hA hB
    simp [Dbg.GP.Same, GP.Group.addRepeatedValue, h1, h2, h3, UInt32.ofInt_add, UInt32.ofInt_mul,
      u32_ofInt_toNat]
  · rintro g p s t g' p' ⟨h1, h2, h3⟩ ⟨h4, h5, h6⟩ hA hB
    simp only [GP.api, Dbg.GP.api, Res.ok.injEq] at hA hB
    subst hA hB
    simp [Dbg.GP.Same, GP.Group.merge, Dbg.GP.Group.merge, h1, h2, h3, h4, h5, h6,
      UInt32.ofInt_add]

theorem Dbg.GP.plusGroup_same {F : Type} [FloatOps F] (sh : Dist.GP.Shared F)
    (g : Dist.GP.Group F) (p : Group F) (hs : Same g p)
    (h1 : 0 ≤ p.count) (h2 : p.count < 2 ^ 32) (h3 : 0 ≤ p.sum) (h4 : p.sum < 2 ^ 32) :
    sh.plusGroup g = plusGroup sh p := by
  obtain ⟨e1, e2, -⟩ := hs
  simp only [GP.Shared.plusGroup, plusGroup, GP.u32, e1, e2, u32_toNat_ofInt h1 h2,
    u32_toNat_ofInt h3 h4]

theorem C57_gp_score_value (sh : GP.Shared XR) (g : GP.Group XR) (p : Dbg.GP.Group XR) (v : UInt32)
    (x : XR) (hs : Dbg.GP.Same g p)
    (h1 : 0 ≤ p.count) (h2 : p.count < 2 ^ 32) (h3 : 0 ≤ p.sum) (h4 : p.sum < 2 ^ 32)
    (h : p.scoreValue sh v.toNat = .ok x) : g.scoreValue sh v = x := by
  unfold Dbg.GP.Group.scoreValue at h
  rw [logFact_u32] at h
  obtain ⟨l1, hl1, h⟩ := Res.bind_eq_ok.1 h
  obtain ⟨l2, hl2, h⟩ := Res.bind_eq_ok.1 h
  obtain ⟨rfl, _⟩ := Dbg.pyLog_ok hl1
  obtain ⟨rfl, _⟩ := Dbg.pyLog_ok hl2
  simp only [Res.ok_bind, Res.pure_eq, Res.ok.injEq] at h
  subst h
  simp only [GP.Group.scoreValue, GP.Scorer.init, GP.Scorer.eval,
    Dbg.GP.plusGroup_same sh g p hs h1 h2 h3 h4, GP.u32, XR.sub_eq, XR.neg_add, XR.mul_add,
    XR.add_mul, XR.neg_mul, XR.mul_neg]
  rw [XR.mul_comm (ofInt ((v.toNat : Int))) (log _)]
  ac_rfl

theorem C57_gp_score_value_defined (a b : ℝ) (p : Dbg.GP.Group XR) (v : UInt32) (ha : 0 < a)
    (hb : 0 < b) (h1 : 0 ≤ p.count) (h2 : 0 ≤ p.sum) :
    ∃ r : ℝ, p.scoreValue ⟨XR.fin a, XR.fin b⟩ v.toNat = .ok (XR.fin r) := by
  have h1' : (0 : ℝ) ≤ p.count := by exact_mod_cast h1
  have h2' : (0 : ℝ) ≤ p.sum := by exact_mod_cast h2
  simp only [Dbg.GP.Group.scoreValue, Dbg.GP.plusGroup, XR.ofInt_eq, XR.fin_add, XR.lit_eq]
  rw [Dbg.pyLog_fin (by positivity), Res.ok_bind, Dbg.pyLog_fin (by positivity), Res.ok_bind,
    logFact_u32, Res.ok_bind, XR.lgamma_fin (by positivity), XR.lgamma_fin (by positivity)]
  simp only [GP.logFact, XR.logFactorial_eq, XR.fin_mul, XR.fin_sub, XR.fin_add, Res.pure_eq]
  exact ⟨_, rfl⟩

theorem C57_gp_score_data (sh : GP.Shared XR) (g : GP.Group XR) (p : Dbg.GP.Group XR) (x : XR)
    (hs : Dbg.GP.Same g p)
    (h1 : 0 ≤ p.count) (h2 : p.count < 2 ^ 32) (h3 : 0 ≤ p.sum) (h4 : p.sum < 2 ^ 32)
    (h : p.scoreData sh = .ok x) : g.scoreData sh = x := by
  unfold Dbg.GP.Group.scoreData at h
  obtain ⟨l1, hl1, h⟩ := Res.bind_eq_ok.1 h
  obtain ⟨l2, hl2, h⟩ := Res.bind_eq_ok.1 h
  obtain ⟨rfl, _⟩ := Dbg.pyLog_ok hl1
  obtain ⟨rfl, _⟩ := Dbg.pyLog_ok hl2
  simp only [Res.pure_eq, Res.ok.injEq] at h
  subst h
  simp only [GP.Group.scoreData, Dbg.GP.plusGroup_same sh g p hs h1 h2 h3 h4, hs.2.2, XR.sub_eq]
  ac_rfl

theorem C57_gp_score_data_defined (a b l : ℝ) (n s : Int) (ha : 0 < a) (hb : 0 < b) (h1 : 0 ≤ n)
    (h2 : 0 ≤ s) :
    ∃ r : ℝ, (⟨n, s, XR.fin l⟩ : Dbg.GP.Group XR).scoreData ⟨XR.fin a, XR.fin b⟩ =
      .ok (XR.fin r) := by
  have h1' : (0 : ℝ) ≤ n := by exact_mod_cast h1
  have h2' : (0 : ℝ) ≤ s := by exact_mod_cast h2
  simp only [Dbg.GP.Group.scoreData, Dbg.GP.plusGroup, XR.ofInt_eq, XR.fin_add, XR.lit_eq]
  rw [Dbg.pyLog_fin (by positivity), Res.ok_bind, Dbg.pyLog_fin (by positivity), Res.ok_bind,
    XR.lgamma_fin (by positivity), XR.lgamma_fin (by positivity)]
  simp only [XR.fin_mul, XR.fin_sub, XR.fin_add, Res.pure_eq]
  exact ⟨_, rfl⟩

/-- One observation of `3` in each implementation. -/
example : (GP.Group.init.addValue 3 : GP.Group XR).count = UInt32.ofInt 1 ∧
    (GP.Group.init.addValue 3 : GP.Group XR).sum = UInt32.ofInt 3 := by
  constructor <;> rfl

/-! ## Beta-Negative-Binomial -/

/-- The same statistics, the integers modulo `2^32`. -/
def Dbg.BNB.Same (g : Dist.BNB.Group) (p : Group) : Prop :=
  g.count = UInt32.ofInt p.count ∧ g.sum = UInt32.ofInt p.sum

theorem C57_bnb_updates (h : History UInt32) (g : BNB.Group) (p : Dbg.BNB.Group)
    (hg : h.run BNB.api = .ok g) (hp : h.run Dbg.BNB.api = .ok p) : Dbg.BNB.Same g p := by
  refine h.related BNB.api Dbg.BNB.api Dbg.BNB.Same ⟨rfl, rfl⟩ ?_ ?_ ?_ ?_ g p hg hp
  · rintro g p v g' p' ⟨h1, h2⟩ hA hB
    simp only [BNB.api, Dbg.BNB.api, Res.ok.injEq] at hA hB
    subst hA hB
    simp [Dbg.BNB.Same, BNB.Group.addValue, Dbg.BNB.Group.addValue, h1, h2, UInt32.ofInt_add,
      u32_ofInt_toNat]
  · rintro g p v g' p' ⟨h1, h2⟩ hA hB
    simp only [BNB.api, Dbg.BNB.api, Res.ok.injEq] at hA hB
    subst hA hB
    simp [Dbg.BNB.Same, BNB.Group.removeValue, Dbg.BNB.Group.removeValue, h1, h2, u32_ofInt_sub,
      u32_ofInt_toNat]
  · rintro g p v n g' p' ⟨h1, h2⟩ hA hB
    simp only [BNB.api, Dbg.BNB.api, Res.ok.injEq] at hA hB
    subst hA hB
    simp [Dbg.BNB.Same, BNB.Group.addRepeatedValue, Dbg.BNB.Group.addRepeatedValue, h1, h2,
      UInt32.ofInt_add, UInt32.ofInt_mul, u32_ofInt_toNat]
  · rintro g p s t g' p' ⟨h1, h2⟩ ⟨h4, h5⟩ hA hB
    simp only [BNB.api, Dbg.BNB.api, Res.ok.injEq] at hA hB
    subst hA hB
    simp [Dbg.BNB.Same, BNB.Group.merge, Dbg.BNB.Group.merge, h1, h2, h4, h5, UInt32.ofInt_add]

/-- The hyperparameters as the Python object holds them. -/
def Dbg.BNB.ofShared {F : Type} (sh : Dist.BNB.Shared F) : Shared F :=
  ⟨sh.alpha, sh.beta, sh.r.toNat⟩

theorem C57_bnb_score_value (sh : BNB.Shared XR) (g : BNB.Group) (p : Dbg.BNB.Group) (v : UInt32)
    (hs : Dbg.BNB.Same g p)
    (h1 : 0 ≤ p.count) (h2 : p.count < 2 ^ 32) (h3 : 0 ≤ p.sum) (h4 : p.sum < 2 ^ 32) :
    g.scoreValue sh v = p.scoreValue (Dbg.BNB.ofShared sh) v.toNat := by
  obtain ⟨e1, e2⟩ := hs
  simp [BNB.Group.scoreValue, Dbg.BNB.Group.scoreValue, BNB.Shared.plusGroup,
    Dbg.BNB.Shared.plusGroup, Dbg.BNB.ofShared, BNB.u32, e1, e2, u32_toNat_ofInt h1 h2,
    u32_toNat_ofInt h3 h4]

theorem C57_bnb_score_data (sh : BNB.Shared XR) (g : BNB.Group) (p : Dbg.BNB.Group)
    (hs : Dbg.BNB.Same g p)
    (h1 : 0 ≤ p.count) (h2 : p.count < 2 ^ 32) (h3 : 0 ≤ p.sum) (h4 : p.sum < 2 ^ 32) :
    g.scoreData sh = p.scoreData (Dbg.BNB.ofShared sh) := by
  obtain ⟨e1, e2⟩ := hs
  simp [BNB.Group.scoreData, Dbg.BNB.Group.scoreData, BNB.Shared.plusGroup,
    Dbg.BNB.Shared.plusGroup, Dbg.BNB.ofShared, BNB.u32, e1, e2, u32_toNat_ofInt h1 h2,
    u32_toNat_ofInt h3 h4]

/-- Values 3 and 4 added, then 3 removed. -/
example : (((History.init.add 3).add 4).remove 3).run BNB.api = .ok ⟨1, 4⟩ ∧
    (((History.init.add 3).add 4).remove 3).run Dbg.BNB.api = .ok ⟨1, 4⟩ := by
  constructor <;> rfl

/-! ## Dirichlet-Discrete -/

theorem Dbg.DD.bump (g : Dist.DD.Group) (value n : Int) (g' : Dist.DD.Group) (p' : List Int)
    (hA : (do
      let s ← i32 (g.countSum + n)
      let c ← DD.readAt g.counts value
      let c ← i32 (c + n)
      let cs ← DD.writeAt g.counts value c
      return (⟨s, cs⟩ : Dist.DD.Group)) = .ok g')
    (hB : (do
      let c ← npIndex g.counts value
      npSet g.counts value (c + n)) = .ok p') :
    g'.counts = p' ∧ g'.countSum - p'.sum = g.countSum - g.counts.sum := by
  obtain ⟨s, hs, hA1⟩ := Res.bind_eq_ok.1 hA
  obtain ⟨c, hc, hA2⟩ := Res.bind_eq_ok.1 hA1
  obtain ⟨c', hc', hA3⟩ := Res.bind_eq_ok.1 hA2
  obtain ⟨cs, hcs, hA4⟩ := Res.bind_eq_ok.1 hA3
  clear hA hA1 hA2 hA3
  obtain ⟨-, rfl⟩ := i32_eq_ok.1 hs
  obtain ⟨-, rfl⟩ := i32_eq_ok.1 hc'
  simp only [Res.pure_eq, Res.ok.injEq] at hA4
  subst hA4
  unfold DD.readAt at hc
  split_ifs at hc with h0
  obtain ⟨hlt, hget⟩ := List.getElem?_eq_some_iff.1 (getAt_eq_ok.1 hc)
  have hlt' : value < g.counts.length := by omega
  rw [npIndex_of _ h0 hlt', hc, Res.ok_bind, npSet_of _ h0 hlt', setAt_of hlt] at hB
  rw [DD.writeAt, if_pos h0, setAt_of hlt] at hcs
  simp only [Res.ok.injEq] at hB hcs
  subst hB hcs
  refine ⟨rfl, ?_⟩
  rw [List.sum_set', dif_pos hlt, hget]
  simp only; omega

theorem Dbg.DD.skipAssert {lvl : Nat} {c : Prop} [Decidable c] {α : Type} {x : Res α} {a : α}
    (h : (do distAssert lvl 1 c; x) = .ok a) : x = .ok a := by
  obtain ⟨_, _, h⟩ := Res.bind_eq_ok.1 h
  exact h

theorem Dbg.DD.add_same (lvl dim : Nat) (g : Dist.DD.Group) (v : Int) (g' : Dist.DD.Group)
    (p' : List Int) (hA : (Dist.DD.api lvl dim).add g v = .ok g')
    (hB : (api dim).add g.counts v = .ok p') :
    g'.counts = p' ∧ g'.countSum - p'.sum = g.countSum - g.counts.sum :=
  bump g v 1 g' p' (skipAssert hA) hB

theorem Dbg.DD.remove_same (lvl dim : Nat) (g : Dist.DD.Group) (v : Int) (g' : Dist.DD.Group)
    (p' : List Int) (hA : (Dist.DD.api lvl dim).remove g v = .ok g')
    (hB : (api dim).remove g.counts v = .ok p') :
    g'.counts = p' ∧ g'.countSum - p'.sum = g.countSum - g.counts.sum :=
  bump g v (-1) g' p' (skipAssert hA) hB

theorem Dbg.DD.repeated_same (lvl dim : Nat) (g : Dist.DD.Group) (v n : Int) (g' : Dist.DD.Group)
    (p' : List Int) (hA : (Dist.DD.api lvl dim).repeated g v n = .ok g')
    (hB : (api dim).repeated g.counts v n = .ok p') :
    g'.counts = p' ∧ g'.countSum - p'.sum = g.countSum - g.counts.sum :=
  bump g v n g' p' (skipAssert hA) hB

theorem Dbg.DD.merge_counts (a b c : List Int) (h : Dist.DD.Group.mergeLoop a b = .ok c)
    (hl : a.length = b.length) : c = List.zipWith (· + ·) a b := by
  induction a generalizing b c with
  | nil => simp [Dist.DD.Group.mergeLoop] at h; simp [h]
  | cons x as ih =>
    cases b with
    | nil => simp at hl
    | cons y bs =>
      simp only [Dist.DD.Group.mergeLoop] at h
      obtain ⟨z, hz, h⟩ := Res.bind_eq_ok.1 h
      obtain ⟨-, rfl⟩ := i32_eq_ok.1 hz
      obtain ⟨zs, hzs, h⟩ := Res.bind_eq_ok.1 h
      simp only [Res.pure_eq, Res.ok.injEq] at h
      subst h
      rw [ih _ _ hzs (by simpa using hl)]; rfl

/-- Every history gives both implementations the same counts. -/
theorem C57_dd_updates (lvl dim : Nat) (h : History Int) (g : DD.Group) (p : List Int)
    (hg : h.run (DD.api lvl dim) = .ok g) (hp : h.run (Dbg.DD.api dim) = .ok p) :
    g.counts = p := by
  refine h.related (DD.api lvl dim) (Dbg.DD.api dim) (fun g p => g.counts = p) rfl
    ?_ ?_ ?_ ?_ g p hg hp
  · rintro g _ v g' p' rfl hA hB; exact (Dbg.DD.add_same lvl dim g v g' p' hA hB).1
  · rintro g _ v g' p' rfl hA hB; exact (Dbg.DD.remove_same lvl dim g v g' p' hA hB).1
  · rintro g _ v n g' p' rfl hA hB; exact (Dbg.DD.repeated_same lvl dim g v n g' p' hA hB).1
  · rintro g _ s _ g' p' rfl rfl hA hB
    simp only [DD.api, Dbg.DD.api, Dbg.DD.merge, DD.Group.merge] at hA hB
    split_ifs at hB with hl
    obtain ⟨cs, hcs, hA⟩ := Res.bind_eq_ok.1 hA
    simp only [Res.pure_eq, Res.ok.injEq] at hA hB
    subst hA hB
    exact Dbg.DD.merge_counts _ _ _ hcs hl

/-- Without merges the C++ group also holds the sum of the counts. -/
theorem C57_dd_count_sum (lvl dim : Nat) (h : History Int) (hl : h.Linear) (g : DD.Group)
    (p : List Int) (hg : h.run (DD.api lvl dim) = .ok g) (hp : h.run (Dbg.DD.api dim) = .ok p) :
    g.counts = p ∧ g.countSum = p.sum := by
  refine h.related_linear (DD.api lvl dim) (Dbg.DD.api dim)
    (fun g p => g.counts = p ∧ g.countSum = p.sum)
    ⟨rfl, by simp [DD.api, Dbg.DD.api, DD.Group.init, Dbg.DD.init]⟩ ?_ ?_ ?_ hl g p hg hp
  · rintro g _ v g' p' ⟨rfl, h2⟩ hA hB
    obtain ⟨h3, h4⟩ := Dbg.DD.add_same lvl dim g v g' p' hA hB
    exact ⟨h3, by omega⟩
  · rintro g _ v g' p' ⟨rfl, h2⟩ hA hB
    obtain ⟨h3, h4⟩ := Dbg.DD.remove_same lvl dim g v g' p' hA hB
    exact ⟨h3, by omega⟩
  · rintro g _ v n g' p' ⟨rfl, h2⟩ hA hB
    obtain ⟨h3, h4⟩ := Dbg.DD.repeated_same lvl dim g v n g' p' hA hB
    exact ⟨h3, by omega⟩

example : ((History.init.add 1).repeated 0 3).run (DD.api 3 2) = .ok ⟨4, [3, 1]⟩ ∧
    ((History.init.add 1).repeated 0 3).run (Dbg.DD.api 2) = .ok [3, 1] := by
  constructor <;> rfl

theorem XR.foldl_add (l : List XR) (x : XR) :
    l.foldl (· + ·) x = x + l.foldl (· + ·) (XR.fin 0) := by
  induction l generalizing x with
  | nil => simp [XR.add_zero]
  | cons y l ih =>
    simp only [List.foldl_cons]
    rw [ih, ih (XR.fin 0 + y), XR.zero_add]; ac_rfl

theorem Dbg.npSum_cons (y : XR) (l : List XR) : npSum (y :: l) = y + npSum l := by
  simp only [npSum, List.foldl_cons]
  rw [XR.foldl_add]
  simp only [XR.ofInt_eq, Int.cast_zero, XR.zero_add]

theorem Dbg.DD.posterior_of (as : List XR) (cs : List Int) (h : as.length = cs.length) :
    ∃ ps, Dist.DD.posterior as cs = .ok ps ∧ ps.length = as.length ∧
      npSum ps = XR.fin cs.sum + npSum as ∧
      ∀ (i : Nat) (a : XR) (c : Int), as[i]? = some a → cs[i]? = some c →
        ps[i]? = some (a + XR.fin c) := by
  induction as generalizing cs with
  | nil =>
    cases cs with
    | nil => exact ⟨[], rfl, rfl, by simp [npSum], by simp⟩
    | cons => simp at h
  | cons a as ih =>
    cases cs with
    | nil => simp at h
    | cons c cs =>
      obtain ⟨ps, h1, h2, h3, h4⟩ := ih cs (by simpa using h)
      refine ⟨(a + XR.fin c) :: ps, by simp [Dist.DD.posterior, h1], by simp [h2], ?_, ?_⟩
      · rw [npSum_cons, npSum_cons, h3, List.sum_cons, Int.cast_add, ← XR.fin_add]; ac_rfl
      · rintro (_ | i) b e hb he
        · simp at hb he; subst hb he; rfl
        · simpa using h4 i b e (by simpa using hb) (by simpa using he)

theorem C57_dd_score_value (lvl : Nat) (alphas : List XR) (g : DD.Group) (v : Int) (x : XR)
    (hlen : alphas.length = g.counts.length) (hv : 0 ≤ v)
    (h : Dbg.DD.scoreValue alphas g.counts v = .ok x) :
    g.scoreValue lvl ⟨alphas⟩ v = .ok x := by
  unfold Dbg.DD.scoreValue at h
  obtain ⟨c, hc, h⟩ := Res.bind_eq_ok.1 h
  obtain ⟨a, ha, h⟩ := Res.bind_eq_ok.1 h
  obtain ⟨rfl, -⟩ := Dbg.pyLog_ok h
  obtain ⟨hlt, hc⟩ := Dbg.npIndex_nonneg _ hv _ hc
  obtain ⟨-, ha⟩ := Dbg.npIndex_nonneg _ hv _ ha
  obtain ⟨ps, h1, h2, h3, h4⟩ := Dbg.DD.posterior_of alphas g.counts hlen
  have hp := h4 _ _ _ (getAt_eq_ok.1 ha) (getAt_eq_ok.1 hc)
  simp only [DD.Group.scoreValue, DD.Scorer.init, h1, Res.ok_bind, Res.pure_eq, DD.Scorer.eval]
  rw [distAssert_of (by show v < alphas.length; omega), DD.readAt, if_pos hv, getAt_eq_ok.2 hp]
  simp only [Res.ok_bind, XR.ofInt_eq]
  rw [XR.add_comm a, ← h3]
  rfl

theorem C57_dd_score_value_defined (alphas : List ℝ) (counts : List Int) (v : Int)
    (hlen : alphas.length = counts.length) (hv : 0 ≤ v) (hv' : v < alphas.length)
    (hpos : ∀ a ∈ alphas, 0 < a) (hc : ∀ c ∈ counts, 0 ≤ c) :
    ∃ r : ℝ, Dbg.DD.scoreValue (alphas.map XR.fin) counts v = .ok (XR.fin r) := by
  have hsum : (0 : ℝ) ≤ counts.sum := by exact_mod_cast List.sum_nonneg hc
  have hnp : ∀ l : List ℝ, Dbg.npSum (l.map XR.fin) = XR.fin l.sum := by
    intro l
    induction l with
    | nil => simp [Dbg.npSum]
    | cons a l ih => rw [List.map_cons, Dbg.npSum_cons, ih, XR.fin_add, List.sum_cons]
  lift v to Nat using hv
  have hlt : v < alphas.length := by omega
  have hltc : v < counts.length := by omega
  have ha0 : 0 < alphas.sum := by
    have h1 : alphas[v] ≤ alphas.sum :=
      List.single_le_sum (fun a ha => (hpos a ha).le) _ (List.getElem_mem hlt)
    exact lt_of_lt_of_le (hpos _ (List.getElem_mem hlt)) h1
  have hc0 : (0 : ℝ) ≤ counts[v] := by exact_mod_cast hc _ (List.getElem_mem hltc)
  have ha1 := hpos _ (List.getElem_mem hlt)
  unfold Dbg.DD.scoreValue
  rw [Dbg.npIndex_of _ (by omega) (by omega), Dbg.npIndex_of _ (by omega) (by simpa using hv'),
    hnp]
  simp only [Int.toNat_natCast]
  rw [getAt_of hltc, getAt_of (by simpa using hlt)]
  simp only [Res.ok_bind, List.getElem_map, XR.ofInt_eq, XR.fin_add]
  rw [XR.fin_div _ _ (by positivity), Dbg.pyLog_fin (by positivity)]
  exact ⟨_, rfl⟩

theorem Dbg.DD.scoreLoop_of (as : List XR) (cs : List Int) (h : as.length = cs.length) (x y : XR)
    (ts : List XR) (ht : terms as cs = .ok ts) :
    Dist.DD.scoreLoop as cs x y = .ok (x + npSum ts, y + npSum as) := by
  induction as generalizing cs x y ts with
  | nil =>
    cases cs with
    | nil =>
      simp [terms] at ht; subst ht
      simp [Dist.DD.scoreLoop, npSum, XR.add_zero]
    | cons => simp at h
  | cons a as ih =>
    cases cs with
    | nil => simp at h
    | cons c cs =>
      simp only [terms] at ht
      obtain ⟨xs, hxs, ht⟩ := Res.bind_eq_ok.1 ht
      simp only [Res.pure_eq, Res.ok.injEq] at ht
      subst ht
      rw [Dist.DD.scoreLoop, ih cs (by simpa using h) _ _ xs hxs, npSum_cons, npSum_cons]
      simp only [XR.add_assoc]

theorem C57_dd_score_data (alphas : List XR) (g : DD.Group) (x : XR)
    (hlen : alphas.length = g.counts.length) (hsum : g.countSum = g.counts.sum)
    (h : Dbg.DD.scoreData alphas g.counts = .ok x) : g.scoreData ⟨alphas⟩ = .ok x := by
  unfold Dbg.DD.scoreData at h
  obtain ⟨ts, ht, h⟩ := Res.bind_eq_ok.1 h
  simp only [Res.pure_eq, Res.ok.injEq] at h
  subst h
  simp only [DD.Group.scoreData, Dbg.DD.scoreLoop_of _ _ hlen _ _ ts ht, Res.ok_bind, Res.pure_eq,
    hsum, XR.ofInt_eq, Int.cast_zero, XR.zero_add, XR.sub_eq]
  congr 1; ac_rfl

/-- After a merge the C++ `count_sum` is stale, so `score_data` differs from the reference
though the counts agree: two groups of one observation each, uniform prior. -/
theorem C57_dd_merge_differs :
    ∃ (h : History Int) (g : DD.Group) (p : List Int),
      h.run (DD.api 3 2) = .ok g ∧ h.run (Dbg.DD.api 2) = .ok p ∧ g.counts = p ∧
      g.scoreData ⟨[XR.fin 1, XR.fin 1]⟩ ≠ Dbg.DD.scoreData [XR.fin 1, XR.fin 1] p := by
  refine ⟨(History.init.add 0).merge (.add .init 1), ⟨1, [1, 1]⟩, [1, 1], rfl, rfl, rfl, ?_⟩
  simp only [DD.Group.scoreData, DD.scoreLoop, Dbg.DD.scoreData, Dbg.DD.terms, Res.ok_bind,
    Res.pure_eq, Dbg.npSum, List.foldl_cons, List.foldl_nil, XR.ofInt_eq, XR.fin_add,
    List.sum_cons, List.sum_nil, ne_eq, Res.ok.injEq]
  rw [XR.lgamma_fin (by norm_num), XR.lgamma_fin (by norm_num), XR.lgamma_fin (by norm_num),
    XR.lgamma_fin (by norm_num), XR.lgamma_fin (by norm_num)]
  simp only [XR.fin_sub, XR.fin_add, XR.fin_inj]
  norm_num
  exact (Real.log_lt_log (by norm_num) (by norm_num)).ne

/-! ## Normal-Inverse-ChiSq -/

theorem C57_nich_updates (h : History XR) (g p : NICH.Group XR) (hg : h.run NICH.api = .ok g)
    (hp : h.run Dbg.NICH.api = .ok p) : g = p := by
  refine h.related NICH.api Dbg.NICH.api Eq rfl ?_ ?_ ?_ ?_ g p hg hp
  · rintro g _ v g' p' rfl hA hB
    simp only [NICH.api, Dbg.NICH.api, NICH.Group.addValue, Dbg.NICH.addValue] at hA hB
    obtain ⟨c, hc, hA⟩ := Res.bind_eq_ok.1 hA
    obtain ⟨-, rfl⟩ := i32_eq_ok.1 hc
    obtain ⟨q, hq, hB⟩ := Res.bind_eq_ok.1 hB
    obtain ⟨rfl, -⟩ := Dbg.pyDiv_ok hq
    simp only [Res.pure_eq, Res.ok.injEq] at hA hB
    rw [← hA, ← hB]
  · rintro g _ v g' p' rfl hA hB
    simp only [NICH.api, Dbg.NICH.api, NICH.Group.removeValue, Dbg.NICH.removeValue] at hA hB
    obtain ⟨_, _, hA⟩ := Res.bind_eq_ok.1 hA
    simp only [Res.pure_eq, Res.ok.injEq] at hA hB
    rw [← hA, ← hB]
  · rintro g _ v n g' p' rfl hA hB
    simp only [NICH.api, Dbg.NICH.api, NICH.Group.addRepeatedValue,
      Dbg.NICH.addRepeatedValue] at hA hB
    obtain ⟨c, hc, hA⟩ := Res.bind_eq_ok.1 hA
    obtain ⟨-, rfl⟩ := i32_eq_ok.1 hc
    obtain ⟨q, hq, hB⟩ := Res.bind_eq_ok.1 hB
    obtain ⟨rfl, -⟩ := Dbg.pyDiv_ok hq
    simp only [Res.pure_eq, Res.ok.injEq] at hA hB
    rw [← hA, ← hB]
  · rintro g _ s _ g' p' rfl rfl hA hB
    simp only [NICH.api, Dbg.NICH.api, NICH.Group.merge, Dbg.NICH.merge] at hA hB
    obtain ⟨c, hc, hA⟩ := Res.bind_eq_ok.1 hA
    obtain ⟨-, rfl⟩ := i32_eq_ok.1 hc
    obtain ⟨q, hq, hB⟩ := Res.bind_eq_ok.1 hB
    obtain ⟨rfl, -⟩ := Dbg.pyDiv_ok hq
    simp only [Res.pure_eq, Res.ok.injEq] at hA hB
    rw [← hA, ← hB]
    simp only [NICH.sqr, XR.mul_assoc]

theorem Dbg.NICH.plusGroup_ok {sh post : Dist.NICH.Shared XR} {g : Dist.NICH.Group XR}
    (h : plusGroup sh g = .ok post) : post = sh.plusGroup g := by
  unfold plusGroup at h
  obtain ⟨a, ha, h⟩ := Res.bind_eq_ok.1 h
  obtain ⟨b, hb, h⟩ := Res.bind_eq_ok.1 h
  obtain ⟨c, hc, h⟩ := Res.bind_eq_ok.1 h
  obtain ⟨rfl, -⟩ := Dbg.pyDiv_ok ha
  obtain ⟨rfl, -⟩ := Dbg.pyDiv_ok hb
  obtain ⟨rfl, -⟩ := Dbg.pyDiv_ok hc
  simp only [Res.pure_eq, Res.ok.injEq] at h
  exact h.symm

/-- The Student-t density in the form of the C++ scorer. -/
theorem Dbg.NICH.student_same (mu kappa sigmasq nu v s x : XR)
    (hs : pyDiv ((lit 1 1 + kappa) * sigmasq) kappa = .ok s)
    (h : scoreStudentT v nu mu s = .ok x) :
    (⟨lgammaNu nu + lit 1 2 * log (kappa / ((kappa + lit 1 1) * sigmasq) / (FloatOps.pi * nu)),
      -lit 1 2 * nu - lit 1 2, kappa / ((kappa + lit 1 1) * sigmasq) / nu, mu⟩ :
      Dist.NICH.Scorer XR).eval v = x := by
  unfold scoreStudentT at h
  obtain ⟨l1, hl1, h⟩ := Res.bind_eq_ok.1 h
  obtain ⟨a, ha, h⟩ := Res.bind_eq_ok.1 h
  obtain ⟨q, hq, h⟩ := Res.bind_eq_ok.1 h
  obtain ⟨l2, hl2, h⟩ := Res.bind_eq_ok.1 h
  obtain ⟨rfl, ks⟩ := Dbg.pyDiv_ok hs
  obtain ⟨rfl, kl1⟩ := Dbg.pyLog_ok hl1
  obtain ⟨rfl, ka⟩ := Dbg.pyDiv_ok ha
  obtain ⟨rfl, kq⟩ := Dbg.pyDiv_ok hq
  obtain ⟨rfl, kl2⟩ := Dbg.pyLog_ok hl2
  clear hs hl1 ha hq hl2
  simp only [Res.pure_eq, Res.ok.injEq] at h
  subst h
  simp only [Dist.NICH.Scorer.eval, Dist.NICH.sqr, XR.lit_eq, XR.pi_eq] at *
  cases kappa with
  | nan => simp
  | fin k =>
  cases sigmasq with
  | nan => simp
  | fin t =>
  cases nu with
  | nan => simp
  | fin n =>
  cases mu with
  | nan => simp
  | fin m =>
  cases v with
  | nan => simp
  | fin y =>
  have hk := ks k rfl
  have hn := kq n rfl
  simp only [XR.fin_add, XR.fin_mul, XR.fin_sub, Int.cast_one, Nat.cast_one, div_one,
    XR.fin_div _ _ hk, Nat.cast_ofNat] at ka kl1 kl2 ⊢
  have hS := ka _ rfl
  have h1 := kl1 _ rfl
  rw [XR.fin_div _ _ hS, XR.fin_div _ _ hn] at kl2 ⊢
  simp only [XR.fin_add] at kl2 ⊢
  have h2 := kl2 _ rfl
  have hkt : (1 + k) * t ≠ 0 := by
    intro h0; rw [h0] at hS; simp at hS
  have hkt' : (k + 1) * t ≠ 0 := by rwa [_root_.add_comm k 1]
  have hpi := Real.pi_pos
  rw [XR.fin_div _ _ hkt', XR.fin_div _ _ (by positivity), XR.fin_div _ _ hn]
  simp only [XR.fin_mul, XR.fin_add, XR.fin_neg, XR.fin_sub]
  have e1 : k / ((k + 1) * t) / (Real.pi * n) = (n * Real.pi * ((1 + k) * t / k))⁻¹ := by
    rw [_root_.add_comm k 1]; field_simp
  have e2 : k / ((k + 1) * t) / n * ((y - m) * (y - m)) =
      (y - m) * (y - m) / ((1 + k) * t / k) / n := by
    rw [_root_.add_comm k 1]; field_simp
  rw [e1, e2, XR.log_fin (inv_pos.2 h1), XR.log_fin h1, XR.log_fin h2, Real.log_inv]
  rcases le_or_gt n 0 with hn0 | hn0
  · rw [XR.lgamma_fin_nonpos (a := 1 / 2 * n) (by linarith), XR.lgammaNu_fin_nonpos hn0]
    simp
  · rw [XR.lgamma_fin (by positivity), XR.lgamma_fin (by positivity), XR.lgammaNu_fin hn0]
    simp only [XR.fin_mul, XR.fin_add, XR.fin_neg, XR.fin_sub, XR.fin_inj]
    rw [show n / 2 + 1 / 2 = 1 / 2 * (n + 1) by ring, show n / 2 = 1 / 2 * n by ring]
    ring

theorem C57_nich_score_value (sh : NICH.Shared XR) (g : NICH.Group XR) (v x : XR)
    (h : Dbg.NICH.scoreValue sh g v = .ok x) : g.scoreValue sh v = x := by
  unfold Dbg.NICH.scoreValue at h
  obtain ⟨post, hp, h⟩ := Res.bind_eq_ok.1 h
  obtain ⟨s, hs, h⟩ := Res.bind_eq_ok.1 h
  rw [Dbg.NICH.plusGroup_ok hp] at hs h
  exact Dbg.NICH.student_same _ _ _ _ _ _ _ hs h

theorem C57_nich_score_data (sh : NICH.Shared XR) (g : NICH.Group XR) (x : XR)
    (h : Dbg.NICH.scoreData sh g = .ok x) : g.scoreData sh = x := by
  unfold Dbg.NICH.scoreData at h
  obtain ⟨post, hp, h⟩ := Res.bind_eq_ok.1 h
  obtain ⟨q, hq, h⟩ := Res.bind_eq_ok.1 h
  obtain ⟨l1, h1, h⟩ := Res.bind_eq_ok.1 h
  obtain ⟨l2, h2, h⟩ := Res.bind_eq_ok.1 h
  obtain ⟨l3, h3, h⟩ := Res.bind_eq_ok.1 h
  obtain ⟨rfl, -⟩ := Dbg.pyDiv_ok hq
  obtain ⟨rfl, -⟩ := Dbg.pyLog_ok h1
  obtain ⟨rfl, -⟩ := Dbg.pyLog_ok h2
  obtain ⟨rfl, -⟩ := Dbg.pyLog_ok h3
  simp only [Res.pure_eq, Res.ok.injEq] at h
  rw [Dbg.NICH.plusGroup_ok hp] at h
  subst h
  simp only [NICH.Group.scoreData, XR.lit_eq, XR.sub_eq, XR.ofInt_eq, XR.logPi_eq, XR.neg_mul]
  norm_num
  simp only [XR.div_two, XR.mul_neg, XR.neg_mul, ← XR.fin_mul, ← XR.fin_neg]
  ac_rfl

/-- Positive hyperparameters and the statistics of `n ≥ 0` observations: the reference returns. -/
theorem C57_nich_score_data_defined (mu kappa sigmasq nu m c : ℝ) (n : Int) (hk : 0 < kappa)
    (hs : 0 < sigmasq) (hn : 0 < nu) (h0 : 0 ≤ n) (hc : 0 ≤ c) :
    ∃ r : ℝ, Dbg.NICH.scoreData ⟨XR.fin mu, XR.fin kappa, XR.fin sigmasq, XR.fin nu⟩
      ⟨n, XR.fin m, XR.fin c⟩ = .ok (XR.fin r) := by
  have h0' : (0 : ℝ) ≤ n := by exact_mod_cast h0
  have hsq : 0 ≤ (n : ℝ) * kappa * (mu - m) * (mu - m) := by
    rw [_root_.mul_assoc]; exact mul_nonneg (by positivity) (mul_self_nonneg _)
  have hin : 0 < nu * sigmasq + c + n * kappa * (mu - m) * (mu - m) / (kappa + n) := by positivity
  simp only [Dbg.NICH.scoreData, Dbg.NICH.plusGroup, XR.ofInt_eq, XR.fin_add, XR.fin_mul,
    XR.fin_sub, XR.lit_eq]
  rw [Dbg.pyDiv_fin (by positivity), Res.ok_bind, Dbg.pyDiv_fin (by positivity), Res.ok_bind,
    Dbg.pyDiv_fin (by positivity), Res.ok_bind]
  simp only [XR.fin_add, XR.fin_mul, Res.pure_eq, Res.ok_bind]
  rw [Dbg.pyDiv_fin (by positivity), Res.ok_bind, Dbg.pyLog_fin (by positivity), Res.ok_bind,
    Dbg.pyLog_fin (by positivity), Res.ok_bind, Dbg.pyLog_fin (by positivity), Res.ok_bind,
    XR.fin_div _ _ (by norm_num), XR.fin_div _ _ (by norm_num), XR.fin_div _ _ (by norm_num),
    XR.lgamma_fin (by positivity), XR.lgamma_fin (by positivity)]
  simp only [XR.fin_mul, XR.fin_sub, XR.fin_add, XR.logPi_eq]
  exact ⟨_, rfl⟩

theorem C57_nich_score_value_defined (mu kappa sigmasq nu m c v : ℝ) (n : Int) (hk : 0 < kappa)
    (hs : 0 < sigmasq) (hn : 0 < nu) (h0 : 0 ≤ n) (hc : 0 ≤ c) :
    ∃ r : ℝ, Dbg.NICH.scoreValue ⟨XR.fin mu, XR.fin kappa, XR.fin sigmasq, XR.fin nu⟩
      ⟨n, XR.fin m, XR.fin c⟩ (XR.fin v) = .ok (XR.fin r) := by
  have h0' : (0 : ℝ) ≤ n := by exact_mod_cast h0
  have hsq : 0 ≤ (n : ℝ) * kappa * (mu - m) * (mu - m) := by
    rw [_root_.mul_assoc]; exact mul_nonneg (by positivity) (mul_self_nonneg _)
  have hin : 0 < nu * sigmasq + c + n * kappa * (mu - m) * (mu - m) / (kappa + n) := by positivity
  have hpi := Real.pi_pos
  simp only [Dbg.NICH.scoreValue, Dbg.NICH.plusGroup, XR.ofInt_eq, XR.fin_add, XR.fin_mul,
    XR.fin_sub, XR.lit_eq]
  rw [Dbg.pyDiv_fin (by positivity), Res.ok_bind, Dbg.pyDiv_fin (by positivity), Res.ok_bind,
    Dbg.pyDiv_fin (by positivity), Res.ok_bind]
  simp only [XR.fin_add, XR.fin_mul, Res.pure_eq, Res.ok_bind]
  rw [Dbg.pyDiv_fin (by positivity), Res.ok_bind]
  simp only [Dbg.NICH.scoreStudentT, XR.fin_add, XR.fin_mul, XR.fin_sub, XR.lit_eq, XR.pi_eq]
  rw [XR.lgamma_fin (by positivity), XR.lgamma_fin (by positivity), Dbg.pyLog_fin (by positivity),
    Res.ok_bind, Dbg.pyDiv_fin (by positivity), Res.ok_bind, Dbg.pyDiv_fin (by positivity),
    Res.ok_bind]
  simp only [XR.fin_add]
  rw [Dbg.pyLog_fin]
  · simp only [XR.fin_mul, XR.fin_sub, XR.fin_add, XR.fin_neg, Res.pure_eq, Res.ok_bind]
    exact ⟨_, rfl⟩
  · refine add_pos_of_pos_of_nonneg (by norm_num) ?_
    refine div_nonneg (div_nonneg (mul_self_nonneg _) ?_) ?_ <;> positivity

/-- Adding 1 and 3 and removing 3, in both implementations. -/
example : ∃ g, ((History.init.add (XR.fin 1)).add (XR.fin 3)).run NICH.api = .ok g ∧
    ((History.init.add (XR.fin 1)).add (XR.fin 3)).run Dbg.NICH.api = .ok g := by
  refine ⟨⟨2, XR.fin 2, XR.fin 2⟩, ?_, ?_⟩
  · simp [History.run, NICH.api, NICH.Group.addValue, NICH.Group.init, i32, InInt32,
      int32Min, int32Max, XR.fin_div]
    norm_num
  · simp [History.run, Dbg.NICH.api, Dbg.NICH.addValue, Dbg.NICH.init, Dbg.pyDiv_fin]
    norm_num

/-- **C57, finding.** The Python Dirichlet-Discrete group takes negative values: they count
from the end, so that `-1` is counted as the last value.  (`value` is unsigned in C++.) -/
theorem C57_dd_negative (counts : List Int) (v : Int) (h : v < 0) (h' : -(counts.length : Int) ≤ v) :
    Dbg.DD.addValue counts v = Dbg.DD.addValue counts (counts.length + v) ∧
    Dbg.DD.removeValue counts v = Dbg.DD.removeValue counts (counts.length + v) ∧
    ∃ counts', Dbg.DD.addValue counts v = .ok counts' := by
  have hidx : ∀ {α : Type} (l : List α), l.length = counts.length →
      Dbg.npIndex l v = Dbg.npIndex l (counts.length + v) := by
    intro α l hl
    unfold Dbg.npIndex
    rw [if_neg (by omega), if_pos ⟨by omega, h⟩, if_pos ⟨by omega, by omega⟩, hl]
  have hset : ∀ x, Dbg.npSet counts v x = Dbg.npSet counts (counts.length + v) x := by
    intro x
    unfold Dbg.npSet
    rw [if_neg (by omega), if_pos ⟨by omega, h⟩, if_pos ⟨by omega, by omega⟩]
  refine ⟨?_, ?_, ?_⟩
  · unfold Dbg.DD.addValue; rw [hidx counts rfl]; simp only [hset]
  · unfold Dbg.DD.removeValue; rw [hidx counts rfl]; simp only [hset]
  · unfold Dbg.DD.addValue
    rw [hidx counts rfl]
    have hlt : ((counts.length : Int) + v).toNat < counts.length := by omega
    unfold Dbg.npIndex
    rw [if_pos ⟨by omega, by omega⟩, getAt_of hlt, Res.ok_bind, hset, Dbg.npSet,
      if_pos ⟨by omega, by omega⟩, setAt_of hlt]
    exact ⟨_, rfl⟩

example : Dbg.DD.addValue [0, 0, 5] (-1) = .ok [0, 0, 6] := by decide

end Dist
