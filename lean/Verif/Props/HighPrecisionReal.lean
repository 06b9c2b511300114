import Verif.Props.HighPrecision

/-! # C61 for Gamma-Poisson and Normal-Inverse-ChiSq -/

namespace Dist

open FloatOps FloatNotation Spec

/-! ## Gamma-Poisson -/

/-- The same statistics; the C++ counters are the Cython ones modulo `2^32`. -/
def Hp.GP.Same {F : Type} (g : Dist.GP.Group F) (p : Group F) : Prop :=
  g.count = UInt32.ofInt p.count ∧ g.sum = UInt32.ofInt p.sum ∧ g.logProd = p.logProd ∧
    InInt32 p.count ∧ InInt32 p.sum

theorem Hp.GP.fact (v : UInt32) (h : InInt32 (v.toNat : Int)) :
    (Hp.logFactorial (UInt32.ofInt (v.toNat : Int)) : XR) = Dist.GP.logFact v := by
  rw [u32_ofInt_toNat, Hp.logFactorial_eq _ (by unfold InInt32 int32Min int32Max at h; omega)]
  rfl

theorem C61_gp_updates (h : History UInt32) (g : GP.Group XR) (p : Hp.GP.Group XR)
    (hg : h.run GP.api = .ok g) (hp : h.run Hp.GP.api = .ok p) : Hp.GP.Same g p := by
  refine h.related GP.api Hp.GP.api Hp.GP.Same ⟨rfl, rfl, rfl, by decide, by decide⟩
    ?_ ?_ ?_ ?_ g p hg hp
  · rintro g p v g' p' ⟨h1, h2, h3, -, -⟩ hA hB
    simp only [GP.api, Hp.GP.api, Hp.GP.Group.addValue, Res.bind_eq_ok, Res.pure_eq,
      Res.ok.injEq] at hA hB
    obtain ⟨w, hw, n, hn, m, hm, rfl⟩ := hB
    obtain ⟨hv, rfl⟩ := Hp.cInt_eq_ok.1 hw
    obtain ⟨hn1, rfl⟩ := i32_eq_ok.1 hn
    obtain ⟨hm1, rfl⟩ := i32_eq_ok.1 hm
    subst hA
    refine ⟨?_, ?_, ?_, hn1, hm1⟩ <;>
      simp [GP.Group.addValue, h1, h2, h3, UInt32.ofInt_add, u32_ofInt_toNat, Hp.GP.fact v hv]
    rw [← Hp.GP.fact v hv, u32_ofInt_toNat]
  · rintro g p v g' p' ⟨h1, h2, h3, -, -⟩ hA hB
    simp only [GP.api, Hp.GP.api, Hp.GP.Group.removeValue, Res.bind_eq_ok, Res.pure_eq,
      Res.ok.injEq] at hA hB
    obtain ⟨w, hw, n, hn, m, hm, rfl⟩ := hB
    obtain ⟨hv, rfl⟩ := Hp.cInt_eq_ok.1 hw
    obtain ⟨hn1, rfl⟩ := i32_eq_ok.1 hn
    obtain ⟨hm1, rfl⟩ := i32_eq_ok.1 hm
    subst hA
    refine ⟨?_, ?_, ?_, hn1, hm1⟩ <;>
      simp [GP.Group.removeValue, h1, h2, h3, u32_ofInt_sub, u32_ofInt_toNat]
    rw [← Hp.GP.fact v hv, u32_ofInt_toNat]
  · rintro g p v k g' p' ⟨h1, h2, h3, -, -⟩ hA hB
    simp only [GP.api, Hp.GP.api, Hp.GP.Group.addRepeatedValue, Res.bind_eq_ok, Res.pure_eq,
      Res.ok.injEq] at hA hB
    obtain ⟨w, hw, k', hk, n, hn, q, hq, m, hm, rfl⟩ := hB
    obtain ⟨hv, rfl⟩ := Hp.cInt_eq_ok.1 hw
    obtain ⟨-, rfl⟩ := Hp.cInt_eq_ok.1 hk
    obtain ⟨hn1, rfl⟩ := i32_eq_ok.1 hn
    obtain ⟨-, rfl⟩ := i32_eq_ok.1 hq
    obtain ⟨hm1, rfl⟩ := i32_eq_ok.1 hm
    subst hA
    refine ⟨?_, ?_, ?_, hn1, hm1⟩ <;>
      simp [GP.Group.addRepeatedValue, h1, h2, h3, UInt32.ofInt_add, UInt32.ofInt_mul,
        u32_ofInt_toNat]
    rw [← Hp.GP.fact v hv, u32_ofInt_toNat]
  · rintro g p s t g' p' ⟨h1, h2, h3, -, -⟩ ⟨h4, h5, h6, -, -⟩ hA hB
    simp only [GP.api, Hp.GP.api, Hp.GP.Group.merge, Res.bind_eq_ok, Res.pure_eq,
      Res.ok.injEq] at hA hB
    obtain ⟨n, hn, m, hm, rfl⟩ := hB
    obtain ⟨hn1, rfl⟩ := i32_eq_ok.1 hn
    obtain ⟨hm1, rfl⟩ := i32_eq_ok.1 hm
    subst hA
    refine ⟨?_, ?_, ?_, hn1, hm1⟩ <;>
      simp [GP.Group.merge, h1, h2, h3, h4, h5, h6, UInt32.ofInt_add]

example : ∃ p, ((History.init.add 3).repeated 2 4).run (Hp.GP.api : GroupApi (Hp.GP.Group XR) _) =
    .ok p ∧ p.count = 5 ∧ p.sum = 11 := ⟨_, rfl, rfl, rfl⟩

theorem Hp.GP.plusGroup_same {F : Type} [FloatOps F] (sh : Dist.GP.Shared F)
    (g : Dist.GP.Group F) (p : Group F) (hs : Same g p) (h1 : 0 ≤ p.count) (h3 : 0 ≤ p.sum) :
    sh.plusGroup g = plusGroup sh p := by
  obtain ⟨e1, e2, -, e4, e5⟩ := hs
  unfold InInt32 int32Min int32Max at e4 e5
  simp only [GP.Shared.plusGroup, plusGroup, GP.u32, e1, e2, u32_toNat_ofInt h1 (by omega),
    u32_toNat_ofInt h3 (by omega)]

/-- `score_value`, whatever the hyperparameters. -/
theorem C61_gp_score_value (sh : GP.Shared XR) (g : GP.Group XR) (p : Hp.GP.Group XR) (v : UInt32)
    (hs : Hp.GP.Same g p) (h1 : 0 ≤ p.count) (h3 : 0 ≤ p.sum) (hv : InInt32 (v.toNat : Int)) :
    p.scoreValue sh v.toNat = .ok (g.scoreValue sh v) := by
  unfold Hp.GP.Group.scoreValue
  rw [Hp.cInt_of hv, Res.ok_bind]
  simp only [Hp.GP.fact v hv, Res.pure_eq, Res.ok.injEq, GP.Group.scoreValue, GP.Scorer.init,
    GP.Scorer.eval, Hp.GP.plusGroup_same sh g p hs h1 h3, GP.u32, XR.sub_eq, XR.neg_add,
    XR.mul_add, XR.add_mul, XR.neg_mul, XR.mul_neg]
  rw [XR.mul_comm (ofInt ((v.toNat : Int))) (log _)]
  ac_rfl

/-- `score_data`, whatever the hyperparameters. -/
theorem C61_gp_score_data (sh : GP.Shared XR) (g : GP.Group XR) (p : Hp.GP.Group XR)
    (hs : Hp.GP.Same g p) (h1 : 0 ≤ p.count) (h3 : 0 ≤ p.sum) :
    p.scoreData sh = g.scoreData sh := by
  simp only [Hp.GP.Group.scoreData, GP.Group.scoreData, Hp.GP.plusGroup_same sh g p hs h1 h3,
    hs.2.2.1, XR.sub_eq]
  ac_rfl

/-- `sample_value` makes the same draws. -/
theorem C61_gp_sample_value {σ : Type} (rng : Rng XR σ) (s : σ) (a b : ℝ) (hb : 0 < b)
    (g : GP.Group XR) (p : Hp.GP.Group XR) (hs : Hp.GP.Same g p) (h1 : 0 ≤ p.count)
    (h3 : 0 ≤ p.sum) :
    p.sampleValue rng s ⟨XR.fin a, XR.fin b⟩ = .ok (g.sampleValue rng s ⟨XR.fin a, XR.fin b⟩) := by
  have hc : (0 : ℝ) ≤ p.count := by exact_mod_cast h1
  unfold Hp.GP.Group.sampleValue Hp.GP.samplerInit GP.Group.sampleValue
  rw [Hp.GP.plusGroup_same _ g p hs h1 h3]
  simp only [Hp.GP.plusGroup, XR.ofInt_eq, XR.fin_add, XR.lit_eq]
  rw [Hp.cyDiv_eq, Dbg.pyDiv_fin (by positivity), XR.fin_div _ _ (by positivity)]
  rfl

/-- One observation of 3. -/
example : ∃ p : Hp.GP.Group XR, Hp.GP.Group.init.addValue 3 = .ok p ∧
    Hp.GP.Same (GP.Group.init.addValue 3) p ∧ 0 ≤ p.count ∧ 0 ≤ p.sum := by
  refine ⟨_, rfl, C61_gp_updates (History.init.add 3) _ _ rfl rfl, by decide, by decide⟩

/-- With a zero rate the Cython sampler raises where the C++ one divides by zero. -/
theorem C61_gp_sample_zero_rate {σ : Type} (rng : Rng XR σ) (s : σ) (a : XR) :
    Hp.GP.Group.init.sampleValue rng s ⟨a, XR.fin 0⟩ = .fail := by
  unfold Hp.GP.Group.sampleValue Hp.GP.samplerInit Hp.cyDiv
  rw [if_pos (by simp [Hp.GP.plusGroup, Hp.GP.Group.init, Dbg.eqf_fin])]
  rfl

/-- Values above the range of `int` that C++ accepts raise. -/
theorem C61_gp_large_value (g : Hp.GP.Group XR) (v : UInt32) (h : 2147483647 < v.toNat) :
    g.addValue v.toNat = .fail := by
  unfold Hp.GP.Group.addValue Hp.cInt
  rw [if_neg (by unfold InInt32 int32Min int32Max; omega)]
  rfl

example : 2147483647 < (3000000000 : UInt32).toNat := by decide

/-! ## Normal-Inverse-ChiSq -/

/-- The same statistics, of a number of observations the C++ `int` can hold. -/
def Hp.NICH.Same {F : Type} (g : Dist.NICH.Group F) (p : Group F) : Prop :=
  p.count = UInt64.ofInt g.count ∧ p.mean = g.mean ∧
    p.countTimesVariance = g.countTimesVariance ∧ 0 ≤ g.count ∧ InInt32 g.count

theorem Hp.NICH.u64_ofInt {F : Type} [FloatOps F] {n : Int} (h : 0 ≤ n) (h' : InInt32 n) :
    (u64 (UInt64.ofInt n) : F) = ofInt n := by
  unfold u64
  unfold InInt32 int32Min int32Max at h'
  rw [Hp.u64_toNat_ofInt h (by omega)]

theorem C61_nich_updates (h : History XR) (hc : h.Counts (0 ≤ ·)) (g : NICH.Group XR)
    (p : Hp.NICH.Group XR) (hg : h.run NICH.api = .ok g) (hp : h.run Hp.NICH.api = .ok p) :
    Hp.NICH.Same g p := by
  refine h.related_counts NICH.api Hp.NICH.api (0 ≤ ·) Hp.NICH.Same
    ⟨rfl, rfl, rfl, le_rfl, by decide⟩ ?_ ?_ ?_ ?_ hc g p hg hp
  · rintro g ⟨pc, pm, pv⟩ v g' p' ⟨h1, h2, h3, h4, h5⟩ hA hB
    simp only at h1 h2 h3
    subst h1 h2 h3
    simp only [NICH.api, Hp.NICH.api, NICH.Group.addValue, Hp.NICH.Group.addValue] at hA hB
    obtain ⟨c, hc, hA⟩ := Res.bind_eq_ok.1 hA
    obtain ⟨hi, rfl⟩ := i32_eq_ok.1 hc
    have e : UInt64.ofInt g.count + 1 = UInt64.ofInt (g.count + 1) := by
      rw [UInt64.ofInt_add]; rfl
    rw [e, Hp.NICH.u64_ofInt (by omega) hi] at hB
    obtain ⟨q, hq, hB⟩ := Res.bind_eq_ok.1 hB
    obtain ⟨rfl, -⟩ := Dbg.pyDiv_ok hq
    simp only [Res.pure_eq, Res.ok.injEq] at hA hB
    rw [← hA, ← hB]
    exact ⟨rfl, rfl, rfl, by show 0 ≤ g.count + 1; omega, hi⟩
  · rintro g ⟨pc, pm, pv⟩ v g' p' ⟨h1, h2, h3, h4, h5⟩ hA hB
    simp only at h1 h2 h3
    subst h1 h2 h3
    simp only [NICH.api, Hp.NICH.api, NICH.Group.removeValue, Hp.NICH.Group.removeValue] at hA hB
    obtain ⟨_, hpos, hA⟩ := Res.bind_eq_ok.1 hA
    have hpos : 0 < g.count := (distAssert_eq_ok.1 hpos) (by decide)
    have hi : InInt32 (g.count - 1) := by
      unfold InInt32 int32Min int32Max at h5 ⊢; omega
    have e : UInt64.ofInt g.count - 1 = UInt64.ofInt (g.count - 1) := by
      rw [Hp.u64_ofInt_sub]; rfl
    have hn : ((UInt64.ofInt (g.count - 1)).toNat : Int) = g.count - 1 := by
      unfold InInt32 int32Min int32Max at hi
      exact Hp.u64_toNat_ofInt (by omega) (by omega)
    have e0 : (UInt64.ofInt (g.count - 1) = 0) = (g.count - 1 = 0) := by
      rw [← UInt64.toNat_inj, eq_iff_iff, UInt64.toNat_zero]; omega
    have e1 : (UInt64.ofInt (g.count - 1) ≤ 1) = (g.count - 1 ≤ 1) := by
      rw [UInt64.le_iff_toNat_le, eq_iff_iff, UInt64.toNat_one]; omega
    simp only [e, e0, e1, Hp.NICH.u64_ofInt (F := XR) h4 h5,
      Hp.NICH.u64_ofInt (F := XR) (show 0 ≤ g.count - 1 by omega) hi] at hB
    simp only [Res.pure_eq, Res.ok.injEq] at hA hB
    rw [← hA, ← hB]
    exact ⟨rfl, rfl, rfl, by show 0 ≤ g.count - 1; omega, hi⟩
  · rintro g ⟨pc, pm, pv⟩ v n g' p' ⟨h1, h2, h3, h4, h5⟩ hn hA hB
    simp only at h1 h2 h3
    subst h1 h2 h3
    simp only [NICH.api, Hp.NICH.api, NICH.Group.addRepeatedValue,
      Hp.NICH.Group.addRepeatedValue] at hA hB
    obtain ⟨c, hc, hA⟩ := Res.bind_eq_ok.1 hA
    obtain ⟨hi, rfl⟩ := i32_eq_ok.1 hc
    obtain ⟨n', hn', hB⟩ := Res.bind_eq_ok.1 hB
    obtain ⟨-, rfl⟩ := Hp.cInt_eq_ok.1 hn'
    rw [← UInt64.ofInt_add, Hp.NICH.u64_ofInt (by omega) hi] at hB
    obtain ⟨q, hq, hB⟩ := Res.bind_eq_ok.1 hB
    obtain ⟨rfl, -⟩ := Dbg.pyDiv_ok hq
    simp only [Res.pure_eq, Res.ok.injEq] at hA hB
    rw [← hA, ← hB]
    exact ⟨rfl, rfl, rfl, by show 0 ≤ g.count + n; omega, hi⟩
  · rintro g ⟨pc, pm, pv⟩ s ⟨tc, tm, tv⟩ g' p' ⟨h1, h2, h3, h4, h5⟩ ⟨k1, k2, k3, k4, k5⟩ hA hB
    simp only at h1 h2 h3 k1 k2 k3
    subst h1 h2 h3 k1 k2 k3
    simp only [NICH.api, Hp.NICH.api, NICH.Group.merge, Hp.NICH.Group.merge] at hA hB
    obtain ⟨c, hc, hA⟩ := Res.bind_eq_ok.1 hA
    obtain ⟨hi, rfl⟩ := i32_eq_ok.1 hc
    rw [← UInt64.ofInt_add, Hp.NICH.u64_ofInt (by omega) hi, Hp.NICH.u64_ofInt k4 k5] at hB
    obtain ⟨q, hq, hB⟩ := Res.bind_eq_ok.1 hB
    obtain ⟨rfl, -⟩ := Dbg.pyDiv_ok hq
    simp only [Res.pure_eq, Res.ok.injEq] at hA hB
    rw [← hA, ← hB]
    refine ⟨rfl, rfl, ?_, by show 0 ≤ g.count + s.count; omega, hi⟩
    simp only [NICH.sqr, XR.mul_assoc, Hp.NICH.u64_ofInt (F := XR) h4 h5]

/-- Removing from an empty group: the Cython count wraps around, C++ raises. -/
theorem C61_nich_remove_empty (v : XR) :
    ((Hp.NICH.Group.init : Hp.NICH.Group XR).removeValue v).count.toNat = 2 ^ 64 - 1 ∧
    (NICH.Group.init : NICH.Group XR).removeValue v = .fail := by
  constructor <;> rfl

/-- Merging two empty groups: the Cython method raises, C++ makes a group that is not a number. -/
theorem C61_nich_merge_empty :
    (Hp.NICH.Group.init : Hp.NICH.Group XR).merge .init = .fail ∧
    (NICH.Group.init : NICH.Group XR).merge .init = .ok ⟨0, .nan, .nan⟩ := by
  constructor
  · simp [Hp.NICH.Group.merge, Hp.cyDiv, Hp.NICH.Group.init, Hp.NICH.u64, Dbg.eqf_fin]
  · unfold NICH.Group.merge
    simp [NICH.Group.init, i32, InInt32, int32Min, int32Max]

theorem Hp.NICH.plusGroup_same (sh : Dist.NICH.Shared XR) (g : Dist.NICH.Group XR) (p : Group XR)
    (hs : Same g p) : plusGroup sh p = Dbg.NICH.plusGroup sh g := by
  obtain ⟨h1, h2, h3, h4, h5⟩ := hs
  obtain ⟨pc, pm, pv⟩ := p
  simp only at h1 h2 h3
  subst h1 h2 h3
  simp only [plusGroup, Dbg.NICH.plusGroup, Hp.NICH.u64_ofInt (F := XR) h4 h5]
  rfl

theorem Hp.NICH.student_of (x nu mu sigmasq y : XR)
    (h : Dbg.NICH.scoreStudentT x nu mu sigmasq = .ok y) : scoreStudentT x nu mu sigmasq = y := by
  unfold Dbg.NICH.scoreStudentT at h
  obtain ⟨l1, hl1, h⟩ := Res.bind_eq_ok.1 h
  obtain ⟨a, ha, h⟩ := Res.bind_eq_ok.1 h
  obtain ⟨q, hq, h⟩ := Res.bind_eq_ok.1 h
  obtain ⟨l2, hl2, h⟩ := Res.bind_eq_ok.1 h
  obtain ⟨rfl, -⟩ := Dbg.pyLog_ok hl1
  obtain ⟨rfl, -⟩ := Dbg.pyLog_ok hl2
  simp only [Res.pure_eq, Res.ok.injEq] at h
  subst h
  simp only [scoreStudentT, studentBody, Hp.cyDiv_eq, ha, hq, Res.ok_bind, Res.pure_eq]
  simp only [XR.sub_eq, XR.neg_add]
  ac_rfl

/-- `score_value` of the three implementations, for positive hyperparameters. -/
theorem C61_nich_score_value (mu kappa sigmasq nu m c v : ℝ) (n : Int) (p : Hp.NICH.Group XR)
    (hk : 0 < kappa) (hs : 0 < sigmasq) (hn : 0 < nu) (hc : 0 ≤ c)
    (hp : Hp.NICH.Same ⟨n, XR.fin m, XR.fin c⟩ p) :
    ∃ r : ℝ,
      p.scoreValue ⟨XR.fin mu, XR.fin kappa, XR.fin sigmasq, XR.fin nu⟩ (XR.fin v) =
        .ok (XR.fin r) ∧
      NICH.Group.scoreValue ⟨XR.fin mu, XR.fin kappa, XR.fin sigmasq, XR.fin nu⟩
        ⟨n, XR.fin m, XR.fin c⟩ (XR.fin v) = XR.fin r ∧
      Dbg.NICH.scoreValue ⟨XR.fin mu, XR.fin kappa, XR.fin sigmasq, XR.fin nu⟩
        ⟨n, XR.fin m, XR.fin c⟩ (XR.fin v) = .ok (XR.fin r) := by
  obtain ⟨r, hr⟩ := C57_nich_score_value_defined mu kappa sigmasq nu m c v n hk hs hn hp.2.2.2.1 hc
  refine ⟨r, ?_, C57_nich_score_value _ _ _ _ hr, hr⟩
  unfold Dbg.NICH.scoreValue at hr
  obtain ⟨post, h1, hr⟩ := Res.bind_eq_ok.1 hr
  obtain ⟨q, h2, hr⟩ := Res.bind_eq_ok.1 hr
  unfold Hp.NICH.Group.scoreValue
  rw [Hp.NICH.plusGroup_same _ _ _ hp, h1, Res.ok_bind, Hp.cyDiv_eq, h2, Res.ok_bind,
    Hp.NICH.student_of _ _ _ _ _ hr]
  rfl

/-- `score_data` of the three implementations, for positive hyperparameters. -/
theorem C61_nich_score_data (mu kappa sigmasq nu m c : ℝ) (n : Int) (p : Hp.NICH.Group XR)
    (hk : 0 < kappa) (hs : 0 < sigmasq) (hn : 0 < nu) (hc : 0 ≤ c)
    (hp : Hp.NICH.Same ⟨n, XR.fin m, XR.fin c⟩ p) :
    ∃ r : ℝ,
      p.scoreData ⟨XR.fin mu, XR.fin kappa, XR.fin sigmasq, XR.fin nu⟩ = .ok (XR.fin r) ∧
      NICH.Group.scoreData ⟨XR.fin mu, XR.fin kappa, XR.fin sigmasq, XR.fin nu⟩
        ⟨n, XR.fin m, XR.fin c⟩ = XR.fin r ∧
      Dbg.NICH.scoreData ⟨XR.fin mu, XR.fin kappa, XR.fin sigmasq, XR.fin nu⟩
        ⟨n, XR.fin m, XR.fin c⟩ = .ok (XR.fin r) := by
  obtain ⟨r, hr⟩ := C57_nich_score_data_defined mu kappa sigmasq nu m c n hk hs hn hp.2.2.2.1 hc
  refine ⟨r, ?_, C57_nich_score_data _ _ _ hr, hr⟩
  unfold Dbg.NICH.scoreData at hr
  obtain ⟨post, h1, hr⟩ := Res.bind_eq_ok.1 hr
  obtain ⟨q, h2, hr⟩ := Res.bind_eq_ok.1 hr
  obtain ⟨l1, h3, hr⟩ := Res.bind_eq_ok.1 hr
  obtain ⟨l2, h4, hr⟩ := Res.bind_eq_ok.1 hr
  obtain ⟨l3, h5, hr⟩ := Res.bind_eq_ok.1 hr
  obtain ⟨rfl, -⟩ := Dbg.pyLog_ok h3
  obtain ⟨rfl, -⟩ := Dbg.pyLog_ok h4
  obtain ⟨rfl, -⟩ := Dbg.pyLog_ok h5
  unfold Hp.NICH.Group.scoreData
  rw [Hp.NICH.plusGroup_same _ _ _ hp, h1, Res.ok_bind, Hp.cyDiv_eq, h2, Res.ok_bind, ← hr,
    hp.1, Hp.NICH.u64_ofInt hp.2.2.2.1 hp.2.2.2.2]

/-- A zero prior variance: the error raised inside the Cython density function is swallowed and
the score is reported as 0 (probability one), where the reference raises and C++ returns nan. -/
theorem C61_nich_swallowed_error (v : ℝ) :
    (Hp.NICH.Group.init : Hp.NICH.Group XR).scoreValue ⟨XR.fin 0, XR.fin 1, XR.fin 0, XR.fin 1⟩
      (XR.fin v) = .ok (XR.fin 0) ∧
    Dbg.NICH.scoreValue ⟨XR.fin 0, XR.fin 1, XR.fin 0, XR.fin 1⟩ Dbg.NICH.init (XR.fin v) =
      .fail ∧
    NICH.Group.scoreValue ⟨XR.fin 0, XR.fin 1, XR.fin 0, XR.fin 1⟩ .init (XR.fin v) = .nan := by
  refine ⟨?_, ?_, ?_⟩
  · simp [Hp.NICH.Group.scoreValue, Hp.NICH.plusGroup, Hp.NICH.Group.init, Hp.NICH.u64,
      Hp.cyDiv_eq, Dbg.pyDiv_fin, Hp.NICH.scoreStudentT, Hp.NICH.studentBody, Dbg.pyDiv,
      Dbg.eqf_fin, XR.fin_div]
  · simp [Dbg.NICH.scoreValue, Dbg.NICH.plusGroup, Dbg.NICH.init, Dbg.NICH.scoreStudentT,
      Dbg.pyDiv, Dbg.eqf_fin, XR.fin_div, Dbg.pyLog]
  · simp [NICH.Group.scoreValue, NICH.Scorer.init, NICH.Scorer.eval, NICH.Shared.plusGroup,
      NICH.Group.init, XR.fin_div]

/-- Where the Cython sampler returns, it made the draws of the C++ one. -/
theorem C61_nich_sample_value {σ : Type} (rng : Rng XR σ) (s : σ) (sh : NICH.Shared XR)
    (g : NICH.Group XR) (p : Hp.NICH.Group XR) (hp : Hp.NICH.Same g p) (y : XR × σ)
    (h : p.sampleValue rng s sh = .ok y) : g.sampleValue rng s sh = y := by
  unfold Hp.NICH.Group.sampleValue at h
  obtain ⟨post, h1, h⟩ := Res.bind_eq_ok.1 h
  rw [Hp.NICH.plusGroup_same _ _ _ hp] at h1
  obtain ⟨⟨⟨mu, sg⟩, s'⟩, h2, h⟩ := Res.bind_eq_ok.1 h
  unfold Hp.NICH.samplerInit at h2
  obtain ⟨q, h3, h2⟩ := Res.bind_eq_ok.1 h2
  obtain ⟨w, h4, h2⟩ := Res.bind_eq_ok.1 h2
  obtain ⟨rfl, -⟩ := Dbg.pyDiv_ok h3
  obtain ⟨rfl, -⟩ := Dbg.pyDiv_ok h4
  have e := Dbg.NICH.plusGroup_ok h1
  subst e
  simp only [Res.pure_eq, Res.ok.injEq, Prod.mk.injEq, Hp.sampleNormal] at h2 h
  obtain ⟨⟨rfl, rfl⟩, rfl⟩ := h2
  exact Res.ok.inj h

/-- And it returns unless the chi-squared draw is exactly zero. -/
theorem C61_nich_sample_value_defined {σ : Type} (rng : Rng XR σ) (s : σ)
    (mu kappa sigmasq nu m c d : ℝ) (n : Int) (p : Hp.NICH.Group XR) (hk : 0 < kappa) (hn : 0 < nu)
    (hp : Hp.NICH.Same ⟨n, XR.fin m, XR.fin c⟩ p)
    (hd : (rng.chisq s (XR.fin (nu + n))).1 = XR.fin d) (hd0 : d ≠ 0) :
    ∃ y, p.sampleValue rng s ⟨XR.fin mu, XR.fin kappa, XR.fin sigmasq, XR.fin nu⟩ = .ok y := by
  have h0 : (0 : ℝ) ≤ n := by exact_mod_cast hp.2.2.2.1
  unfold Hp.NICH.Group.sampleValue
  rw [Hp.NICH.plusGroup_same _ _ _ hp]
  simp only [Dbg.NICH.plusGroup, XR.ofInt_eq, XR.fin_add, XR.fin_mul, XR.fin_sub, XR.lit_eq]
  rw [Dbg.pyDiv_fin (by positivity), Res.ok_bind, Dbg.pyDiv_fin (by positivity), Res.ok_bind,
    Dbg.pyDiv_fin (by positivity), Res.ok_bind]
  simp only [Res.pure_eq, Res.ok_bind, XR.fin_add, XR.fin_mul, Hp.NICH.samplerInit, hd,
    Hp.cyDiv_eq, Dbg.pyDiv_fin hd0]
  rw [Dbg.pyDiv_fin (by positivity)]
  exact ⟨_, rfl⟩

/-- The observations 1 and 3. -/
example : ∃ g p, ((History.init.add (XR.fin 1)).add (XR.fin 3)).run NICH.api = .ok g ∧
    ((History.init.add (XR.fin 1)).add (XR.fin 3)).run Hp.NICH.api = .ok p ∧
    Hp.NICH.Same g p ∧ g.count = 2 := by
  refine ⟨⟨2, XR.fin 2, XR.fin 2⟩, ⟨2, XR.fin 2, XR.fin 2⟩, ?_, ?_, ?_, rfl⟩
  · simp [History.run, NICH.api, NICH.Group.addValue, NICH.Group.init, i32, InInt32,
      int32Min, int32Max, XR.fin_div]
    norm_num
  · simp [History.run, Hp.NICH.api, Hp.NICH.Group.addValue, Hp.NICH.Group.init, Hp.cyDiv_eq,
      Hp.NICH.u64, Dbg.pyDiv_fin]
    norm_num
  · exact ⟨rfl, rfl, rfl, by decide, by decide⟩

end Dist
