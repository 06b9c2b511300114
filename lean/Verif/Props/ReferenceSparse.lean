import Mathlib.Tactic.FieldSimp
import Mathlib.Tactic.Positivity
import Mathlib.Tactic.Linarith
import Mathlib.Algebra.BigOperators.Group.List.Basic
import Verif.Lemmas.Reference
import Verif.Model.GroupApi

/-!
# C57, continued: Dirichlet-Process-Discrete, Normal-Inverse-Wishart, low entropy
-/

namespace Dist

open FloatOps FloatNotation Spec

/-! ## Dirichlet-Process-Discrete -/

/-- The two groups hold the same table and total. -/
def Dbg.DPD.Same (g : Dist.DPD.Group) (p : Group) : Prop :=
  g.map = p.counts ∧ g.total = some p.total

namespace Dbg.DPD

variable {F : Type} [FloatOps F]

theorem repeated_same {g : SparseCounter UInt32} {p p' : Group} {betas : FMap UInt32 F}
    {v : UInt32} {n : Int} {r : Int × SparseCounter UInt32}
    (hs : Same g p) (hA : SparseCounter.add g v n = .ok r)
    (hB : p.addRepeatedValue betas v n = .ok p') : Same r.2 p' := by
  obtain ⟨h1, h2⟩ := hs
  obtain ⟨m, t⟩ := g
  obtain ⟨m', t'⟩ := p
  simp only at h1 h2
  subst h1 h2
  unfold Group.addRepeatedValue at hB
  split_ifs at hB with h3 h4 h5
  · subst h5
    simp only [SparseCounter.add, ne_eq, not_true_eq_false, if_false, Res.pure_eq,
      Res.ok.injEq] at hA hB
    subst hA hB; exact ⟨rfl, rfl⟩
  · simp only [SparseCounter.add, ne_eq, h5, not_false_eq_true, if_true, SparseCounter.bumpTotal]
      at hA
    obtain ⟨t, ht, hA⟩ := Res.bind_eq_ok.1 hA
    obtain ⟨-, rfl⟩ := i32_eq_ok.1 ht
    cases hl : m.lookup v with
    | none =>
      simp only [hl, Res.pure_eq, Res.ok.injEq] at hA hB
      subst hA hB; exact ⟨rfl, rfl⟩
    | some c =>
      simp only [hl, ne_eq] at hA hB
      obtain ⟨w, hw, hA⟩ := Res.bind_eq_ok.1 hA
      obtain ⟨-, rfl⟩ := i32_eq_ok.1 hw
      rw [Int.add_comm c n] at hA
      by_cases h0 : n + c = 0
      · simp only [h0, if_true, not_true_eq_false, if_false, Res.pure_eq, Res.ok.injEq] at hA hB
        subst hA hB; exact ⟨rfl, rfl⟩
      · simp only [h0, if_false, not_false_eq_true, if_true, Res.pure_eq, Res.ok.injEq] at hA hB
        subst hA hB; exact ⟨rfl, rfl⟩

theorem mergeLoop_same {g g' : SparseCounter UInt32} {p p' : Group} {betas : FMap UInt32 F}
    {es : List (UInt32 × Int)} (hs : Same g p) (hA : SparseCounter.mergeLoop g es = .ok g')
    (hB : mergeLoop betas es p = .ok p') : Same g' p' := by
  induction es generalizing g p with
  | nil =>
    simp only [SparseCounter.mergeLoop, mergeLoop, Res.ok.injEq] at hA hB
    subst hA hB; exact hs
  | cons e es ih =>
    simp only [SparseCounter.mergeLoop, mergeLoop] at hA hB
    obtain ⟨r, hr, hA⟩ := Res.bind_eq_ok.1 hA
    obtain ⟨q, hq, hB⟩ := Res.bind_eq_ok.1 hB
    exact ih (repeated_same hs hr hq) hA hB

/-- No zero entries. -/
def NoZero (m : FMap UInt32 Int) : Prop := ∀ k, m.lookup k ≠ some 0

/-- The count of a value. -/
def cnt (m : FMap UInt32 Int) (k : UInt32) : Int := (m.lookup k).getD 0

theorem ext_cnt {m n : FMap UInt32 Int} (hm : NoZero m) (hn : NoZero n)
    (h : ∀ k, cnt m k = cnt n k) : m = n := by
  apply FMap.ext
  intro k
  have := h k
  unfold cnt at this
  have h1 := hm k
  have h2 := hn k
  cases hmk : m.lookup k <;> cases hnk : n.lookup k <;> simp_all

theorem repeated_spec {p p' : Group} {betas : FMap UInt32 F} {v : UInt32} {n : Int}
    (hz : NoZero p.counts) (h : p.addRepeatedValue betas v n = .ok p') :
    NoZero p'.counts ∧ p'.total = p.total + n ∧
      ∀ k, cnt p'.counts k = cnt p.counts k + if k = v then n else 0 := by
  unfold Group.addRepeatedValue at h
  split_ifs at h with h3 h4 h5
  · subst h5
    simp only [Res.ok.injEq] at h
    subst h
    exact ⟨hz, by simp, by simp⟩
  · cases hl : p.counts.lookup v with
    | none =>
      simp only [hl, Res.ok.injEq] at h
      subst h
      refine ⟨?_, rfl, ?_⟩
      · intro k; simp only [FMap.lookup_set]; split_ifs
        · simpa using h5
        · exact hz k
      · intro k; simp only [cnt, FMap.lookup_set]; split_ifs with hk
        · subst hk; simp [hl]
        · simp
    | some c =>
      simp only [hl, ne_eq] at h
      by_cases h0 : n + c = 0
      · simp only [h0, not_true_eq_false, if_false, Res.ok.injEq] at h
        subst h
        refine ⟨?_, rfl, ?_⟩
        · intro k; simp only [FMap.lookup_erase]; split_ifs
          · simp
          · exact hz k
        · intro k; simp only [cnt, FMap.lookup_erase]; split_ifs with hk
          · subst hk; simp [hl]; omega
          · simp
      · simp only [h0, not_false_eq_true, if_true, Res.ok.injEq] at h
        subst h
        refine ⟨?_, rfl, ?_⟩
        · intro k; simp only [FMap.lookup_set]; split_ifs
          · simpa using h0
          · exact hz k
        · intro k; simp only [cnt, FMap.lookup_set]; split_ifs with hk
          · subst hk; simp [hl]; omega
          · simp

theorem mergeLoop_spec {p p' : Group} {betas : FMap UInt32 F} {es : List (UInt32 × Int)}
    (hz : NoZero p.counts) (h : mergeLoop betas es p = .ok p') :
    NoZero p'.counts ∧ p'.total = p.total + (es.map Prod.snd).sum ∧
      ∀ k, cnt p'.counts k = cnt p.counts k + (es.map fun e => if k = e.1 then e.2 else 0).sum := by
  induction es generalizing p with
  | nil =>
    simp only [mergeLoop, Res.ok.injEq] at h
    subst h; exact ⟨hz, by simp, by simp⟩
  | cons e es ih =>
    simp only [mergeLoop] at h
    obtain ⟨q, hq, h⟩ := Res.bind_eq_ok.1 h
    obtain ⟨h1, h2, h3⟩ := repeated_spec hz hq
    obtain ⟨h4, h5, h6⟩ := ih h1 h
    refine ⟨h4, ?_, ?_⟩
    · rw [h5, h2]; simp; ring
    · intro k; rw [h6, h3]; simp; ring

/-- The iteration orders do not matter. -/
theorem mergeLoop_perm {p p' : Group} {betas : FMap UInt32 F} {es es' : List (UInt32 × Int)}
    (hz : NoZero p.counts) (hperm : es.Perm es') (h : mergeLoop betas es p = .ok p') :
    mergeLoop betas es' p = .ok p' := by
  have hok : ∀ (es : List (UInt32 × Int)) (p : Group),
      (∀ e ∈ es, e.1 ≠ Dist.DPD.other ∧ betas.contains e.1 = true) ↔
        ∃ q, mergeLoop betas es p = .ok q := by
    intro es
    induction es with
    | nil => intro p; simp [mergeLoop]
    | cons e es ih =>
      intro p
      simp only [List.mem_cons, forall_eq_or_imp, mergeLoop, Res.bind_eq_ok]
      constructor
      · rintro ⟨⟨h1, h2⟩, h3⟩
        have : ∃ q, p.addRepeatedValue betas e.1 e.2 = .ok q := by
          unfold Group.addRepeatedValue
          rw [if_neg h1, if_neg (by simp [h2])]
          split_ifs
          · exact ⟨_, rfl⟩
          · cases p.counts.lookup e.1 with
            | none => exact ⟨_, rfl⟩
            | some c => simp only; split_ifs <;> exact ⟨_, rfl⟩
        obtain ⟨q, hq⟩ := this
        obtain ⟨r, hr⟩ := (ih q).1 h3
        exact ⟨r, q, hq, hr⟩
      · rintro ⟨r, q, hq, hr⟩
        refine ⟨?_, (ih q).2 ⟨r, hr⟩⟩
        unfold Group.addRepeatedValue at hq
        split_ifs at hq with h1 h2
        · exact ⟨h1, by simpa using h2⟩
        · exact ⟨h1, by simpa using h2⟩
  obtain ⟨q, hq⟩ := (hok es' p).1 fun e he => (hok es p).2 ⟨p', h⟩ e (hperm.mem_iff.2 he)
  obtain ⟨a1, a2, a3⟩ := mergeLoop_spec hz h
  obtain ⟨b1, b2, b3⟩ := mergeLoop_spec hz hq
  rw [hq]
  congr 1
  obtain ⟨c, t⟩ := q
  obtain ⟨c', t'⟩ := p'
  simp only at *
  congr 1
  · refine ext_cnt b1 a1 fun k => ?_
    rw [a3, b3, (hperm.map _).sum_eq]
  · rw [a2, b2, (hperm.map _).sum_eq]

end Dbg.DPD

/-- Every history gives both implementations the same table and total, whatever the iteration
orders of the two dictionaries. -/
theorem C57_dpd_updates {F : Type} [FloatOps F] (lvl : Nat) (sh : DPD.Shared F)
    (ord ord' : FMap UInt32 Int → List UInt32) (ho : ∀ m, FMap.Enum m (ord m))
    (ho' : ∀ m, FMap.Enum m (ord' m))
    (h : History UInt32) (g : DPD.Group) (p : Dbg.DPD.Group)
    (hg : h.run (DPD.api lvl sh ord) = .ok g) (hp : h.run (Dbg.DPD.api sh ord') = .ok p) :
    Dbg.DPD.Same g p := by
  refine (h.related (DPD.api lvl sh ord) (Dbg.DPD.api sh ord')
    (fun g p => Dbg.DPD.Same g p ∧ Dbg.DPD.NoZero p.counts) ⟨⟨rfl, rfl⟩, ?_⟩ ?_ ?_ ?_ ?_ g p hg hp).1
  · intro k; simp [Dbg.DPD.api, Dbg.DPD.Group.init]
  · rintro g p v g' p' ⟨hs, hz⟩ hA hB
    simp only [DPD.api, Dbg.DPD.api, DPD.Group.addValue] at hA hB
    obtain ⟨_, _, hA⟩ := Res.bind_eq_ok.1 hA
    obtain ⟨_, _, hA⟩ := Res.bind_eq_ok.1 hA
    obtain ⟨r, hr, hA⟩ := Res.bind_eq_ok.1 hA
    simp only [Res.pure_eq, Res.ok.injEq] at hA
    subst hA
    exact ⟨Dbg.DPD.repeated_same hs hr hB, (Dbg.DPD.repeated_spec hz hB).1⟩
  · rintro g p v g' p' ⟨hs, hz⟩ hA hB
    simp only [DPD.api, Dbg.DPD.api, DPD.Group.removeValue, SparseCounter.remove] at hA hB
    obtain ⟨_, _, hA⟩ := Res.bind_eq_ok.1 hA
    obtain ⟨_, _, hA⟩ := Res.bind_eq_ok.1 hA
    obtain ⟨r, hr, hA⟩ := Res.bind_eq_ok.1 hA
    simp only [Res.pure_eq, Res.ok.injEq] at hA
    subst hA
    exact ⟨Dbg.DPD.repeated_same hs hr hB, (Dbg.DPD.repeated_spec hz hB).1⟩
  · rintro g p v n g' p' ⟨hs, hz⟩ hA hB
    simp only [DPD.api, Dbg.DPD.api, DPD.Group.addRepeatedValue] at hA hB
    obtain ⟨_, _, hA⟩ := Res.bind_eq_ok.1 hA
    obtain ⟨_, _, hA⟩ := Res.bind_eq_ok.1 hA
    obtain ⟨r, hr, hA⟩ := Res.bind_eq_ok.1 hA
    simp only [Res.pure_eq, Res.ok.injEq] at hA
    subst hA
    exact ⟨Dbg.DPD.repeated_same hs hr hB, (Dbg.DPD.repeated_spec hz hB).1⟩
  · rintro g p s t g' p' ⟨hs, hz⟩ ⟨hs', -⟩ hA hB
    simp only [DPD.api, Dbg.DPD.api, DPD.Group.merge, SparseCounter.merge,
      Dbg.DPD.Group.merge] at hA hB
    obtain ⟨c, hc, hA⟩ := Res.bind_eq_ok.1 hA
    obtain ⟨u, hu, hA⟩ := Res.bind_eq_ok.1 hA
    obtain ⟨w, hw, hA⟩ := Res.bind_eq_ok.1 hA
    obtain ⟨q, hq, hB⟩ := Res.bind_eq_ok.1 hB
    have hperm : (t.counts.entries (ord' t.counts)).Perm (s.map.entries (ord s.map)) := by
      rw [hs'.1]
      exact ((ho' _).perm (ho _)).filterMap _
    have hq' := Dbg.DPD.mergeLoop_perm hz hperm hq
    have hsame := Dbg.DPD.mergeLoop_same hs hc hq'
    have hz' := (Dbg.DPD.mergeLoop_spec hz hq).1
    simp only [SparseCounter.getTotal, hs'.2, Res.ok.injEq] at hu
    subst hu
    simp only [SparseCounter.bumpTotal, hsame.2] at hw
    obtain ⟨-, rfl⟩ := i32_eq_ok.1 hw
    simp only [Res.pure_eq, Res.ok.injEq] at hA hB
    subst hA hB
    exact ⟨⟨hsame.1, rfl⟩, hz'⟩

theorem C57_dpd_score_value (lvl : Nat) (sh : DPD.Shared XR) (g : DPD.Group) (p : Dbg.DPD.Group)
    (v : UInt32) (x : XR) (hs : Dbg.DPD.Same g p) (h : p.scoreValue sh v = .ok x) :
    g.scoreValue lvl sh v = .ok x := by
  obtain ⟨h1, h2⟩ := hs
  unfold Dbg.DPD.Group.scoreValue at h
  obtain ⟨numer, hn, h⟩ := Res.bind_eq_ok.1 h
  obtain ⟨q, hq, h⟩ := Res.bind_eq_ok.1 h
  obtain ⟨rfl, -⟩ := Dbg.pyDiv_ok hq
  obtain ⟨rfl, -⟩ := Dbg.pyLog_ok h
  unfold DPD.Group.scoreValue
  by_cases hv : v = DPD.other
  · simp only [hv, if_true, Res.ok.injEq] at hn ⊢
    subst hn
    simp [SparseCounter.getTotal, h2, XR.mul_comm]
  · simp only [hv, if_false] at hn ⊢
    split_ifs at hn with hc
    cases hb : sh.betas.lookup v with
    | none => simp [hb] at hn
    | some b =>
      simp only [hb, Res.ok.injEq] at hn
      subst hn
      have : sh.betas.contains v = true := by
        rw [FMap.contains_iff, FMap.mem_keys_iff]; exact ⟨b, hb⟩
      simp only [Sparse.get]
      rw [distAssert_of this]
      simp [hb, SparseCounter.getTotal, h2, SparseCounter.getCount, h1, XR.mul_comm]

/-- The term of one value in `score_data`. -/
noncomputable def Dbg.DPD.term (sh : Dist.DPD.Shared XR) (e : UInt32 × Int) : XR :=
  match sh.betas.lookup e.1 with
  | none => XR.nan
  | some b => lgamma (sh.alpha * b + XR.fin e.2) - lgamma (sh.alpha * b)

theorem Dbg.DPD.scoreLoop_eq (sh : Dist.DPD.Shared XR) (es : List (UInt32 × Int)) (x y : XR)
    (h : scoreLoop sh es x = .ok y) :
    y = es.foldl (fun s e => s + term sh e) x ∧ ∀ e ∈ es, sh.betas.contains e.1 = true := by
  induction es generalizing x with
  | nil => simp only [scoreLoop, Res.ok.injEq] at h; simp [h]
  | cons e es ih =>
    simp only [scoreLoop] at h
    split_ifs at h with h0
    cases hb : sh.betas.lookup e.1 with
    | none => simp [hb] at h
    | some b =>
      simp only [hb] at h
      obtain ⟨h1, h2⟩ := ih _ h
      have : sh.betas.contains e.1 = true := by
        rw [FMap.contains_iff, FMap.mem_keys_iff]; exact ⟨b, hb⟩
      refine ⟨?_, by simpa [this] using h2⟩
      rw [h1, List.foldl_cons, term, hb]
      simp only [XR.mul_comm, XR.ofInt_eq]

theorem Dbg.DPD.loop_eq (lvl : Nat) (sh : Dist.DPD.Shared XR) (es : List (UInt32 × Int)) (x : XR)
    (h : ∀ e ∈ es, sh.betas.contains e.1 = true) :
    Dist.DPD.Group.scoreLoop lvl sh es x = .ok (es.foldl (fun s e => s + term sh e) x) := by
  induction es generalizing x with
  | nil => rfl
  | cons e es ih =>
    have he := h e (by simp)
    obtain ⟨b, hb⟩ := (FMap.mem_keys_iff _ _).1 ((FMap.contains_iff _ _).1 he)
    simp only [Dist.DPD.Group.scoreLoop, Sparse.get]
    rw [distAssert_of he]
    simp only [Res.ok_bind, hb]
    rw [ih _ fun e he => h e (by simp [he]), List.foldl_cons]
    simp [term, hb]

theorem C57_dpd_score_data (lvl : Nat) (sh : DPD.Shared XR) (g : DPD.Group) (p : Dbg.DPD.Group)
    (ks ks' : List UInt32) (x : XR) (hs : Dbg.DPD.Same g p) (hk : g.map.Enum ks)
    (hk' : p.counts.Enum ks') (h0 : 0 ≤ p.total) (h1 : p.total < 2 ^ 64)
    (h : p.scoreData sh ks' = .ok x) : g.scoreData lvl sh ks = .ok x := by
  obtain ⟨e1, e2⟩ := hs
  unfold Dbg.DPD.Group.scoreData at h
  split_ifs at h
  obtain ⟨y, hy, h⟩ := Res.bind_eq_ok.1 h
  obtain ⟨rfl, hb⟩ := Dbg.DPD.scoreLoop_eq _ _ _ _ hy
  simp only [Res.pure_eq, Res.ok.injEq] at h
  subst h
  have hperm : (p.counts.entries ks').Perm (g.map.entries ks) := by
    rw [e1] at hk ⊢
    exact (hk'.perm hk).filterMap _
  have hsz : DPD.Group.toSize p.total = p.total := Int.emod_eq_of_lt h0 (by simpa using h1)
  simp only [DPD.Group.scoreData, SparseCounter.getTotal, e2, Res.ok_bind, hsz]
  rw [Dbg.DPD.loop_eq lvl sh _ _ fun e he => hb e (hperm.mem_iff.2 he)]
  simp only [Res.ok_bind, Res.pure_eq]
  have hf := hperm.foldl_eq' (f := fun s e => s + Dbg.DPD.term sh e)
    (fun a _ b _ s => by simp only [XR.add_assoc]; rw [XR.add_comm (Dbg.DPD.term sh a)])
    (lit 0 1)
  rw [hf]
  simp

theorem C57_dpd_score_value_defined (sh : DPD.Shared XR) (a b : ℝ) (p : Dbg.DPD.Group) (v : UInt32)
    (ha : sh.alpha = XR.fin a) (hv : v ≠ DPD.other) (hb : sh.betas.lookup v = some (XR.fin b))
    (ha0 : 0 < a) (hb0 : 0 < b) (ht : 0 ≤ p.total)
    (hc : ∀ c, p.counts.lookup v = some c → 0 ≤ c) :
    ∃ r : ℝ, p.scoreValue sh v = .ok (XR.fin r) := by
  have hc0 : 0 ≤ (p.counts.lookup v).getD 0 := by
    cases h : p.counts.lookup v with
    | none => simp
    | some c => simpa using hc c h
  have ht' : (0 : ℝ) ≤ p.total := by exact_mod_cast ht
  have hc' : (0 : ℝ) ≤ ((p.counts.lookup v).getD 0 : ℤ) := by exact_mod_cast hc0
  unfold Dbg.DPD.Group.scoreValue
  simp only [if_neg hv, if_neg (not_lt.2 hc0), hb, ha, XR.ofInt_eq, XR.fin_mul, XR.fin_add,
    Res.ok_bind]
  rw [Dbg.pyDiv_fin (by positivity), Res.ok_bind, Dbg.pyLog_fin (by positivity)]
  exact ⟨_, rfl⟩

theorem C57_dpd_score_data_defined (sh : DPD.Shared XR) (a : ℝ) (p : Dbg.DPD.Group)
    (ks : List UInt32) (ha : sh.alpha = XR.fin a) (ha0 : 0 < a) (ht : 0 ≤ p.total)
    (hne : sh.betas.size ≠ 0)
    (hc : ∀ k c, p.counts.lookup k = some c → 0 ≤ c ∧
      ∃ b : ℝ, 0 < b ∧ sh.betas.lookup k = some (XR.fin b)) :
    ∃ r : ℝ, p.scoreData sh ks = .ok (XR.fin r) := by
  have ht' : (0 : ℝ) ≤ p.total := by exact_mod_cast ht
  have key : ∀ (ks : List UInt32) (x : ℝ), ∃ r : ℝ,
      Dbg.DPD.scoreLoop sh (p.counts.entries ks) (XR.fin x) = .ok (XR.fin r) := by
    intro ks
    induction ks with
    | nil => intro x; exact ⟨x, rfl⟩
    | cons k ks ih =>
      intro x
      cases hk : p.counts.lookup k with
      | none => simpa [FMap.entries, hk] using ih x
      | some c =>
        obtain ⟨h0, b, hb, hl⟩ := hc k c hk
        have h0' : (0 : ℝ) ≤ c := by exact_mod_cast h0
        have he : p.counts.entries (k :: ks) = (k, c) :: p.counts.entries ks := by
          simp [FMap.entries, hk]
        rw [he, Dbg.DPD.scoreLoop, if_neg (not_lt.2 h0), hl]
        simp only [ha, XR.ofInt_eq, XR.fin_mul, XR.fin_add]
        rw [XR.lgamma_fin (by positivity), XR.lgamma_fin (by positivity)]
        simp only [XR.fin_sub, XR.fin_add]
        exact ih _
  unfold Dbg.DPD.Group.scoreData
  rw [if_neg hne]
  obtain ⟨r, hr⟩ := key ks ((0 : ℤ) / (1 : ℕ))
  simp only [XR.lit_eq]
  rw [hr, ha]
  simp only [XR.ofInt_eq, Res.ok_bind, XR.fin_add]
  rw [XR.lgamma_fin ha0, XR.lgamma_fin (by positivity)]
  simp only [XR.fin_sub, XR.fin_add, Res.pure_eq]
  exact ⟨_, rfl⟩

/-- A prior with two values. -/
noncomputable def Dbg.DPD.exampleShared : Dist.DPD.Shared XR :=
  ⟨XR.fin 1, XR.fin 1, XR.fin (1 / 4),
    (FMap.empty.set 5 (XR.fin (1 / 2))).set 7 (XR.fin (1 / 4)), .clear .raw⟩

/-- Value 5 added three times and removed once. -/
example (ord ord' : FMap UInt32 Int → List UInt32) : ∃ g p,
    ((History.repeated .init 5 3).remove 5).run (DPD.api 3 Dbg.DPD.exampleShared ord) = .ok g ∧
    ((History.repeated .init 5 3).remove 5).run (Dbg.DPD.api Dbg.DPD.exampleShared ord') = .ok p ∧
    g.total = some 2 ∧ p.total = 2 := by
  refine ⟨⟨(FMap.empty.set 5 3).set 5 2, some 2⟩, ⟨(FMap.empty.set 5 3).set 5 2, 2⟩, ?_, ?_, rfl, rfl⟩
  · rfl
  · rfl

/-! ## Normal-Inverse-Wishart -/

theorem C57_niw_updates {F : Type} [FloatOps F] (d : Nat) (h : History (NIW.Vec F d))
    (g p : NIW.Group F d) (hg : h.run (NIW.api d) = .ok g) (hp : h.run (Dbg.NIW.api d) = .ok p) :
    g = p := by
  refine h.related (NIW.api d) (Dbg.NIW.api d) Eq rfl ?_ ?_ ?_ ?_ g p hg hp
  · rintro g _ v g' p' rfl hA hB
    simp only [NIW.api, Dbg.NIW.api, NIW.Group.addValue, Dbg.NIW.addValue] at hA hB
    obtain ⟨c, hc, hA⟩ := Res.bind_eq_ok.1 hA
    obtain ⟨-, rfl⟩ := i32_eq_ok.1 hc
    simp only [Res.pure_eq, Res.ok.injEq] at hA hB
    rw [← hA, ← hB]; rfl
  · rintro g _ v g' p' rfl hA hB
    simp only [NIW.api, Dbg.NIW.api, NIW.Group.removeValue, Dbg.NIW.removeValue] at hA hB
    obtain ⟨c, hc, hA⟩ := Res.bind_eq_ok.1 hA
    obtain ⟨-, rfl⟩ := i32_eq_ok.1 hc
    simp only [Res.pure_eq, Res.ok.injEq] at hA hB
    rw [← hA, ← hB]; rfl
  · rintro g _ v n g' p' rfl hA hB
    simp only [NIW.api, Dbg.NIW.api, NIW.Group.addRepeatedValue, Dbg.NIW.addRepeatedValue] at hA hB
    obtain ⟨c, hc, hA⟩ := Res.bind_eq_ok.1 hA
    obtain ⟨-, rfl⟩ := i32_eq_ok.1 hc
    simp only [Res.pure_eq, Res.ok.injEq] at hA hB
    rw [← hA, ← hB]; rfl
  · rintro g _ s _ g' p' rfl rfl hA hB
    simp only [NIW.api, Dbg.NIW.api, NIW.Group.merge, Dbg.NIW.merge] at hA hB
    obtain ⟨c, hc, hA⟩ := Res.bind_eq_ok.1 hA
    obtain ⟨-, rfl⟩ := i32_eq_ok.1 hc
    simp only [Res.pure_eq, Res.ok.injEq] at hA hB
    rw [← hA, ← hB]

theorem Dbg.NIW.plusGroup_ok {d : Nat} (hd : 0 < d) (lvl : Nat) {sh post : Dist.NIW.Shared XR d}
    {g : Dist.NIW.Group XR d} (h : plusGroup sh g = .ok post) : sh.plusGroup lvl g = .ok post := by
  unfold plusGroup at h
  obtain ⟨a, ha, h⟩ := Res.bind_eq_ok.1 h
  obtain ⟨b, hb, h⟩ := Res.bind_eq_ok.1 h
  obtain ⟨c, hc, h⟩ := Res.bind_eq_ok.1 h
  obtain ⟨rfl, -⟩ := Dbg.pyDiv_ok ha
  obtain ⟨rfl, -⟩ := Dbg.pyDiv_ok hb
  obtain ⟨rfl, -⟩ := Dbg.pyDiv_ok hc
  simp only [Res.pure_eq, Res.ok.injEq] at h
  subst h
  unfold Dist.NIW.Shared.plusGroup
  rw [distAssert_of hd]
  simp only [Res.ok_bind, Res.pure_eq, Res.ok.injEq, Dist.NIW.outer, XR.mul_assoc]

theorem Dbg.NIW.foldl_congr {d : Nat} (f f' : Fin d → XR) (h : ∀ i, f i = f' i) (x : XR) :
    (List.finRange d).foldl (fun acc i => acc + f i) x =
      (List.finRange d).foldl (fun acc i => acc + f' i) x := by
  rw [funext h]

theorem Dbg.NIW.quad_same {d : Nat} (m : Dist.NIW.Mat XR d) (z : Dist.NIW.Vec XR d) :
    Dist.NIW.dot z (Dist.NIW.mulVec m z) = inner (fun i => inner z (m i)) z := by
  unfold Dist.NIW.dot Dist.NIW.mulVec inner Dist.NIW.dot
  refine foldl_congr _ _ (fun i => ?_) _
  rw [XR.mul_comm]
  congr 1
  exact foldl_congr _ _ (fun j => XR.mul_comm _ _) _

theorem Dbg.NIW.student_same {d : Nat} (la : Dist.NIW.LinAlg XR) (v mu : Dist.NIW.Vec XR d) (nu : XR)
    (sigma : Dist.NIW.Mat XR d) (x : XR) (h : scoreStudentT la v nu mu sigma = .ok x) :
    Dist.NIW.scoreMvStudentT la v nu mu sigma = x := by
  unfold scoreStudentT at h
  obtain ⟨l1, hl1, h⟩ := Res.bind_eq_ok.1 h
  obtain ⟨l2, hl2, h⟩ := Res.bind_eq_ok.1 h
  obtain ⟨q, hq, h⟩ := Res.bind_eq_ok.1 h
  obtain ⟨l3, hl3, h⟩ := Res.bind_eq_ok.1 h
  obtain ⟨rfl, k1⟩ := Dbg.pyLog_ok hl1
  obtain ⟨rfl, -⟩ := Dbg.pyLog_ok hl2
  obtain ⟨rfl, k2⟩ := Dbg.pyDiv_ok hq
  obtain ⟨rfl, k3⟩ := Dbg.pyLog_ok hl3
  simp only [Res.pure_eq, Res.ok.injEq] at h
  subst h
  clear hl1 hl2 hq hl3 k3
  simp only [Dist.NIW.scoreMvStudentT, quad_same]
  generalize inner (fun i => inner (fun i => v i - mu i) (la.inv sigma i)) (fun i => v i - mu i) = s
  generalize log (la.det sigma) = e
  simp only [XR.lit_eq, XR.ofInt_eq, XR.pi_eq, XR.logPi_eq] at *
  cases nu with
  | nan => simp
  | fin n =>
  have hn : n ≠ 0 := k2 n rfl
  have hp : 0 < n := by
    have := k1 (n * Real.pi) (by simp)
    exact pos_of_mul_pos_left this Real.pi_pos.le
  have hs : XR.fin ((1 : ℤ) / (1 : ℕ)) / XR.fin n * s = s / XR.fin n := by
    cases s with
    | nan => simp
    | fin s =>
      rw [XR.fin_div _ _ hn, XR.fin_div _ _ hn, XR.fin_mul]; congr 1; simp; ring
  rw [hs]
  generalize log (XR.fin ((1 : ℤ) / (1 : ℕ)) + s / XR.fin n) = w
  simp only [Int.cast_ofNat, Nat.cast_ofNat, Int.cast_one, Nat.cast_one, div_one, XR.fin_mul,
    XR.fin_add]
  rw [XR.fin_div _ _ (by norm_num), XR.fin_div _ _ (by norm_num), XR.fin_add, XR.log_fin hp,
    XR.log_fin (by positivity), Real.log_mul hn Real.pi_ne_zero,
    show n / 2 + ((d : ℤ) : ℝ) / 2 = 1 / 2 * (n + ((d : ℤ) : ℝ)) by ring,
    show n / 2 = 1 / 2 * n by ring]
  generalize lgamma (XR.fin (1 / 2 * (n + ((d : ℤ) : ℝ)))) = A
  generalize lgamma (XR.fin (1 / 2 * n)) = B
  cases A <;> cases B <;> cases w <;> cases e <;> simp
  ring

theorem C57_niw_score_value {d : Nat} (hd : 0 < d) (lvl : Nat) (la : NIW.LinAlg XR)
    (sh : NIW.Shared XR d) (g : NIW.Group XR d) (v : NIW.Vec XR d) (x : XR)
    (h : Dbg.NIW.scoreValue la sh g v = .ok x) : g.scoreValue lvl la sh v = .ok x := by
  unfold Dbg.NIW.scoreValue at h
  obtain ⟨post, hp, h⟩ := Res.bind_eq_ok.1 h
  unfold NIW.Group.scoreValue
  rw [Dbg.NIW.plusGroup_ok hd lvl hp, Res.ok_bind]
  simp only [Res.pure_eq, Res.ok.injEq]
  exact Dbg.NIW.student_same la _ _ _ _ _ h

theorem Dbg.NIW.multigamma_same {d : Nat} (hd : 0 < d) (hd' : d ≤ 65536) (lvl : Nat) (nu m : XR)
    (h : multigammaln (nu / lit 2 1) d = .ok m) :
    Dist.NIW.lmultigamma lvl d (nu * lit 1 2) = .ok m := by
  unfold multigammaln at h
  split_ifs at h
  simp only [Res.ok.injEq] at h
  subst h
  unfold Dist.NIW.lmultigamma
  rw [distAssert_of hd]
  have hmod : d * (d - 1) % 4294967296 = d * (d - 1) := by
    apply Nat.mod_eq_of_lt
    calc d * (d - 1) < d * d := Nat.mul_lt_mul_of_pos_left (by omega) hd
      _ ≤ 65536 * 65536 := Nat.mul_le_mul hd' hd'
  have hcast : ((d * (d - 1) : ℕ) : ℤ) = (d : ℤ) * ((d : ℤ) - 1) := by
    rw [Nat.cast_mul, Nat.cast_sub hd]; simp
  simp only [Res.ok_bind, Res.pure_eq, Res.ok.injEq, hmod, hcast]
  congr 1
  · simp only [XR.ofInt_eq, XR.lit_eq, XR.logPi_eq, XR.fin_mul]; congr 2; ring
  · congr 1
    funext t j
    congr 2
    simp only [XR.lit_eq, XR.ofInt_eq]
    cases nu with
    | nan => simp
    | fin n =>
      rw [XR.fin_div _ _ (by norm_num), XR.fin_div _ _ (by norm_num)]
      simp only [XR.fin_mul, XR.fin_add, XR.fin_sub, XR.fin_inj]
      push_cast; ring

theorem C57_niw_score_data {d : Nat} (hd : 0 < d) (hd' : d ≤ 65536) (lvl : Nat)
    (la : NIW.LinAlg XR) (sh : NIW.Shared XR d) (g : NIW.Group XR d) (x : XR)
    (h0 : 0 ≤ g.count) (h1 : g.count * d < 2 ^ 32)
    (h : Dbg.NIW.scoreData la sh g = .ok x) : g.scoreData lvl la sh = .ok x := by
  unfold Dbg.NIW.scoreData at h
  obtain ⟨post, hp, h⟩ := Res.bind_eq_ok.1 h
  obtain ⟨m1, hm1, h⟩ := Res.bind_eq_ok.1 h
  obtain ⟨m2, hm2, h⟩ := Res.bind_eq_ok.1 h
  obtain ⟨q, hq, h⟩ := Res.bind_eq_ok.1 h
  obtain ⟨rfl, -⟩ := Dbg.pyDiv_ok hq
  simp only [Res.pure_eq, Res.ok.injEq] at h
  subst h
  unfold NIW.Group.scoreData
  rw [Dbg.NIW.plusGroup_ok hd lvl hp, Res.ok_bind, Dbg.NIW.multigamma_same hd hd' lvl _ _ hm1,
    Res.ok_bind, Dbg.NIW.multigamma_same hd hd' lvl _ _ hm2, Res.ok_bind,
    Int.emod_eq_of_lt (by positivity) (by simpa using h1)]
  have hhalf : ∀ a : XR, a * lit 1 2 = a / lit 2 1 := by
    intro a
    cases a with
    | nan => simp
    | fin a =>
      simp only [XR.lit_eq, XR.fin_mul]
      rw [XR.fin_div _ _ (by norm_num)]; congr 1; push_cast; ring
  simp only [hhalf, Res.pure_eq]

/-- With `kappa > 0` and `nu > d - 1` the reference returns. -/
theorem C57_niw_score_data_defined {d : Nat} (la : NIW.LinAlg XR) (sh : NIW.Shared XR d)
    (g : NIW.Group XR d) (kappa nu : ℝ) (hk : sh.kappa = XR.fin kappa) (hn : sh.nu = XR.fin nu)
    (hk0 : 0 < kappa) (hn0 : (d : ℝ) - 1 < nu) (h0 : 0 ≤ g.count) :
    ∃ x, Dbg.NIW.scoreData la sh g = .ok x := by
  have h0' : (0 : ℝ) ≤ g.count := by exact_mod_cast h0
  have hm : ∀ a : ℝ, (d : ℝ) - 1 < a → ∃ m, Dbg.NIW.multigammaln (XR.fin a / lit 2 1) d = .ok m := by
    intro a ha
    unfold Dbg.NIW.multigammaln
    rw [if_neg]
    · exact ⟨_, rfl⟩
    · simp only [XR.lit_eq, XR.ofInt_eq]
      rw [XR.fin_div _ _ (by norm_num)]
      simp only [XR.fin_sub, XR.fin_mul, XR.le_fin, not_le]
      push_cast
      linarith
  obtain ⟨m1, h1⟩ := hm (nu + g.count) (by linarith)
  obtain ⟨m2, h2⟩ := hm nu hn0
  simp only [Dbg.NIW.scoreData, Dbg.NIW.plusGroup, hk, hn, XR.ofInt_eq, XR.fin_add, XR.fin_mul]
  rw [Dbg.pyDiv_fin (by positivity), Res.ok_bind, Dbg.pyDiv_fin (by positivity), Res.ok_bind,
    Dbg.pyDiv_fin (by positivity), Res.ok_bind]
  simp only [Res.pure_eq, Res.ok_bind]
  rw [h1, Res.ok_bind, h2, Res.ok_bind, Dbg.pyDiv_fin (by positivity), Res.ok_bind]
  exact ⟨_, rfl⟩

/-- One dimension, no data, value 1. -/
example (la : NIW.LinAlg XR) (hdet : la.det (fun _ _ : Fin 1 => XR.fin 2) = XR.fin 2)
    (hinv : la.inv (fun _ _ : Fin 1 => XR.fin 2) = fun _ _ => XR.fin (1 / 2)) :
    ∃ r : ℝ, Dbg.NIW.scoreValue la
      ⟨fun _ : Fin 1 => XR.fin 0, XR.fin 1, fun _ _ => XR.fin 1, XR.fin 1⟩
      Dbg.NIW.init (fun _ => XR.fin 1) = .ok (XR.fin r) := by
  have hpi := Real.pi_pos
  simp only [Dbg.NIW.scoreValue, Dbg.NIW.plusGroup, Dbg.NIW.init, XR.ofInt_eq, XR.fin_add,
    XR.fin_mul, XR.lit_eq, XR.fin_sub, NIW.outer, Int.cast_zero, ne_eq, not_true_eq_false, if_false]
  rw [Dbg.pyDiv_fin (by norm_num), Res.ok_bind, Dbg.pyDiv_fin (by norm_num), Res.ok_bind,
    Dbg.pyDiv_fin (by norm_num), Res.ok_bind]
  simp only [XR.fin_mul, XR.fin_sub, XR.fin_add, Res.pure_eq, Res.ok_bind]
  norm_num
  rw [XR.fin_div _ _ (by norm_num)]
  norm_num [Dbg.NIW.scoreStudentT, Dbg.NIW.inner, List.finRange_succ]
  rw [hdet, hinv]
  norm_num [Dbg.pyLog_fin hpi]
  rw [Dbg.pyLog_fin (by norm_num), Res.ok_bind, Dbg.pyDiv_fin (by norm_num), Res.ok_bind]
  norm_num
  rw [Dbg.pyLog_fin (by norm_num), Res.ok_bind]
  rw [XR.lgamma_fin (by norm_num), XR.lgamma_fin (by norm_num)]
  norm_num

/-! ## Low entropy -/

/-- The reference divides two Python 2 integers, so its posterior-predictive correction differs
from the C++ one: 5 items, 2 of them sampled. -/
theorem C57_low_entropy_differs :
    Dbg.LowEntropy.postpredCorrection (F := XR) 5 2 ≠
      LowEntropy.postpredCorrection 3 ⟨5⟩ (XR.fin 2) := by
  unfold Dbg.LowEntropy.postpredCorrection LowEntropy.postpredCorrection
  rw [if_pos (by norm_num), distAssert_of (by simp), Res.ok_bind, distAssert_of (by simp; norm_num),
    Res.ok_bind]
  simp only [XR.ofInt_eq, XR.lit_eq]
  rw [Dbg.pyLog_fin (by norm_num), Res.ok_bind, XR.fin_div _ _ (by norm_num),
    XR.fin_div _ _ (by norm_num), XR.fin_div _ _ (by norm_num), XR.fin_div _ _ (by norm_num),
    XR.log_fin (by norm_num)]
  simp only [XR.fin_sub, XR.fin_mul, Res.pure_eq, ne_eq, Res.ok.injEq, XR.fin_inj]
  intro h
  have h1 : Real.log 2 < Real.log (5 / 2) := Real.log_lt_log (by norm_num) (by norm_num)
  norm_num at h
  linarith

/-- When the dataset size is a multiple of the sample size they agree. -/
theorem C57_low_entropy_correction_partial (lvl : Nat) (n k : Int) (x : XR) (hk : k ∣ n)
    (h : Dbg.LowEntropy.postpredCorrection n k = .ok x) :
    LowEntropy.postpredCorrection lvl ⟨n⟩ (XR.fin k) = .ok x := by
  unfold Dbg.LowEntropy.postpredCorrection at h
  split_ifs at h with h0
  obtain ⟨l, hl, h⟩ := Res.bind_eq_ok.1 h
  obtain ⟨rfl, -⟩ := Dbg.pyLog_ok hl
  simp only [Res.pure_eq, Res.ok.injEq] at h
  subst h
  have hkp : (0 : ℝ) < k := by exact_mod_cast h0.1
  unfold LowEntropy.postpredCorrection
  rw [distAssert_of (by simpa using h0.1), Res.ok_bind,
    distAssert_of (by simpa using h0.2), Res.ok_bind]
  simp only [Res.pure_eq, XR.ofInt_eq]
  rw [XR.fin_div _ _ hkp.ne', Int.cast_div hk hkp.ne']

/-- The scores agree for every non-empty group, and for an empty group when the division of the
correction is exact.  Missing: the other empty groups, where they differ
(`C57_low_entropy_differs`). -/
theorem C57_low_entropy_score_partial (lvl : Nat) (n groupSize nonempty k empty : Int) (x : XR)
    (hne : nonempty ≤ k) (hk : InInt32 (k + 1))
    (hd : groupSize ≠ 0 ∨ n ≤ k + 1 ∨ (k + 1) ∣ n)
    (h : Dbg.LowEntropy.scoreAddValue n groupSize k empty = .ok x) :
    LowEntropy.scoreAddValue lvl ⟨n⟩ groupSize nonempty k empty = .ok x := by
  unfold Dbg.LowEntropy.scoreAddValue at h
  rw [ite_eq_iff] at h
  rcases h with ⟨⟨h1, h2⟩, h⟩ | ⟨-, h⟩
  swap
  · cases h
  unfold LowEntropy.scoreAddValue
  rw [distAssert_of (by exact h1), Res.ok_bind, distAssert_of h2, Res.ok_bind, distAssert_of hne,
    Res.ok_bind]
  by_cases hg : groupSize = 0
  · rw [if_pos hg] at h ⊢
    obtain ⟨l, hl, h⟩ := Res.bind_eq_ok.1 h
    obtain ⟨rfl, -⟩ := Dbg.pyLog_ok hl
    rw [i32_of hk, Res.ok_bind]
    by_cases hlt : k + 1 < n
    · simp only [if_pos hlt] at h ⊢
      obtain ⟨c, hc, h⟩ := Res.bind_eq_ok.1 h
      have hdvd : (k + 1) ∣ n := by
        rcases hd with h | h | h
        · exact absurd hg h
        · omega
        · exact h
      have := C57_low_entropy_correction_partial lvl n (k + 1) c hdvd hc
      simp only [XR.ofInt_eq]
      rw [this, Res.ok_bind]
      exact h
    · simp only [if_neg hlt] at h ⊢
      exact h
  · rw [if_neg hg] at h ⊢
    simp only at h ⊢
    by_cases hbig : groupSize > 10000
    · rw [if_pos hbig] at h ⊢
      obtain ⟨l, hl, h⟩ := Res.bind_eq_ok.1 h
      obtain ⟨rfl, -⟩ := Dbg.pyLog_ok hl
      exact h
    · rw [if_neg hbig] at h ⊢
      obtain ⟨q, hq, h⟩ := Res.bind_eq_ok.1 h
      obtain ⟨l1, hl1, h⟩ := Res.bind_eq_ok.1 h
      obtain ⟨l2, hl2, h⟩ := Res.bind_eq_ok.1 h
      obtain ⟨rfl, -⟩ := Dbg.pyDiv_ok hq
      obtain ⟨rfl, -⟩ := Dbg.pyLog_ok hl1
      obtain ⟨rfl, -⟩ := Dbg.pyLog_ok hl2
      exact h

/-- A group of 3 among 4 of 9 items; and an empty group after 2 of 9 items. -/
example : (3 : Int) ≠ 0 ∧ (2 + 1 : Int) ∣ 9 := by decide

end Dist
