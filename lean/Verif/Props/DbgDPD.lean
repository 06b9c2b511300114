import Verif.Lemmas.DbgDPD
import Verif.Spec.IdealNumpy
import Mathlib.Tactic.NormNum

/-! # C95: the reference Dirichlet-process parameters -/

namespace Dist

open FloatOps FloatNotation Spec Spec.DbgDPD
open Dist.Py (Conv)

section history
variable {σ : Type}

/-- **C95, history.** In exact arithmetic, with beta draws between 0 and 1: every history that
removes only values that are held and avoids `0xFFFFFFFF` completes; the counts are those of the
values held and exactly these have weights; no weight and no leftover is negative; and the total
of weights and leftover never changes. -/
theorem C95_history (np : Dbg.Numpy XR σ) (hnp : UnitBeta np) (h : List (ValueOp Int))
    (gamma alpha beta0 : ℝ) (betas : FMap Int ℝ) (counts : FMap Int Int) (B : Multiset Int) (g : σ)
    (hB : Held betas counts B) (hw : Nonneg betas) (h0 : 0 ≤ beta0) (hv : Valid B h) :
    ∃ beta0' betas' counts' g',
      run np h (real gamma alpha beta0 betas counts, g) =
        .ok (real gamma alpha beta0' betas' counts', g') () ∧
      Held betas' counts' (contents B h) ∧ Nonneg betas' ∧ 0 ≤ beta0' ∧
      mass betas' beta0' = mass betas beta0 := by
  induction h generalizing beta0 betas counts B g with
  | nil => exact ⟨beta0, betas, counts, g, rfl, hB, hw, h0, rfl⟩
  | cons op h ih =>
    cases op with
    | add v =>
      obtain ⟨ho, hv⟩ := hv
      by_cases hm : v ∈ B
      · obtain ⟨b0', bs', cs', g', r1, r2⟩ := ih beta0 betas _ _ g (hB.addOld hm) hw h0 hv
        refine ⟨b0', bs', cs', g', ?_, r2⟩
        have hB' : Held (real gamma alpha beta0 betas counts).betas
            (real gamma alpha beta0 betas counts).counts B := ⟨hB.counts, hB.keys⟩
        have e := DbgDPD.addValue_old np hB' hm ho g
        simp only [run, bind, e]
        exact r1
      · obtain ⟨b, g₁, hb0, hb1, e⟩ := DbgDPD.addValue_new (gamma := gamma) (alpha := alpha) hnp hB
          hm ho h0 g
        obtain ⟨b0', bs', cs', g', r1, r2, r3, r4, r5⟩ := ih (beta0 - b) _ _ _ g₁ (hB.addNew hm b)
          (hw.set hb0) (by linarith) hv
        refine ⟨b0', bs', cs', g', ?_, r2, r3, r4, ?_⟩
        · simp only [run, bind, e]
          exact r1
        · rw [r5, DbgDPD.mass_set (fun hk => hm ((hB.keys v).mp hk)),
            DbgDPD.mass_shift (betas := betas) (beta0 - b) beta0]; ring
    | remove v =>
      obtain ⟨ho, hm, hv⟩ := hv
      have hpos := Multiset.count_pos.mpr hm
      by_cases hc : B.count v = 1
      · obtain ⟨b, hb, e⟩ := DbgDPD.removeValue_last (gamma := gamma) (alpha := alpha)
          (beta0 := beta0) hB hc ho g
        have hb0 := hw v b hb
        obtain ⟨b0', bs', cs', g', r1, r2, r3, r4, r5⟩ := ih (beta0 + b) _ _ _ g (hB.removeLast hc)
          hw.erase (by linarith) hv
        refine ⟨b0', bs', cs', g', ?_, r2, r3, r4, ?_⟩
        · simp only [run, bind, e]
          exact r1
        · rw [r5, DbgDPD.mass_erase ((hB.keys v).mpr hm),
            DbgDPD.mass_shift (betas := betas) (beta0 + b) beta0, hb, Option.getD_some]; ring
      · have hB' : Held (real gamma alpha beta0 betas counts).betas
            (real gamma alpha beta0 betas counts).counts B := ⟨hB.counts, hB.keys⟩
        have e := DbgDPD.removeValue_some hB' (by omega) ho g
        obtain ⟨b0', bs', cs', g', r1, r2⟩ := ih beta0 betas _ _ g (hB.removeSome (by omega)) hw h0 hv
        refine ⟨b0', bs', cs', g', ?_, r2⟩
        simp only [run, bind, e]
        exact r1

/-- A history meeting the hypotheses: add 5 twice and 7 once, remove one of them and 7. -/
example : Valid 0 [.add 5, .add 5, .add 7, .remove 5, .remove 7] ∧
    contents 0 [.add (5 : Int), .add 5, .add 7, .remove 5, .remove 7] = {5} ∧
    Held (FMap.empty : FMap Int ℝ) .empty 0 ∧ mass .empty 1 = 1 := by
  refine ⟨by simp [Valid], by decide, ⟨by simp, by simp⟩, by simp [mass]⟩

/-- **C95, refused values.** Adding or removing `0xFFFFFFFF`, and removing a value without a
count, raise and change nothing. -/
theorem C95_refused {F : Type} [FloatOps F] (np : Dbg.Numpy F σ) (s : DbgDPD.Shared F) (g : σ) :
    DbgDPD.addValue np 4294967295 (s, g) = .fail (s, g) ∧
    DbgDPD.removeValue 4294967295 (s, g) = .fail (s, g) ∧
    ∀ v, s.counts.lookup v = none → DbgDPD.removeValue v (s, g) = .fail (s, g) := by
  refine ⟨by simp [DbgDPD.addValue, DbgDPD.other], by simp [DbgDPD.removeValue, DbgDPD.other],
    fun v hv => ?_⟩
  unfold DbgDPD.removeValue
  simp only [hv]
  split_ifs <;> rfl

/-- **C95, new weights.** With an ideal numpy, a value that is new takes a fraction of the leftover
that has the Beta(1, gamma) law, independently of what is drawn later; the leftover loses what the
value gets. -/
theorem C95_new_weight [MeasurableSpace σ] (I : IdealNumpy σ) (gamma alpha beta0 : ℝ)
    (hg : 0 < gamma) (betas : FMap Int ℝ) (counts : FMap Int Int) (v : Int) (hv : v ≠ 4294967295)
    (hc : counts.lookup v = none) :
    ∃ draw : σ → ℝ × σ, HasLaw I.P draw (ProbabilityTheory.betaMeasure 1 gamma) ∧
      ∀ g, DbgDPD.addValue I.toNumpy v (real gamma alpha beta0 betas counts, g) =
        .ok (real gamma alpha (max 0 (beta0 - beta0 * (draw g).1))
          (betas.set v (beta0 * (draw g).1)) (counts.set v 1), (draw g).2) () := by
  refine ⟨I.beta (1, gamma), I.beta_law 1 gamma one_pos hg, fun g => ?_⟩
  have hz : (lit 0 1 : XR) = .fin 0 := by simp
  have h1 : (lit 1 1 : XR) = .fin 1 := by simp
  unfold DbgDPD.addValue
  simp only [DbgDPD.other, real, hc, Option.getD_none, zero_add, if_neg hv, if_true, h1,
    IdealNumpy.toNumpy]
  rw [XR.fin_mul, XR.fin_sub, hz, DbgDPD.pyMax_fin, DbgDPD.mapFin_set]

/-- **C95, realize.** In exact arithmetic, with beta draws between 0 and 1 and room below
`0xFFFFFFFF`: `realize` ends within 9999 rounds; it adds `k` values, each once, from the first
number above all known values (or from 0) on, at most one beyond 9999 values in all, and at most
one if the leftover is at most `1e-4`; the known
values keep count and weight; the leftover is then 0, no weight is negative and the total is what
it was. -/
theorem C95_realize (np : Dbg.Numpy XR σ) (hnp : UnitBeta np)
    (gamma alpha beta0 : ℝ) (betas : FMap Int ℝ) (counts : FMap Int Int) (B : Multiset Int) (g : σ)
    (hB : Held betas counts B) (hw : Nonneg betas) (h0 : 0 ≤ beta0)
    (hmax : ∀ v ∈ B, v + 10001 ≤ 4294967295) (ks : List Int) (hks : betas.Enum ks) :
    ∃ (n : Int) (k : Nat) (betas' : FMap Int ℝ) (counts' : FMap Int Int) (g' : σ),
      DbgDPD.realize np 9999 ks (real gamma alpha beta0 betas counts, g) =
        some (.ok (real gamma alpha 0 betas' counts', g') ()) ∧
      (∀ v ∈ B, v < n) ∧ (B = 0 ∧ n = 0 ∨ n - 1 ∈ B) ∧
      Held betas' counts' (B + fresh n k) ∧ (k ≤ 1 ∨ betas.size + k ≤ 10000) ∧
      (beta0 ≤ 1 / 10000 → k ≤ 1) ∧
      (∀ v ∈ B, betas'.lookup v = betas.lookup v) ∧ Nonneg betas' ∧
      mass betas' 0 = mass betas beta0 := by
  obtain ⟨hn1, hn2⟩ := DbgDPD.firstNew_spec ks
  have hmem : ∀ v, v ∈ ks ↔ v ∈ B := fun v => (hks.mem v).trans (hB.keys v)
  have hnB : ∀ v ∈ B, v < DbgDPD.firstNew ks := fun v hv => hn1 v ((hmem v).mpr hv)
  have hn3 : B = 0 ∧ DbgDPD.firstNew ks = 0 ∨ DbgDPD.firstNew ks - 1 ∈ B := by
    rcases hn2 with ⟨hnil, hz⟩ | hm
    · refine .inl ⟨Multiset.eq_zero_of_forall_notMem fun v hv => ?_, hz⟩
      have := (hmem v).mpr hv
      rw [hnil] at this; simp at this
    · exact .inr ((hmem _).mp hm)
  have hnle : DbgDPD.firstNew ks + 10000 ≤ 4294967295 := by
    rcases hn3 with ⟨-, hz⟩ | hm
    · rw [hz]; norm_num
    · have := hmax _ hm; omega
  obtain ⟨k, b0, bs, cs, g₁, r1, r2, r3, r4, r5, r6, r7, -, r9, r10⟩ :=
    DbgDPD.realizeLoop_exact (gamma := gamma) (alpha := alpha) hnp 9999 beta0 betas counts B
      (DbgDPD.firstNew ks) g hB hnB (by push_cast; omega) (by omega) h0 hw
  have hk : k ≤ 9999 := by rcases r7 with rfl | h <;> omega
  set n := DbgDPD.firstNew ks with hn
  rw [DbgDPD.realize, ← hn, r1]
  simp only [DbgDPD.realizeLast]
  have hb : (real gamma alpha b0 bs cs).beta0 = .fin b0 := rfl
  rcases lt_or_eq_of_le r3 with hlt | heq
  · rw [if_pos (by rw [hb, XR.ofInt_eq, XR.lt_fin]; simpa using hlt)]
    have hm : n + (k : Int) ∉ B + fresh n k := by
      rw [Multiset.mem_add, DbgDPD.mem_fresh]
      rintro (h | h)
      · have := hnB _ h; omega
      · omega
    obtain ⟨b, g₂, hb0, hb1, e⟩ := DbgDPD.addValue_new (gamma := gamma) (alpha := alpha) hnp r2 hm
      (by omega) hlt.le g₁
    have hkeys : n + (k : Int) ∉ bs.keys := fun h => hm ((r2.keys _).mp h)
    refine ⟨n, k + 1, bs.set (n + k) (b + (b0 - b)), cs.set (n + k) 1, g₂, ?_, hnB, hn3, ?_, ?_,
      fun h => by rw [r10 h], ?_, r4.set (by linarith), ?_⟩
    · rw [e]
      simp only [real, FMap.lookup_mapValues, FMap.lookup_set, if_true, Option.map_some]
      rw [XR.fin_add, DbgDPD.mapFin_set]
      have : (bs.set (n + k) b).set (n + k) (b + (b0 - b)) = bs.set (n + k) (b + (b0 - b)) := by
        ext w : 1; by_cases hw : w = n + k <;> simp [hw]
      rw [this]; simp
    · have hfr : B + fresh n (k + 1) = (n + (k : Int)) ::ₘ (B + fresh n k) := by
        unfold fresh
        rw [Multiset.range_succ, Multiset.map_cons, Multiset.add_cons]
      rw [hfr]
      exact r2.addNew hm _
    · rcases r7 with rfl | h
      · exact .inl (by omega)
      · exact .inr (by omega)
    · intro v hv
      rw [FMap.lookup_set, if_neg, r9 v hv]
      rintro rfl; have := hnB _ hv; omega
    · rw [DbgDPD.mass_set hkeys, DbgDPD.mass_shift (betas := bs) 0 b0, r5]; ring
  · subst heq
    rw [if_neg (by rw [hb, XR.ofInt_eq, XR.lt_fin]; simp)]
    refine ⟨n, k, bs, cs, g₁, rfl, hnB, hn3, r2, ?_, fun h => by rw [r10 h]; omega, r9, r4, r5⟩
    rcases r7 with rfl | h
    · exact .inl (by omega)
    · exact .inr (by omega)

/-- Parameters meeting the hypotheses: value 7 with weight 1/2, leftover 1/2. -/
example : Held ((FMap.empty : FMap Int ℝ).set 7 (1 / 2)) (FMap.empty.set 7 1) {7} ∧
    Nonneg (FMap.empty.set 7 (1 / 2)) ∧ mass (FMap.empty.set 7 (1 / 2)) (1 / 2) = 1 ∧
    ((FMap.empty : FMap Int ℝ).set 7 (1 / 2)).Enum [7] := by
  refine ⟨⟨fun v => ?_, by simp⟩, ?_, ?_, ⟨by simp, by simp⟩⟩
  · by_cases h : v = 7 <;> simp [h]
  · intro v b h
    by_cases hv : v = 7
    · simp only [hv, FMap.lookup_set, if_true, Option.some.injEq] at h
      rw [← h]; norm_num
    · simp [hv] at h
  · rw [DbgDPD.mass_set (by simp)]; norm_num [mass]

/-- **C95, finding.** If a value that comes next has a count but no weight, which `load` accepts,
`realize` counts it once more and raises. -/
theorem C95_realize_orphan (np : Dbg.Numpy XR σ) (g : σ) (gamma alpha : ℝ) :
    DbgDPD.realize np 9999 [0] (real gamma alpha (1 / 20000)
        (FMap.empty.set 0 (19999 / 20000)) ((FMap.empty.set 0 1).set 1 1), g) =
      some (.fail (real gamma alpha (1 / 20000)
        (FMap.empty.set 0 (19999 / 20000)) ((FMap.empty.set 0 1).set 1 2), g)) := by
  have hcs : (((FMap.empty : FMap Int Int).set 0 1).set 1 1).set 1 2 = (FMap.empty.set 0 1).set 1 2 := by
    ext k : 1; by_cases hk : k = 1 <;> simp [hk]
  have hlt : ¬ lt (lit 1 10000) (XR.fin (1 / 20000)) = true := by
    rw [XR.lit_eq, XR.lt_fin]; norm_num
  have hpos : lt (ofInt 0) (XR.fin (1 / 20000)) = true := by
    rw [XR.ofInt_eq, XR.lt_fin]; norm_num
  unfold DbgDPD.realize DbgDPD.realizeLoop
  rw [if_neg (by rintro ⟨-, h⟩; exact hlt h)]
  simp only [DbgDPD.firstNew, List.foldl_nil, add_zero, DbgDPD.realizeLast]
  rw [if_pos (show lt (ofInt 0) (real gamma alpha (1 / 20000) (FMap.empty.set 0 (19999 / 20000))
    ((FMap.empty.set 0 1).set 1 1)).beta0 = true from hpos)]
  have e : DbgDPD.addValue np 1 (real gamma alpha (1 / 20000)
      (FMap.empty.set 0 (19999 / 20000)) ((FMap.empty.set 0 1).set 1 1), g) =
      .ok (real gamma alpha (1 / 20000)
        (FMap.empty.set 0 (19999 / 20000)) ((FMap.empty.set 0 1).set 1 2), g) () := by
    simp [DbgDPD.addValue, DbgDPD.other, real, hcs]
  rw [e]
  simp [real]

end history

section io

/-- **C95, load.** In exact arithmetic, for a dictionary of distinct values: if all weights lie in
[0, 1], `load` gives the object these weights and counts and as leftover what the weights leave
of 1, or 0; otherwise it raises, with the refused parameters already in the object. -/
theorem C95_load (gamma alpha : ℝ) (bs : List (Int × ℝ)) (cs : List (Int × Int))
    (hb : (bs.map (·.1)).Nodup) (hc : (cs.map (·.1)).Nodup) (s : DbgDPD.Shared XR) :
    ∃ (betas : FMap Int ℝ) (counts : FMap Int Int), Reads betas bs ∧ Reads counts cs ∧
      ∀ ks, betas.Enum ks →
        ((∀ e ∈ bs, 0 ≤ e.2 ∧ e.2 ≤ 1) →
          DbgDPD.load ks ⟨.fin gamma, .fin alpha, bs.map fun e => (e.1, .fin e.2), cs⟩ s =
            .ok (real gamma alpha (max 0 (1 - (bs.map (·.2)).sum)) betas counts) ()) ∧
        (¬ (∀ e ∈ bs, 0 ≤ e.2 ∧ e.2 ≤ 1) →
          DbgDPD.load ks ⟨.fin gamma, .fin alpha, bs.map fun e => (e.1, .fin e.2), cs⟩ s =
            .fail (real gamma alpha (max 0 (1 - (bs.map (·.2)).sum)) betas counts)) := by
  refine ⟨DbgDPD.dict bs, DbgDPD.dict cs, DbgDPD.dict_lookup bs hb, DbgDPD.dict_lookup cs hc, ?_⟩
  intro ks hks
  have hd : DbgDPD.dict (bs.map fun e => (e.1, XR.fin e.2)) =
      (DbgDPD.dict bs).mapValues fun _ b => XR.fin b := by
    ext k v
    rw [DbgDPD.dict_lookup _ (by simpa [List.map_map, Function.comp_def] using hb),
      FMap.lookup_mapValues, Option.map_eq_some_iff, List.mem_map]
    constructor
    · rintro ⟨e, he, h⟩
      cases h
      exact ⟨e.2, (DbgDPD.dict_lookup bs hb _ _).mpr he, rfl⟩
    · rintro ⟨b, h, rfl⟩
      exact ⟨(k, b), (DbgDPD.dict_lookup bs hb _ _).mp h, rfl⟩
  have hsum : mass (DbgDPD.dict bs) 0 = (bs.map (·.2)).sum := by
    have he : (DbgDPD.dict bs).Enum (bs.map (·.1)) := by
      refine ⟨hb, fun k => ?_⟩
      rw [FMap.mem_keys_iff, List.mem_map]
      constructor
      · rintro ⟨e, he, rfl⟩; exact ⟨e.2, (DbgDPD.dict_lookup bs hb _ _).mpr he⟩
      · rintro ⟨b, h⟩; exact ⟨(k, b), (DbgDPD.dict_lookup bs hb _ _).mp h, rfl⟩
    unfold mass
    rw [← he.toFinset, List.sum_toFinset _ hb, List.map_map, add_zero]
    congr 1
    refine List.map_congr_left fun e h => ?_
    simp [(DbgDPD.dict_lookup bs hb e.1 e.2).mpr h]
  have hall : (∀ v b, (DbgDPD.dict bs).lookup v = some b → 0 ≤ b ∧ b ≤ 1) ↔
      ∀ e ∈ bs, 0 ≤ e.2 ∧ e.2 ≤ 1 :=
    ⟨fun h e he => h e.1 e.2 ((DbgDPD.dict_lookup bs hb _ _).mpr he),
      fun h v b hv => h (v, b) ((DbgDPD.dict_lookup bs hb _ _).mp hv)⟩
  have key : DbgDPD.load ks ⟨.fin gamma, .fin alpha, bs.map fun e => (e.1, .fin e.2), cs⟩ s =
      DbgDPD.loadBeta0 ks ⟨.fin gamma, .fin alpha, s.beta0,
        (DbgDPD.dict bs).mapValues fun _ b => XR.fin b, DbgDPD.dict cs⟩ := by
    simp only [DbgDPD.load, bind, Act.modify, hd]
  rw [key, DbgDPD.loadBeta0_exact hks, hsum]
  exact ⟨fun h => if_pos (hall.mpr h), fun h => if_neg fun h' => h (hall.mp h')⟩

/-- **C95, finding.** Weights that add up to 2 are accepted. -/
theorem C95_load_excess (gamma alpha : ℝ) (s : DbgDPD.Shared XR) :
    ∃ betas counts, DbgDPD.load [3, 4]
        ⟨.fin gamma, .fin alpha, [(3, .fin 1), (4, .fin 1)], [(3, 1), (4, 1)]⟩ s =
      .ok (real gamma alpha 0 betas counts) () ∧ mass betas 0 = 2 := by
  obtain ⟨betas, counts, hb, -, h⟩ := C95_load gamma alpha [(3, 1), (4, 1)] [(3, 1), (4, 1)]
    (by decide) (by decide) s
  have hkeys : ∀ k, k ∈ [(3 : Int), 4] ↔ k ∈ betas.keys := by
    intro k
    rw [FMap.mem_keys_iff]
    simp only [hb k, List.mem_cons, Prod.mk.injEq, List.not_mem_nil, or_false]
    constructor
    · rintro (rfl | rfl) <;> exact ⟨1, by simp⟩
    · rintro ⟨_, h | h⟩
      · exact .inl h.1
      · exact .inr h.1
  have he : betas.Enum [3, 4] := ⟨by decide, hkeys⟩
  refine ⟨betas, counts, ?_, ?_⟩
  · have := (h [3, 4] he).1 (by simp)
    simpa using this
  · unfold mass
    rw [← he.toFinset]
    have h3 := (hb 3 1).mpr (by simp)
    have h4 := (hb 4 1).mpr (by simp)
    simp [h3, h4]; norm_num

/-- **C95, dictionary round trip.** In exact arithmetic, parameters without negative weights whose
total is 1 are read back from their dictionary by any object as they were. -/
theorem C95_round_trip (gamma alpha beta0 : ℝ) (betas : FMap Int ℝ) (counts : FMap Int Int)
    (hw : Nonneg betas) (h0 : 0 ≤ beta0) (h1 : mass betas beta0 = 1)
    (kb kc ks : List Int) (hkb : betas.Enum kb) (hkc : counts.Enum kc) (hks : betas.Enum ks)
    (s : DbgDPD.Shared XR) :
    DbgDPD.load ks (DbgDPD.dump kb kc (real gamma alpha beta0 betas counts)) s =
      .ok (real gamma alpha beta0 betas counts) () := by
  have hkb' : (betas.mapValues fun _ b => XR.fin b).Enum kb := ⟨hkb.nodup, hkb.mem⟩
  have key : DbgDPD.load ks (DbgDPD.dump kb kc (real gamma alpha beta0 betas counts)) s =
      DbgDPD.loadBeta0 ks ⟨.fin gamma, .fin alpha, s.beta0,
        betas.mapValues fun _ b => XR.fin b, counts⟩ := by
    simp only [DbgDPD.load, DbgDPD.dump, real, bind, Act.modify, DbgDPD.dict_entries hkb',
      DbgDPD.dict_entries hkc]
  have hle := DbgDPD.weights_le hw h0 h1
  rw [key, DbgDPD.loadBeta0_exact hks, if_pos fun v b h => ⟨hw v b h, hle v b h⟩]
  have : max 0 (1 - mass betas 0) = beta0 := by
    have := DbgDPD.mass_shift (betas := betas) 0 beta0
    rw [this, h1, max_eq_right (by linarith)]; ring
  rw [this]

/-- **C95, message round trip.** Moreover, if the values fit 32 bits, the counts 64 bits, the
tables have the same values, and the numbers are representable in the message, they are read back
from their message. -/
theorem C95_message_round_trip {G : Type} (c : Conv XR G) (gamma alpha beta0 : ℝ)
    (betas : FMap Int ℝ) (counts : FMap Int Int) (B : Multiset Int) (hB : Held betas counts B)
    (hv : ∀ v ∈ B, 0 ≤ v ∧ v < 2 ^ 32) (hn : B.card < 2 ^ 64)
    (hg : c.widen (c.narrow (.fin gamma)) = .fin gamma)
    (ha : c.widen (c.narrow (.fin alpha)) = .fin alpha)
    (hr : ∀ v b, betas.lookup v = some b → c.widen (c.narrow (.fin b)) = .fin b)
    (hw : Nonneg betas) (h0 : 0 ≤ beta0) (h1 : mass betas beta0 = 1)
    (kb ks : List Int) (hkb : betas.Enum kb) (hks : betas.Enum ks) (msg₀ : Proto.DPDSharedMsg G) :
    ∃ msg, DbgDPD.pbDump c kb (real gamma alpha beta0 betas counts) msg₀ = .ok msg ∧
      ∀ s, DbgDPD.pbLoad c ks msg s = .ok (real gamma alpha beta0 betas counts) () := by
  set m := betas.mapValues fun _ b => XR.fin b with hm
  have hkb' : m.Enum kb := ⟨hkb.nodup, hkb.mem⟩
  set es := m.entries kb with hes
  have hmem : ∀ e ∈ es, e.1 ∈ B := by
    rintro ⟨k, v⟩ he
    exact (hB.keys k).mp ((FMap.mem_keys_iff m k).mpr ⟨v, (DbgDPD.mem_entries hkb' k v).mp he⟩)
  have hcnt : ∀ e ∈ es, counts.lookup e.1 = some (B.count e.1 : Int) ∧ (0 : Int) ≤ B.count e.1 ∧
      (B.count e.1 : Int) < 2 ^ 64 := by
    intro e he
    refine ⟨by rw [hB.counts, if_pos (hmem e he)], by positivity, ?_⟩
    have := Multiset.count_le_card e.1 B
    have h2 : ((B.count e.1 : Nat) : Int) ≤ B.card := by exact_mod_cast this
    have h3 : ((B.card : Nat) : Int) < 2 ^ 64 := by exact_mod_cast hn
    omega
  refine ⟨_, DbgDPD.pbDumpLoop_ok c counts (fun v => (B.count v : Int)) es
    (fun e he => hv e.1 (hmem e he)) hcnt _, fun s => ?_⟩
  have hb : (es.map fun e => (UInt32.ofNat e.1.toNat)).map (fun v => (v.toNat : Int)) =
      es.map (·.1) := by
    rw [List.map_map]
    refine List.map_congr_left fun e he => ?_
    exact DbgDPD.toNat_u32 (hv e.1 (hmem e he)).1 (hv e.1 (hmem e he)).2
  have hw1 : (es.map fun e => c.narrow e.2).map c.widen = es.map (·.2) := by
    rw [List.map_map]
    refine List.map_congr_left fun e he => ?_
    have := (DbgDPD.mem_entries hkb' e.1 e.2).mp he
    rw [hm, FMap.lookup_mapValues, Option.map_eq_some_iff] at this
    obtain ⟨b, hb, e2⟩ := this
    simp only [Function.comp, ← e2, hr e.1 b hb]
  have hc1 : (es.map fun e => UInt64.ofNat ((B.count e.1 : Int)).toNat).map
      (fun n => (n.toNat : Int)) = es.map fun e => (B.count e.1 : Int) := by
    rw [List.map_map]
    refine List.map_congr_left fun e he => ?_
    exact DbgDPD.toNat_u64 (hcnt e he).2.1 (hcnt e he).2.2
  have hd1 : DbgDPD.dict ((es.map (·.1)).zip (es.map (·.2))) = m := by
    rw [DbgDPD.zip_map_map, List.map_id']
    exact DbgDPD.dict_entries hkb'
  have hnd : (es.map (·.1)).Nodup := by
    rw [hes, DbgDPD.entries_eq fun k hk => (hkb'.mem k).mp hk]; exact hkb'.nodup
  have hd2 : DbgDPD.dict ((es.map (·.1)).zip (es.map fun e => (B.count e.1 : Int))) = counts := by
    rw [DbgDPD.zip_map_map]
    ext k n
    rw [DbgDPD.dict_lookup _ (by simpa [List.map_map, Function.comp_def] using hnd), List.mem_map,
      hB.counts]
    constructor
    · rintro ⟨e, he, h⟩
      cases h
      rw [if_pos (hmem e he)]
    · intro h
      by_cases hk : k ∈ B
      · rw [if_pos hk] at h
        obtain ⟨x, hx⟩ := (FMap.mem_keys_iff m k).mp ((hB.keys k).mpr hk)
        refine ⟨(k, x), (DbgDPD.mem_entries hkb' k x).mpr hx, ?_⟩
        cases h; rfl
      · rw [if_neg hk] at h; cases h
  have hle := DbgDPD.weights_le hw h0 h1
  have hg' : c.widen (c.narrow (real gamma alpha beta0 betas counts).gamma) = .fin gamma := hg
  have ha' : c.widen (c.narrow (real gamma alpha beta0 betas counts).alpha) = .fin alpha := ha
  simp only [DbgDPD.pbLoad, bind, Act.lift, Act.modify, List.nil_append, List.length_map, if_true,
    hb, hw1, hc1, hd1, hd2, hg', ha']
  rw [hm, DbgDPD.loadBeta0_exact hks, if_pos fun v b h => ⟨hw v b h, hle v b h⟩]
  have : max 0 (1 - mass betas 0) = beta0 := by
    have := DbgDPD.mass_shift (betas := betas) 0 beta0
    rw [this, h1, max_eq_right (by linarith)]; ring
  rw [this]

/-- Both round trips, for value 7 with weight 1/2 and leftover 1/2 and messages that hold any
number. -/
example (c : Conv XR XR) (hc : ∀ x, c.widen (c.narrow x) = x) (msg₀ : Proto.DPDSharedMsg XR) :
    let s := real 1 1 (1 / 2) (FMap.empty.set 7 (1 / 2)) (FMap.empty.set 7 1)
    (∀ s₀, DbgDPD.load [7] (DbgDPD.dump [7] [7] s) s₀ = .ok s ()) ∧
    ∃ msg, DbgDPD.pbDump c [7] s msg₀ = .ok msg ∧ ∀ s₀, DbgDPD.pbLoad c [7] msg s₀ = .ok s () := by
  have hw : Nonneg ((FMap.empty : FMap Int ℝ).set 7 (1 / 2)) := by
    refine Spec.DbgDPD.Nonneg.set ?_ (by norm_num)
    intro v b h; simp at h
  have h1 : mass ((FMap.empty : FMap Int ℝ).set 7 (1 / 2)) (1 / 2) = 1 := by
    rw [DbgDPD.mass_set (by simp)]; norm_num [mass]
  have he : ((FMap.empty : FMap Int ℝ).set 7 (1 / 2)).Enum [7] := ⟨by simp, by simp⟩
  refine ⟨fun s₀ => C95_round_trip 1 1 _ _ _ hw (by norm_num) h1 _ _ _ he ⟨by simp, by simp⟩ he s₀,
    C95_message_round_trip c 1 1 _ _ _ {7} ⟨fun v => ?_, by simp⟩ ?_ (by decide) (hc _) (hc _)
      (fun _ _ _ => hc _) hw (by norm_num) h1 _ _ he he msg₀⟩
  · by_cases h : v = 7 <;> simp [h]
  · intro v hv
    rw [Multiset.mem_singleton] at hv
    subst hv; norm_num

/-- **C95, bad messages.** A message whose lists differ in length is refused and changes nothing. -/
theorem C95_message_lengths {F G : Type} [FloatOps F] (c : Conv F G) (ks : List Int)
    (msg : Proto.DPDSharedMsg G) (s : DbgDPD.Shared F)
    (h : msg.betas.length ≠ msg.values.length ∨ msg.counts.length ≠ msg.values.length) :
    DbgDPD.pbLoad c ks msg s = .fail s := by
  unfold DbgDPD.pbLoad
  simp only [bind, Act.lift]
  by_cases h1 : msg.betas.length = msg.values.length
  · have h2 := h.resolve_left fun h => h h1
    rw [if_pos h1]
    dsimp only
    rw [if_neg h2]
  · rw [if_neg h1]

/-- **C95, finding.** Parameters with a weight but no count for a value, which `load` accepts,
cannot be written to a message. -/
theorem C95_message_missing {F G : Type} [FloatOps F] (c : Conv F G) (s : DbgDPD.Shared F)
    (ks : List Int) (hks : s.betas.Enum ks) (v : Int) (hv : v ∈ s.betas.keys)
    (hn : s.counts.lookup v = none) (msg : Proto.DPDSharedMsg G) :
    DbgDPD.pbDump c ks s msg = .fail := by
  obtain ⟨b, hb⟩ := (FMap.mem_keys_iff _ _).mp hv
  exact DbgDPD.pbDumpLoop_missing c s.counts _ _ ((DbgDPD.mem_entries hks v b).mpr hb) hn

/-- **C95, group load.** A group loaded from a dictionary of distinct values has the counts that
are not zero, and their sum as total. -/
theorem C95_group_load (es : List (Int × Int)) (h : (es.map (·.1)).Nodup) :
    (∀ v n, (DbgDPD.loadGroup es).counts.lookup v = some n ↔ (v, n) ∈ es ∧ n ≠ 0) ∧
    (DbgDPD.loadGroup es).total = (es.map (·.2)).sum := by
  rw [DbgDPD.loadGroup, DbgDPD.loadGroupLoop_spec]
  refine ⟨fun v n => ?_, by simp⟩
  have hnd : ((es.filter fun e => e.2 ≠ 0).map (·.1)).Nodup :=
    h.sublist (List.filter_sublist.map _)
  have := DbgDPD.dict_lookup _ hnd v n
  unfold DbgDPD.dict at this
  simpa using this

/-- **C95, finding.** A message that names a value twice gives a group with one count and both in
the total. -/
theorem C95_group_load_twice (k : UInt32) (a b : UInt64) (ha : a ≠ 0) (hb : b ≠ 0) :
    (∀ v, (DbgDPD.pbLoadGroup ⟨[k, k], [a, b]⟩).counts.lookup v =
      if v = k.toNat then some (b.toNat : Int) else none) ∧
    (DbgDPD.pbLoadGroup ⟨[k, k], [a, b]⟩).total = a.toNat + b.toNat := by
  have ha' : a.toNat ≠ 0 := fun h => ha (UInt64.toNat_inj.mp h)
  have hb' : b.toNat ≠ 0 := fun h => hb (UInt64.toNat_inj.mp h)
  simp only [DbgDPD.pbLoadGroup, DbgDPD.loadGroupLoop_spec]
  refine ⟨fun v => ?_, by simp⟩
  by_cases hv : v = k.toNat <;> simp [hv, ha', hb']

/-- **C95, group round trips.** A group without zero counts whose total is the sum of its counts
is read back from its dictionary, and from its message if values and counts are not negative and
fit their fields. -/
theorem C95_group_round_trip (g : DbgDPD.Group) (ks : List Int) (hks : g.counts.Enum ks)
    (hz : ∀ v, g.counts.lookup v ≠ some 0)
    (ht : g.total = ∑ v ∈ g.counts.keys, (g.counts.lookup v).getD 0) :
    DbgDPD.loadGroup (DbgDPD.dumpGroup ks g) = g ∧
    ((∀ v n, g.counts.lookup v = some n → 0 ≤ v ∧ v < 2 ^ 32 ∧ 0 ≤ n ∧ n < 2 ^ 64) →
      ∀ msg₀, ∃ msg, DbgDPD.pbDumpGroup ks g msg₀ = .ok msg ∧ DbgDPD.pbLoadGroup msg = g) := by
  set es := g.counts.entries ks with hes
  have hf : (es.filter fun e => e.2 ≠ 0) = es := by
    rw [List.filter_eq_self]
    rintro ⟨v, n⟩ he
    have := (DbgDPD.mem_entries hks v n).mp he
    simp only [decide_eq_true_eq]
    rintro rfl
    exact hz v this
  have hsum : (es.map (·.2)).sum = g.total := by
    rw [ht, ← hks.toFinset, List.sum_toFinset _ hks.nodup]
    congr 1
    conv_rhs => rw [← DbgDPD.entries_eq (m := g.counts) (ks := ks) fun k hk => (hks.mem k).mp hk]
    rw [← hes, List.map_map]
    refine List.map_congr_left fun e he => ?_
    simp [(DbgDPD.mem_entries hks e.1 e.2).mp he]
  have key : DbgDPD.loadGroupLoop es ⟨.empty, 0⟩ = g := by
    rw [DbgDPD.loadGroupLoop_spec, hf, hsum, zero_add]
    have := DbgDPD.dict_entries hks
    unfold DbgDPD.dict at this
    rw [← hes] at this
    rw [this]
  refine ⟨?_, fun hfit msg₀ => ?_⟩
  · rw [DbgDPD.loadGroup, DbgDPD.dumpGroup, ← hes, hf, key]
  · have hk : ∀ e ∈ es, 0 ≤ e.1 ∧ e.1 < 2 ^ 32 ∧ 0 ≤ e.2 ∧ e.2 < 2 ^ 64 := fun e he =>
      hfit e.1 e.2 ((DbgDPD.mem_entries hks e.1 e.2).mp he)
    refine ⟨_, DbgDPD.pbDumpGroupLoop_ok es hk _, ?_⟩
    rw [DbgDPD.pbLoadGroup]
    simp only [hf, List.nil_append, List.map_map]
    have : (es.map ((fun k : UInt32 => (k.toNat : Int)) ∘ fun e => UInt32.ofNat e.1.toNat)).zip
        (es.map ((fun n : UInt64 => (n.toNat : Int)) ∘ fun e => UInt64.ofNat e.2.toNat)) = es := by
      rw [DbgDPD.zip_map_map]
      conv_rhs => rw [← List.map_id es]
      refine List.map_congr_left fun e he => ?_
      obtain ⟨h1, h2, h3, h4⟩ := hk e he
      simp only [Function.comp, DbgDPD.toNat_u32 h1 h2, DbgDPD.toNat_u64 h3 h4, id]
    rw [this, key]

/-- **C95, finding.** A group with a negative count, left by removing before adding, cannot be
written to a message. -/
theorem C95_group_message_debt (g : DbgDPD.Group) (ks : List Int) (hks : g.counts.Enum ks)
    (v n : Int) (hv : g.counts.lookup v = some n) (hn : n < 0) (msg : Proto.DPDGroupMsg) :
    DbgDPD.pbDumpGroup ks g msg = .fail :=
  DbgDPD.pbDumpGroupLoop_negative _ _ ((DbgDPD.mem_entries hks v n).mpr hv) hn

/-- A group meeting the hypotheses of the round trips, and one in debt. -/
example : let g : DbgDPD.Group := ⟨(FMap.empty.set 4 2).set 9 1, 3⟩
    g.counts.Enum [9, 4] ∧ (∀ v, g.counts.lookup v ≠ some 0) ∧
    g.total = ∑ v ∈ g.counts.keys, (g.counts.lookup v).getD 0 ∧
    ((FMap.empty : FMap Int Int).set 4 (-1)).lookup 4 = some (-1) := by
  refine ⟨⟨by decide, by simp⟩, fun v => ?_, ?_, by simp⟩
  · by_cases h9 : v = 9
    · simp [h9]
    · by_cases h4 : v = 4 <;> simp [h9, h4]
  · decide

end io

end Dist
