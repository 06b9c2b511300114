import Verif.Lemmas.DPD
import Verif.Spec.DPDShared

/-! # Lemmas about the Dirichlet-process shared state -/

namespace Dist

open Spec FloatOps FloatNotation

namespace DPD

section generic
variable {F σ : Type} [FloatOps F]

/-- The counts hold `B` and exactly its values have a weight. -/
structure Consistent (sh : Shared F) (B : Multiset UInt32) : Prop where
  counts : sh.counts.Holds B
  keys : ∀ v, v ∈ sh.betas.keys ↔ v ∈ B

theorem Consistent.not_contains {sh : Shared F} {B : Multiset UInt32} (h : Consistent sh B)
    {v : UInt32} (hv : v ∉ B) : sh.betas.contains v = false := by
  have : ¬ sh.betas.contains v = true := by rw [FMap.contains_iff, h.keys]; exact hv
  simpa using this

theorem addValue_old (lvl : Nat) (rng : Rng F σ) {sh : Shared F} {B : Multiset UInt32}
    (h : Consistent sh B) {v : UInt32} (hv : v ∈ B) (ho : v ≠ other) (hB : B.card < 2147483647)
    (s : σ) : ∃ c, sh.addValue lvl rng v s = .ok ({ sh with counts := c }, s) ∧
      Consistent { sh with counts := c } (v ::ₘ B) := by
  obtain ⟨c, e, hc⟩ := h.counts.add v hB
  have hp : 0 < B.count v := Multiset.count_pos.mpr hv
  refine ⟨c, ?_, ⟨hc, ?_⟩⟩
  · rw [Shared.addValue, distAssert_of ho, Res.ok_bind, e]
    simp only [Res.ok_bind]
    rw [if_neg (by omega)]; rfl
  · intro w
    rw [h.keys, Multiset.mem_cons]
    constructor
    · exact Or.inr
    · rintro (rfl | h); exacts [hv, h]

theorem addValue_new (lvl : Nat) (rng : Rng F σ) {sh : Shared F} {B : Multiset UInt32}
    (h : Consistent sh B) {v : UInt32} (hv : v ∉ B) (ho : v ≠ other) (hB : B.card < 2147483647)
    (s : σ) : ∃ c : SparseCounter UInt32, c.Holds (v ::ₘ B) ∧
      sh.addValue lvl rng v s = (do
        distAssert0 (lt (ofInt 0) sh.beta0 = true)
        let (p, s) ← sampleBetaSafe rng s (lit 1 1) sh.gamma minBeta
        .ok (⟨sh.gamma, sh.alpha, Shared.maxf minBeta (sh.beta0 - sh.beta0 * p),
          sh.betas.set v (sh.beta0 * p), c⟩, s)) ∧
      ∀ beta0 b, Consistent ⟨sh.gamma, sh.alpha, beta0, sh.betas.set v b, c⟩ (v ::ₘ B) := by
  obtain ⟨c, e, hc⟩ := h.counts.add v hB
  refine ⟨c, hc, ?_, fun beta0 b => ⟨hc, ?_⟩⟩
  · rw [Shared.addValue, distAssert_of ho, Res.ok_bind, e]
    simp only [Res.ok_bind, Multiset.count_eq_zero.mpr hv]
    rw [if_pos (by norm_num)]
    have hn : ∀ b, Sparse.add lvl sh.betas v b = .ok (sh.betas.set v b) := by
      intro b
      rw [Sparse.add, distAssert_of (h.not_contains hv), h.not_contains hv]; rfl
    simp only [hn, Res.ok_bind, Res.pure_eq]
  · intro w
    simp [h.keys]

theorem removeValue_spec (lvl : Nat) {sh : Shared F} {B : Multiset UInt32}
    (h : Consistent sh B) {v : UInt32} (hv : v ∈ B) (ho : v ≠ other) (hB : B.card ≤ 2147483647) :
    (v ∈ B.erase v ∧ ∃ c, sh.removeValue lvl v = .ok { sh with counts := c } ∧
      Consistent { sh with counts := c } (B.erase v)) ∨
    (v ∉ B.erase v ∧ ∃ c b, sh.betas.lookup v = some b ∧
      sh.removeValue lvl v = .ok ⟨sh.gamma, sh.alpha, Shared.minf (lit 1 1) (sh.beta0 + b),
        sh.betas.erase v, c⟩ ∧
      ∀ beta0, Consistent ⟨sh.gamma, sh.alpha, beta0, sh.betas.erase v, c⟩ (B.erase v)) := by
  obtain ⟨c, e, hc⟩ := h.counts.remove v hv hB
  have hp : 0 < B.count v := Multiset.count_pos.mpr hv
  have hce := Multiset.count_erase_self v B
  by_cases h1 : B.count v = 1
  · right
    have hn : v ∉ B.erase v := by rw [← Multiset.count_eq_zero, hce, h1]
    obtain ⟨b, hb⟩ := (sh.betas.mem_keys_iff v).mp ((h.keys v).mpr hv)
    have hcon : sh.betas.contains v = true := by simp [FMap.contains, hb]
    refine ⟨hn, c, b, hb, ?_, fun beta0 => ⟨hc, ?_⟩⟩
    · rw [Shared.removeValue, distAssert_of ho, Res.ok_bind, e]
      simp only [Res.ok_bind, h1]
      rw [if_pos (by norm_num), Sparse.pop, distAssert_of hcon, hb]
      rfl
    · intro w
      simp only [FMap.keys_erase, Finset.mem_erase, h.keys]
      by_cases hw : w = v
      · subst hw; simp [hn]
      · simp [hw, Multiset.mem_erase_of_ne hw]
  · left
    have hy : v ∈ B.erase v := by rw [← Multiset.count_pos, hce]; omega
    refine ⟨hy, c, ?_, ⟨hc, ?_⟩⟩
    · rw [Shared.removeValue, distAssert_of ho, Res.ok_bind, e]
      simp only [Res.ok_bind]
      rw [if_neg (by omega)]; rfl
    · intro w
      rw [h.keys]
      by_cases hw : w = v
      · subst hw; simp [hy, hv]
      · simp [Multiset.mem_erase_of_ne hw]

end generic

/-! ## Exact arithmetic -/

section exact
variable {σ : Type}

theorem sampleBeta_exact {rng : Rng XR σ} (hr : NonnegGamma rng) (s : σ) (a b : XR) :
    ∃ (p : ℝ) (s' : σ), 0 ≤ p ∧ p ≤ 1 ∧ sampleBeta rng s a b = (.fin p, s') := by
  obtain ⟨x, hx, ex⟩ := hr s a (lit 1 1)
  obtain ⟨y, hy, ey⟩ := hr (rng.gamma s a (lit 1 1)).2 b (lit 1 1)
  unfold sampleBeta
  simp only [ex, ey]
  have eq0 : ∀ z : ℝ, 0 ≤ z → (eqf (XR.fin z) (ofInt 0) = true ↔ z = 0) := by
    intro z hz
    simp only [eqf, XR.ofInt_eq, Bool.and_eq_true, XR.le_fin, Int.cast_zero]
    constructor
    · intro h; linarith [h.1]
    · rintro rfl; simp
  by_cases hxy : x = 0 ∧ y = 0
  · have h1 : (eqf (XR.fin x) (ofInt 0) && eqf (XR.fin y) (ofInt 0)) = true := by
      rw [Bool.and_eq_true]; exact ⟨(eq0 x hx).mpr hxy.1, (eq0 y hy).mpr hxy.2⟩
    rw [if_pos h1]
    unfold sampleBernoulli
    simp only
    split
    · exact ⟨1, _, by norm_num, le_refl _, by simp; rfl⟩
    · exact ⟨0, _, le_refl _, by norm_num, by simp; rfl⟩
  · have h1 : ¬ (eqf (XR.fin x) (ofInt 0) && eqf (XR.fin y) (ofInt 0)) = true := by
      rw [Bool.and_eq_true, eq0 x hx, eq0 y hy]; exact hxy
    rw [if_neg h1]
    have hpos : 0 < x + y := by
      rcases lt_or_eq_of_le hx with h | h
      · linarith
      · rcases lt_or_eq_of_le hy with h' | h'
        · linarith
        · exact absurd ⟨h.symm, h'.symm⟩ hxy
    refine ⟨x / (x + y), (rng.gamma (rng.gamma s a (lit 1 1)).2 b (lit 1 1)).2, by positivity,
      ?_, ?_⟩
    · rw [div_le_one hpos]; linarith
    · rw [XR.fin_add, XR.fin_div _ _ hpos.ne']

theorem sampleBetaSafe_exact {rng : Rng XR σ} (hr : NonnegGamma rng) (s : σ) (b : XR) :
    ∃ (p : ℝ) (s' : σ), 0 < p ∧ p ≤ 1 ∧
      sampleBetaSafe rng s (lit 1 1) b minBeta = .ok (.fin p, s') := by
  obtain ⟨p, s', h0, h1, e⟩ := sampleBeta_exact hr s (lit 1 1) b
  refine ⟨(p + 1 / 1000000) / (1 + 1 / 1000000), s', by positivity, ?_, ?_⟩
  · rw [div_le_one (by norm_num)]; linarith
  · have m0 : le (ofInt 0) (minBeta : XR) = true := by
      simp only [minBeta, XR.ofInt_eq, XR.lit_eq, XR.le_fin]; norm_num
    have a0 : lt (ofInt 0) (lit 1 1 : XR) = true := by
      simp only [XR.ofInt_eq, XR.lit_eq, XR.lt_fin]; norm_num
    rw [sampleBetaSafe, distAssert0_of m0, Res.ok_bind, distAssert0_of a0, Res.ok_bind, e]
    simp only [minBeta, XR.lit_eq, XR.fin_add, Res.pure_eq]
    rw [XR.fin_div _ _ (by norm_num)]
    norm_num

variable {gamma alpha beta0 : ℝ} {betas : FMap UInt32 ℝ} {counts : SparseCounter UInt32}

theorem mapValues_set (betas : FMap UInt32 ℝ) (v : UInt32) (b : ℝ) :
    (betas.mapValues fun _ b => XR.fin b).set v (.fin b) =
      (betas.set v b).mapValues fun _ b => XR.fin b := by
  ext k : 1
  simp only [FMap.lookup_set, FMap.lookup_mapValues]
  split_ifs <;> simp

theorem mapValues_erase (betas : FMap UInt32 ℝ) (v : UInt32) :
    (betas.mapValues fun _ b => XR.fin b).erase v =
      (betas.erase v).mapValues fun _ b => XR.fin b := by
  ext k : 1
  simp only [FMap.lookup_erase, FMap.lookup_mapValues]
  split_ifs <;> simp

theorem maxf_fin (a b : ℝ) : Shared.maxf (XR.fin a) (.fin b) = .fin (max a b) := by
  unfold Shared.maxf
  by_cases h : a < b
  · rw [if_pos ((XR.lt_fin a b).mpr h), max_eq_right h.le]
  · rw [if_neg (by rw [XR.lt_fin]; exact h), max_eq_left (not_lt.mp h)]

theorem minf_fin (a b : ℝ) : Shared.minf (XR.fin a) (.fin b) = .fin (min a b) := by
  unfold Shared.minf
  by_cases h : b < a
  · rw [if_pos ((XR.lt_fin b a).mpr h), min_eq_right h.le]
  · rw [if_neg (by rw [XR.lt_fin]; exact h), min_eq_left (not_lt.mp h)]

theorem addValue_new_exact (lvl : Nat) {rng : Rng XR σ} (hr : NonnegGamma rng)
    {B : Multiset UInt32} (h : Consistent (real gamma alpha beta0 betas counts) B) {v : UInt32}
    (hv : v ∉ B) (ho : v ≠ other) (hB : B.card < 2147483647) (h0 : 0 < beta0) (s : σ) :
    ∃ (b : ℝ) (c : SparseCounter UInt32) (s' : σ), 0 < b ∧ b ≤ beta0 ∧
      (real gamma alpha beta0 betas counts).addValue lvl rng v s =
        .ok (real gamma alpha (max (1 / 1000000) (beta0 - b)) (betas.set v b) c, s') ∧
      ∀ beta0, Consistent (real gamma alpha beta0 (betas.set v b) c) (v ::ₘ B) := by
  obtain ⟨c, hc, e, hcons⟩ := addValue_new lvl rng h hv ho hB s
  obtain ⟨p, s', hp0, hp1, ep⟩ := sampleBetaSafe_exact hr s (XR.fin gamma)
  refine ⟨beta0 * p, c, s', mul_pos h0 hp0, by nlinarith, ?_, ?_⟩
  · rw [e]
    have hlt : lt (ofInt 0) (real gamma alpha beta0 betas counts).beta0 = true := by
      simp [real, h0]
    rw [distAssert0_of hlt, Res.ok_bind]
    dsimp only [real] at ep ⊢
    rw [ep, Res.ok_bind]
    simp only [XR.fin_mul, XR.fin_sub, minBeta, XR.lit_eq, mapValues_set, maxf_fin]
    norm_num
  · intro b0
    have := hcons (.fin b0) (.fin (beta0 * p))
    simp only [real, mapValues_set] at this ⊢
    exact this

theorem mass_set {v : UInt32} (hv : v ∉ betas.keys) (b b0 : ℝ) :
    mass (betas.set v b) b0 = mass betas b0 + b := by
  unfold mass
  rw [FMap.keys_set, Finset.sum_insert hv]
  have : ∑ w ∈ betas.keys, ((betas.set v b).lookup w).getD 0 =
      ∑ w ∈ betas.keys, (betas.lookup w).getD 0 := by
    refine Finset.sum_congr rfl fun w hw => ?_
    have : w ≠ v := by rintro rfl; exact hv hw
    simp [this]
  rw [this]; simp; ring

theorem mass_erase {v : UInt32} (hv : v ∈ betas.keys) (b0 : ℝ) :
    mass (betas.erase v) b0 = mass betas b0 - (betas.lookup v).getD 0 := by
  unfold mass
  rw [FMap.keys_erase, ← Finset.add_sum_erase betas.keys _ hv]
  have : ∑ w ∈ betas.keys.erase v, ((betas.erase v).lookup w).getD 0 =
      ∑ w ∈ betas.keys.erase v, (betas.lookup w).getD 0 := by
    refine Finset.sum_congr rfl fun w hw => ?_
    simp [Finset.ne_of_mem_erase hw]
  rw [this]; ring

theorem mass_shift (b b0 : ℝ) : mass betas b = mass betas b0 + (b - b0) := by
  unfold mass; ring

theorem weight_set_pos {v : UInt32} {b : ℝ} (hb : 0 < b)
    (hpos : ∀ w ∈ betas.keys, 0 < weight betas w) :
    ∀ w ∈ (betas.set v b).keys, 0 < weight (betas.set v b) w := by
  intro w hw
  unfold weight
  by_cases h : w = v
  · simp [h, hb]
  · simp only [FMap.lookup_set, h, if_false]
    exact hpos w (by simpa [h] using hw)

theorem weight_erase_pos {v : UInt32} (hpos : ∀ w ∈ betas.keys, 0 < weight betas w) :
    ∀ w ∈ (betas.erase v).keys, 0 < weight (betas.erase v) w := by
  intro w hw
  simp only [FMap.keys_erase, Finset.mem_erase] at hw
  unfold weight
  simp only [FMap.lookup_erase, hw.1, if_false]
  exact hpos w hw.2

end exact

end DPD

end Dist
