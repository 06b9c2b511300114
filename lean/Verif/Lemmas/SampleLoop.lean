import Verif.Lemmas.DirichletDraw
import Verif.Model.SampleGroup

/-! # Repeated draws given parameters drawn once -/

namespace Dist

open Spec FloatOps FloatNotation MeasureTheory ProbabilityTheory

section abstract

variable {ι Θ σ V : Type}

/-- Pairs of parameters and states from which the draws come out as labelled, ending in `C`. -/
def iterSet (step : ι → Set (Θ × σ) → Set (Θ × σ)) (C : Set (Θ × σ)) : List ι → Set (Θ × σ)
  | [] => C
  | i :: is => step i (iterSet step C is)

theorem iterSet_meas [MeasurableSpace Θ] [MeasurableSpace σ] {step : ι → Set (Θ × σ) → Set (Θ × σ)}
    {p : ι → Prop} (hm : ∀ i C, p i → MeasurableSet C → MeasurableSet (step i C)) {C : Set (Θ × σ)}
    (hC : MeasurableSet C) (is : List ι) (his : ∀ i ∈ is, p i) :
    MeasurableSet (iterSet step C is) := by
  induction is with
  | nil => exact hC
  | cons i is ih =>
    exact hm _ _ (his i (by simp)) (ih fun j hj => his j (by simp [hj]))

theorem iterSet_prob [MeasurableSpace Θ] [MeasurableSpace σ] (P : Measure σ)
    {step : ι → Set (Θ × σ) → Set (Θ × σ)} {p : ι → Prop}
    (hm : ∀ i C, p i → MeasurableSet C → MeasurableSet (step i C)) {θ : Θ} {k : ι → ENNReal}
    (hk : ∀ i C, p i → MeasurableSet C → P (Prod.mk θ ⁻¹' step i C) = k i * P (Prod.mk θ ⁻¹' C))
    {C : Set (Θ × σ)} (hC : MeasurableSet C) (is : List ι) (his : ∀ i ∈ is, p i) :
    P (Prod.mk θ ⁻¹' iterSet step C is) = (is.map k).prod * P (Prod.mk θ ⁻¹' C) := by
  induction is with
  | nil => simp [iterSet]
  | cons i is ih =>
    have his' : ∀ j ∈ is, p j := fun j hj => his j (by simp [hj])
    rw [iterSet, hk _ _ (his i (by simp)) (iterSet_meas hm hC is his'), ih his', List.map_cons,
      List.prod_cons, mul_assoc]

/-- The probability of a sequence of draws is the mixture over the parameters of the product of
the probabilities of the single draws. -/
theorem iterSet_law [MeasurableSpace Θ] [MeasurableSpace σ] (P : Measure σ)
    [IsProbabilityMeasure P] {μ : Measure Θ} {d : σ → Θ × σ}
    (hd : Measurable d) (hl : HasLaw P d μ) {step : ι → Set (Θ × σ) → Set (Θ × σ)} {p : ι → Prop}
    (hm : ∀ i C, p i → MeasurableSet C → MeasurableSet (step i C)) {k : Θ → ι → ENNReal}
    (hk : ∀ᵐ θ ∂μ, ∀ i C, p i → MeasurableSet C →
      P (Prod.mk θ ⁻¹' step i C) = k θ i * P (Prod.mk θ ⁻¹' C))
    {B : Set σ} (hB : MeasurableSet B) (is : List ι) (his : ∀ i ∈ is, p i) :
    P (d ⁻¹' iterSet step (Set.univ ×ˢ B) is) = (∫⁻ θ, (is.map (k θ)).prod ∂μ) * P B := by
  have hC : MeasurableSet ((Set.univ : Set Θ) ×ˢ B) := MeasurableSet.univ.prod hB
  have hI := iterSet_meas hm hC is his
  rw [← Measure.map_apply hd hI, hl, Measure.prod_apply hI]
  have e : ∀ᵐ θ ∂μ, P (Prod.mk θ ⁻¹' iterSet step (Set.univ ×ˢ B) is) =
      (is.map (k θ)).prod * P B := by
    filter_upwards [hk] with θ hθ
    rw [iterSet_prob P hm hθ hC is his]
    congr 2
    ext s; simp
  rw [lintegral_congr_ae e, lintegral_mul_const' _ _ (measure_ne_top _ _)]

/-- `n` successive states satisfy `p`. -/
def Good (p : σ → Prop) (next : σ → σ) : ℕ → σ → Prop
  | 0, _ => True
  | n + 1, s => p s ∧ Good p next n (next s)

theorem good_ae [MeasurableSpace σ] (P : Measure σ) {p : σ → Prop} {next : σ → σ}
    (hp : ∀ᵐ s ∂P, p s) (hn : ∀ q : σ → Prop, (∀ᵐ s ∂P, q s) → ∀ᵐ s ∂P, q (next s)) (n : ℕ) :
    ∀ᵐ s ∂P, Good p next n s := by
  induction n with
  | zero => exact Filter.Eventually.of_forall fun _ => trivial
  | succ n ih =>
    filter_upwards [hp, hn _ ih] with s h1 h2
    exact ⟨h1, h2⟩

theorem sampleLoop_iff {eval : σ → Res (V × σ)} {R : ι → V → Prop} {θ : Θ}
    {step : ι → Set (Θ × σ) → Set (Θ × σ)} {p : σ → Prop} {next : σ → σ}
    (h1 : ∀ s v s', eval s = .ok (v, s') → s' = next s)
    (h2 : ∀ i C s, p s → ((∃ v s', R i v ∧ (θ, s') ∈ C ∧ eval s = .ok (v, s')) ↔ (θ, s) ∈ step i C))
    (C : Set (Θ × σ)) (is : List ι) (s : σ) (hs : Good p next is.length s) :
    (∃ vs s', List.Forall₂ R is vs ∧ (θ, s') ∈ C ∧
      sampleLoop eval is.length s = .ok (vs, s')) ↔ (θ, s) ∈ iterSet step C is := by
  induction is generalizing s with
  | nil =>
    simp only [List.length_nil, sampleLoop, iterSet, Res.ok.injEq, Prod.mk.injEq,
      List.forall₂_nil_left_iff]
    constructor
    · rintro ⟨vs, s', rfl, h, _, rfl⟩; exact h
    · intro h; exact ⟨[], s, rfl, h, rfl, rfl⟩
  | cons i is ih =>
    obtain ⟨hp, hg⟩ := hs
    rw [iterSet, ← h2 i _ s hp]
    simp only [List.length_cons, sampleLoop, Res.bind_eq_ok, Res.pure_eq, Res.ok.injEq,
      Prod.mk.injEq, Prod.exists]
    constructor
    · rintro ⟨vs, s', hR, hC, v, s₁, he, vs', s₂, hl, rfl, rfl⟩
      rw [List.forall₂_cons] at hR
      have hn := h1 _ _ _ he
      subst hn
      exact ⟨v, next s, hR.1, (ih (next s) hg).mp ⟨vs', s₂, hR.2, hC, hl⟩, he⟩
    · rintro ⟨v, s₁, hR, hm, he⟩
      have hn := h1 _ _ _ he
      subst hn
      obtain ⟨vs', s₂, hR', hC, hl⟩ := (ih (next s) hg).mpr hm
      exact ⟨v :: vs', s₂, List.Forall₂.cons hR hR', hC, v, next s, he, vs', s₂, hl, rfl, rfl⟩

theorem forall₂_eq_map {emb : ι → V} (is : List ι) (vs : List V) :
    List.Forall₂ (fun i v => v = emb i) is vs ↔ vs = is.map emb := by
  induction is generalizing vs with
  | nil => simp
  | cons i is ih =>
    cases vs with
    | nil => simp
    | cons v vs => simp [ih]

/-- Loops whose evaluations correspond. -/
theorem sampleLoop_congr {V' : Type} {e₁ : σ → Res (V × σ)} {e₂ : σ → Res (V' × σ)} {ok : V → V'}
    (p : V → Prop) (h : ∀ v, p v → ∀ s s', e₁ s = .ok (v, s') ↔ e₂ s = .ok (ok v, s'))
    (vs : List V) (hv : ∀ v ∈ vs, p v) (n : ℕ) (s s' : σ) :
    sampleLoop e₁ n s = .ok (vs, s') ↔ sampleLoop e₂ n s = .ok (vs.map ok, s') := by
  induction n generalizing s vs with
  | zero =>
    simp only [sampleLoop, Res.ok.injEq, Prod.mk.injEq]
    cases vs <;> simp
  | succ n ih =>
    simp only [sampleLoop, Res.bind_eq_ok, Res.pure_eq, Res.ok.injEq, Prod.mk.injEq, Prod.exists]
    cases vs with
    | nil => simp
    | cons v vs =>
      have hv1 := hv v (by simp)
      have hv2 : ∀ v ∈ vs, p v := fun w hw => hv w (by simp [hw])
      constructor
      · rintro ⟨v', s₁, he, vs', s₂, hl, hc, rfl⟩
        obtain ⟨rfl, rfl⟩ := List.cons.inj hc
        exact ⟨ok v', s₁, (h _ hv1 _ _).mp he, vs'.map ok, s₂, (ih _ hv2 _).mp hl, by simp, rfl⟩
      · rintro ⟨v', s₁, he, vs', s₂, hl, hc, rfl⟩
        rw [List.map_cons] at hc
        obtain ⟨rfl, rfl⟩ := List.cons.inj hc
        exact ⟨v, s₁, (h _ hv1 _ _).mpr he, vs, s₂, (ih _ hv2 _).mpr hl, rfl, rfl⟩

/-- Loops whose evaluations correspond through indices. -/
theorem sampleLoop_congr₂ {V' : Type} {e₁ : σ → Res (V × σ)} {e₂ : σ → Res (V' × σ)} {f : ι → V}
    {f' : ι → V'} (h : ∀ i s s', e₁ s = .ok (f i, s') ↔ e₂ s = .ok (f' i, s'))
    (is : List ι) (n : ℕ) (s s' : σ) :
    sampleLoop e₁ n s = .ok (is.map f, s') ↔ sampleLoop e₂ n s = .ok (is.map f', s') := by
  induction n generalizing s is with
  | zero =>
    simp only [sampleLoop, Res.ok.injEq, Prod.mk.injEq]
    cases is <;> simp
  | succ n ih =>
    simp only [sampleLoop, Res.bind_eq_ok, Res.pure_eq, Res.ok.injEq, Prod.mk.injEq, Prod.exists]
    cases is with
    | nil => simp
    | cons i is =>
      constructor
      · rintro ⟨v', s₁, he, vs', s₂, hl, hc, rfl⟩
        rw [List.map_cons] at hc
        obtain ⟨rfl, rfl⟩ := List.cons.inj hc
        exact ⟨f' i, s₁, (h _ _ _).mp he, is.map f', s₂, (ih _ _).mp hl, rfl, rfl⟩
      · rintro ⟨v', s₁, he, vs', s₂, hl, hc, rfl⟩
        rw [List.map_cons] at hc
        obtain ⟨rfl, rfl⟩ := List.cons.inj hc
        exact ⟨f i, s₁, (h _ _ _).mpr he, is.map f, s₂, (ih _ _).mpr hl, rfl, rfl⟩

/-- The next draw falls into `A`. -/
def drawStep (E : Θ × σ → V × σ) (A : Set V) (C : Set (Θ × σ)) : Set (Θ × σ) :=
  {q | (E q).1 ∈ A ∧ (q.1, (E q).2) ∈ C}

theorem drawStep_meas [MeasurableSpace Θ] [MeasurableSpace σ] [MeasurableSpace V]
    {E : Θ × σ → V × σ} (hE : Measurable E) (A : Set V) (C : Set (Θ × σ)) (hA : MeasurableSet A)
    (hC : MeasurableSet C) : MeasurableSet (drawStep E A C) :=
  (measurable_fst.comp hE hA).inter ((measurable_fst.prodMk (measurable_snd.comp hE)) hC)

theorem drawStep_prob [MeasurableSpace Θ] [MeasurableSpace σ] [MeasurableSpace V] (P : Measure σ)
    [IsProbabilityMeasure P] {E : Θ × σ → V × σ} (hE : Measurable E) {θ : Θ} {κ : Measure V}
    [SFinite κ] (h : HasLaw P (fun s => E (θ, s)) κ) (A : Set V) (C : Set (Θ × σ))
    (hA : MeasurableSet A) (hC : MeasurableSet C) :
    P (Prod.mk θ ⁻¹' drawStep E A C) = κ A * P (Prod.mk θ ⁻¹' C) := by
  have e : Prod.mk θ ⁻¹' drawStep E A C = (fun s => E (θ, s)) ⁻¹' (A ×ˢ (Prod.mk θ ⁻¹' C)) := rfl
  have hm : Measurable fun s => E (θ, s) := hE.comp measurable_prodMk_left
  rw [e, ← Measure.map_apply hm (hA.prod (measurable_prodMk_left hC)), h, Measure.prod_prod]

theorem good_true (next : σ → σ) (n : ℕ) (s : σ) : Good (fun _ => True) next n s := by
  induction n generalizing s with
  | zero => trivial
  | succ n ih => exact ⟨trivial, ih _⟩

theorem drawStep_loop {W : Type} {E : Θ × σ → V × σ} {θ : Θ} {eval : σ → Res (W × σ)} (emb : V → W)
    (hinj : Function.Injective emb) (he : ∀ s, eval s = .ok (emb (E (θ, s)).1, (E (θ, s)).2)) (B : Set σ) (As : List (Set V)) (s : σ) :
    (∃ vs s', List.Forall₂ (fun A v => ∃ y ∈ A, v = emb y) As vs ∧ s' ∈ B ∧
      sampleLoop eval As.length s = .ok (vs, s')) ↔
      (θ, s) ∈ iterSet (drawStep E) (Set.univ ×ˢ B) As := by
  rw [← sampleLoop_iff (R := fun A v => ∃ y ∈ A, v = emb y) (eval := eval) (p := fun _ => True)
    (next := fun s => (E (θ, s)).2) ?_ ?_ _ As s (good_true _ _ _)]
  · simp
  · intro s v s' h
    rw [he] at h
    exact (Prod.mk.inj (Res.ok.inj h)).2.symm
  · intro A C s _
    simp only [he, Res.ok.injEq, Prod.mk.injEq]
    constructor
    · rintro ⟨v, s', ⟨y, hy, rfl⟩, hC, h1, rfl⟩
      obtain rfl := hinj h1
      exact ⟨hy, hC⟩
    · rintro ⟨h1, h2⟩
      exact ⟨_, _, ⟨_, h1, rfl⟩, h2, rfl, rfl⟩

/-- `drawStep_loop` for single values. -/
theorem drawStep_values {W : Type} {E : Θ × σ → V × σ} {θ : Θ} {eval : σ → Res (W × σ)} (emb : V → W)
    (hinj : Function.Injective emb) (he : ∀ s, eval s = .ok (emb (E (θ, s)).1, (E (θ, s)).2))
    (B : Set σ) (ns : List V) (s : σ) :
    (∃ s' ∈ B, sampleLoop eval ns.length s = .ok (ns.map emb, s')) ↔
      (θ, s) ∈ iterSet (drawStep E) (Set.univ ×ˢ B) (ns.map fun v => {v}) := by
  rw [← drawStep_loop emb hinj he]
  simp only [List.length_map, List.forall₂_map_left_iff, Set.mem_singleton_iff, exists_eq_left,
    forall₂_eq_map]
  constructor
  · rintro ⟨s', h1, h2⟩; exact ⟨_, s', rfl, h1, h2⟩
  · rintro ⟨vs, s', rfl, h1, h2⟩; exact ⟨s', h1, h2⟩

end abstract

end Dist
