import Verif.Lemmas.GibbsRun

/-! # The loop of subsample annealing -/

namespace Dist

open Spec FloatOps FloatNotation Finset

variable {ι R S G V σ : Type} [DecidableEq ι] [Fintype ι] [DecidableEq V]

omit [Fintype ι] [DecidableEq V] in
/-- Placing an item with the group that was drawn. -/
theorem place_const {lvl : Nat} {m : PitmanYor XR} {draw : List XR → σ → Res (Nat × σ)}
    {scored : Bool} {rows : ι → R} {st st' : Inference ι R S G V XR} {i : ι} {s s' : σ}
    (h : st.place lvl m draw scored rows i s = .ok (st', s')) :
    ∃ p, st.place lvl m (fun _ s => .ok (p, s)) scored rows i () = .ok (st', ()) := by
  unfold Inference.place at h
  obtain ⟨l, h1, h⟩ := Res.bind_eq_ok.mp h
  obtain ⟨⟨p, s1⟩, h2, h⟩ := Res.bind_eq_ok.mp h
  obtain ⟨w, h3, h⟩ := Res.bind_eq_ok.mp h
  obtain ⟨g, h4, h⟩ := Res.bind_eq_ok.mp h
  rw [Res.pure_eq, Res.ok.injEq, Prod.mk.injEq] at h
  refine ⟨p, ?_⟩
  unfold Inference.place
  rw [h1, Res.ok_bind]
  simp only [Res.ok_bind]
  rw [h3, Res.ok_bind, h4, ← h.1]
  rfl

namespace Ctx

variable {X : Ctx ι R S G V}

theorem Inv.place_total (hX : X.Ok) {draw : List XR → σ → Res (Nat × σ)} (hd : TotalDraw draw)
    (scored : Bool) {st : Inference ι R S G V XR} {k : Nat} (h : X.Inv st k) {i : ι}
    (hi : st.assignments i = none) (hk : k + 1 ≤ 4294967296) (s : σ) :
    ∃ st' s' g, st.place X.lvl X.model draw scored X.rows i s = .ok (st', s') ∧
      X.Inv st' (k + 1) ∧ st'.assignments = Inference.assign st.assignments i (some g) := by
  obtain ⟨ls, l, sts, _, hE, hl, hsts, hpl⟩ := h.place_at hX (draw := draw) scored hi hk
  have hlen : l.length = ls.length := by rw [hl, List.length_map]
  have hne : ls ≠ [] := by rintro rfl; simp at hE
  have hlne : l ≠ [] := by
    intro h0; rw [h0] at hlen; exact hne (List.length_eq_zero_iff.mp hlen.symm)
  obtain ⟨p, s', hp, hlt⟩ := hd l hlne s
  rw [hlen] at hlt
  obtain ⟨h1, h2, _⟩ := hsts p ls[p] (List.getElem?_eq_getElem hlt)
  refine ⟨sts p, s', ls[p].1, ?_, h1, h2⟩
  rw [hpl s, hp]
  simp only [Res.bind, if_pos hlt]

end Ctx

/-- The items between the two ends are the ones assigned. -/
structure Annealing.Window (X : Ctx ι R S G V) (items : List ι) (passes n : Nat)
    (x : Annealing ι R S G V XR) : Prop where
  inv : X.Inv x.inference (n + x.added)
  reached : Reached X.lvl X.model X.feats X.rows x.inference (n + x.added)
  order : x.removed ≤ x.added
  size : x.added ≤ x.removed + items.length
  state : x.state = passes - x.added * ((passes : Int) - 1) + x.removed * passes
  low : -((passes : Int) - 1) ≤ x.state
  high : x.state ≤ passes
  assigned : ∀ i, x.inference.assignments i ≠ none ↔
    ∃ t, x.removed ≤ t ∧ t < x.added ∧ items[t % items.length]? = some i

namespace Annealing

variable {X : Ctx ι R S G V} {items : List ι} {passes n : Nat}
  {x : Annealing ι R S G V XR}

omit [DecidableEq V] in
theorem Window.bounds (h : Window X items passes n x) (hp : 1 ≤ passes) :
    x.added ≤ passes * items.length ∧ x.removed ≤ (passes - 1) * items.length := by
  have h1 := h.state
  have h2 := h.high
  have h3 := h.size
  obtain ⟨q, rfl⟩ := Nat.exists_eq_add_of_le' hp
  push_cast at h1 h2
  have h3' : (x.added : Int) ≤ x.removed + items.length := by exact_mod_cast h3
  have ha : (x.added : Int) ≤ (q + 1) * items.length := by nlinarith
  have hr : (x.removed : Int) ≤ q * items.length := by
    have h5 : (x.removed : Int) * (q + 1) ≤ x.added * q := by nlinarith
    have h6 : (x.added : Int) * q ≤ (q + 1) * items.length * q :=
      mul_le_mul_of_nonneg_right ha (by positivity)
    have h7 : (x.removed : Int) * (q + 1) ≤ (q * items.length) * (q + 1) := by nlinarith
    exact le_of_mul_le_mul_right h7 (by positivity)
  refine ⟨by exact_mod_cast ha, ?_⟩
  rw [Nat.add_sub_cancel]
  exact_mod_cast hr

omit [DecidableEq ι] [Fintype ι] in
theorem get_mod {items : List ι} (hne : items ≠ []) (t : Nat) :
    ∃ i, items[t % items.length]? = some i := by
  have : t % items.length < items.length := Nat.mod_lt _ (List.length_pos_iff.mpr hne)
  exact ⟨_, List.getElem?_eq_getElem this⟩

omit [DecidableEq ι] [Fintype ι] in
theorem get_mod_inj {items : List ι} (hnd : items.Nodup) (hne : items ≠ []) {t u : Nat} {i : ι}
    (ht : items[t % items.length]? = some i) (hu : items[u % items.length]? = some i) :
    t % items.length = u % items.length := by
  have hl : t % items.length < items.length := Nat.mod_lt _ (List.length_pos_iff.mpr hne)
  exact (List.getElem?_inj hl hnd).mp (by rw [ht, hu])

omit [DecidableEq V] in
/-- The next item to add is assigned exactly if all items are. -/
theorem Window.full (h : Window X items passes n x) (hnd : items.Nodup) (hne : items ≠ []) {i : ι}
    (hi : items[x.added % items.length]? = some i) :
    x.inference.assignments i ≠ none ↔ x.added = x.removed + items.length := by
  have hpos : 0 < items.length := List.length_pos_iff.mpr hne
  rw [h.assigned]
  constructor
  · rintro ⟨t, h1, h2, h3⟩
    have he := get_mod_inj hnd hne h3 hi
    have hs := h.size
    by_contra hn
    have hlt : x.added - t < items.length := by omega
    have hd : items.length ∣ x.added - t := (Nat.modEq_iff_dvd' h2.le).mp he
    have := Nat.le_of_dvd (by omega) hd
    omega
  · intro he
    refine ⟨x.removed, le_refl _, by omega, ?_⟩
    rw [← hi, he, Nat.add_mod_right]

theorem step_of (hX : X.Ok) {draw : List XR → σ → Res (Nat × σ)} (hd : TotalDraw draw)
    (hnd : items.Nodup) (hne : items ≠ []) (hp : 1 ≤ passes)
    (hk : n + passes * items.length ≤ 4294967296) (h : Window X items passes n x) (s : σ) :
    (step X.lvl X.model draw X.rows items passes x s = .ok none ∧ 0 ≤ x.state ∧
      x.added = x.removed + items.length) ∨
    ∃ y s', step X.lvl X.model draw X.rows items passes x s = .ok (some (y, s')) ∧
      Window X items passes n y ∧ y.added + y.removed = x.added + x.removed + 1 := by
  have hpos : 0 < items.length := List.length_pos_iff.mpr hne
  unfold step
  by_cases hs : x.state ≥ 0
  · rw [if_pos hs]
    obtain ⟨i, hi⟩ := get_mod hne x.added
    simp only [loopLoad, hi]
    by_cases ha : x.inference.assignments i ≠ none
    · rw [if_pos ha]
      exact .inl ⟨rfl, hs, (h.full hnd hne hi).mp ha⟩
    · rw [if_neg ha]
      have hfull := (h.full hnd hne hi).not.mp ha
      have hsz : x.added + 1 ≤ x.removed + items.length := by have := h.size; omega
      -- the next bound
      have hb : x.added + 1 ≤ passes * items.length := by
        have h1 := h.state
        have h2 := h.high
        obtain ⟨q, rfl⟩ := Nat.exists_eq_add_of_le' hp
        push_cast at h1 h2
        have h3' : (x.added : Int) + 1 ≤ x.removed + items.length := by exact_mod_cast hsz
        have : (x.added : Int) + 1 ≤ (q + 1) * items.length := by nlinarith
        exact_mod_cast this
      obtain ⟨st', s', g, h1, h2, h3⟩ := h.inv.place_total hX hd true (not_not.mp ha) (by omega) s
      refine .inr ⟨⟨x.state - ((passes : Int) - 1), x.added + 1, x.removed, st'⟩, s', ?_, ?_, ?_⟩
      · rw [h1, Res.ok_bind]; rfl
      · obtain ⟨_, hc⟩ := place_const h1
        refine ⟨h2, .place h.reached (not_not.mp ha) hc, by have := h.order; simp only; omega, hsz, ?_, ?_, ?_, ?_⟩
        · simp only; rw [h.state]; push_cast; ring
        · simp only; omega
        · have := h.high; simp only; omega
        · intro j
          simp only
          rw [h3]
          by_cases hj : j = i
          · subst hj
            simp only [Inference.assign, if_true, ne_eq, reduceCtorEq, not_false_eq_true, true_iff]
            exact ⟨x.added, h.order, by omega, hi⟩
          · have ha' := h.assigned j
            simp only [Inference.assign, if_neg hj]
            rw [ha']
            constructor
            · rintro ⟨t, h4, h5, h6⟩; exact ⟨t, h4, by omega, h6⟩
            · rintro ⟨t, h4, h5, h6⟩
              refine ⟨t, h4, ?_, h6⟩
              rcases Nat.lt_succ_iff_lt_or_eq.mp h5 with h7 | h7
              · exact h7
              · rw [h7, hi, Option.some.injEq] at h6
                exact absurd h6.symm hj
      · simp only; omega
  · rw [if_neg hs]
    obtain ⟨i, hi⟩ := get_mod hne x.removed
    simp only [loopLoad, hi]
    have hlt : x.removed < x.added := by
      have h1 := h.state
      have h2 := h.order
      by_contra hn
      have he : x.removed = x.added := by omega
      rw [he] at h1
      have : x.state = passes + x.added := by rw [h1]; ring
      omega
    have hasg : x.inference.assignments i ≠ none :=
      (h.assigned i).mpr ⟨x.removed, le_refl _, hlt, hi⟩
    obtain ⟨g, hg⟩ := Option.ne_none_iff_exists'.mp hasg
    obtain ⟨st', h1, h2, h3⟩ := h.inv.takeOut hX hg
    refine .inr ⟨⟨x.state + passes, x.added, x.removed + 1, st'⟩, s, ?_, ?_, ?_⟩
    · rw [h1, Res.ok_bind]; rfl
    · refine ⟨h2, .takeOut h.reached h1, by simp only; omega, by have := h.size; simp only; omega, ?_, ?_, ?_, ?_⟩
      · simp only; rw [h.state]; push_cast; ring
      · have := h.low; simp only; omega
      · simp only; omega
      · intro j
        simp only
        rw [h3]
        by_cases hj : j = i
        · subst hj
          simp only [Inference.assign, if_true, ne_eq, not_true_eq_false, false_iff, not_exists,
            not_and]
          intro t h4 h5 h6
          have he := get_mod_inj hnd hne hi h6
          have hd : items.length ∣ t - x.removed := (Nat.modEq_iff_dvd' (by omega)).mp he
          have := Nat.le_of_dvd (by omega) hd
          have := h.size
          omega
        · have ha' := h.assigned j
          simp only [Inference.assign, if_neg hj]
          rw [ha']
          constructor
          · rintro ⟨t, h4, h5, h6⟩
            refine ⟨t, ?_, h5, h6⟩
            rcases Nat.eq_or_lt_of_le h4 with h7 | h7
            · rw [← h7, hi, Option.some.injEq] at h6
              exact absurd h6.symm hj
            · exact h7
          · rintro ⟨t, h4, h5, h6⟩; exact ⟨t, by omega, h5, h6⟩
    · simp only; omega

theorem loop_of (hX : X.Ok) {draw : List XR → σ → Res (Nat × σ)} (hd : TotalDraw draw)
    (hnd : items.Nodup) (hne : items ≠ []) (hp : 1 ≤ passes)
    (hk : n + passes * items.length ≤ 4294967296) (fuel : Nat) (h : Window X items passes n x)
    (hf : (2 * passes - 1) * items.length < fuel + x.added + x.removed) (s : σ) :
    ∃ y s', loop X.lvl X.model draw X.rows items passes fuel x s = .ok (some (y, s')) ∧
      Window X items passes n y ∧ 0 ≤ y.state ∧ y.added = y.removed + items.length := by
  induction fuel generalizing x s with
  | zero =>
    obtain ⟨h1, h2⟩ := h.bounds hp
    exfalso
    obtain ⟨q, rfl⟩ := Nat.exists_eq_add_of_le' hp
    rw [show 2 * (q + 1) - 1 = (q + 1) + q by omega, add_mul] at hf
    rw [Nat.add_sub_cancel] at h2
    omega
  | succ fuel ih =>
    unfold loop
    rcases step_of hX hd hnd hne hp hk h s with ⟨h1, h2, h3⟩ | ⟨y, s', h1, h2, h3⟩
    · exact ⟨x, s, by rw [h1]; rfl, h, h2, h3⟩
    · obtain ⟨z, s'', h4, h5⟩ := ih h2 (by omega) s'
      exact ⟨z, s'', by rw [h1]; exact h4, h5⟩

end Annealing

end Dist
