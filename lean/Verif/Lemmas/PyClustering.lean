import Verif.Lemmas.PYCache
import Verif.Props.Failure
import Verif.Props.PyMixture
import Verif.Model.PyRandom
import Verif.Spec.PyClustering

/-! # The Python clustering mixtures in terms of group sizes -/

namespace Dist.Py

open Spec Act FloatOps FloatNotation PitmanYor

variable {F : Type} [FloatOps F]

theorem asInts_nat (l : List Nat) (hs : l.sum ≤ 2147483647) :
    asInts (l.map Int.ofNat) = .ok (l.map Int.ofNat) := by
  induction l with
  | nil => rfl
  | cons n l ih =>
    simp only [List.sum_cons] at hs
    simp only [List.map_cons, asInts]
    rw [asInt_ok (by unfold InInt32 int32Min int32Max; simp; omega), Res.ok_bind, ih (by omega)]
    rfl

theorem asInts_bad (zs : List Int) (h : ∃ z ∈ zs, ¬ InInt32 z) : asInts zs = .fail := by
  induction zs with
  | nil => simp at h
  | cons z zs ih =>
    by_cases hz : InInt32 z
    · have : ∃ z ∈ zs, ¬ InInt32 z := by
        obtain ⟨w, hw, hb⟩ := h
        rcases List.mem_cons.mp hw with rfl | hw
        · exact absurd hz hb
        · exact ⟨w, hw, hb⟩
      simp only [asInts]
      rw [asInt_ok hz, Res.ok_bind, ih this]; rfl
    · simp only [asInts, asInt, if_neg hz]; rfl

theorem asInts_ok (zs : List Int) (h : ∀ z ∈ zs, InInt32 z) : asInts zs = .ok zs := by
  induction zs with
  | nil => rfl
  | cons z zs ih =>
    simp only [asInts]
    rw [asInt_ok (h z (by simp)), Res.ok_bind, ih fun w hw => h w (by simp [hw])]; rfl

theorem impInitLoop (cs : List Int) (i : Nat) (d : Driver) (s : Int) (hd : d.sampleSize = some s) :
    Imp.Driver.initLoop cs i d =
      match Driver.initLoop cs i d.emptyIds s with
      | .ok (e, s') => .ok ⟨d.counts, e, some s'⟩ ()
      | .fail => .fail d
      | .ub => .ub := by
  induction cs generalizing i d s with
  | nil =>
    simp only [Imp.Driver.initLoop, Driver.initLoop, pure_apply]
    cases d; simp_all
  | cons c cs ih =>
    simp only [Imp.Driver.initLoop, Driver.initLoop, get_bind, Driver.getSampleSize, hd, lift_ok,
      pure_bind]
    by_cases h32 : InInt32 (s + c)
    · rw [i32_of h32]
      simp only [lift_ok, pure_bind, modify_bind, Res.ok_bind]
      by_cases hc : c = 0
      · simp only [hc, if_true, modify_bind]
        rw [ih _ _ _ rfl]
        have : ∀ cs i e s, Driver.initLoop cs i e s ≠ .fail := by
          intro cs
          induction cs with
          | nil => simp [Driver.initLoop]
          | cons c cs ih =>
            intro i e s
            simp only [Driver.initLoop]
            unfold i32
            split_ifs
            · simpa using ih _ _ _
            · simpa using ih _ _ _
            · simp
            · simp
        cases h : Driver.initLoop cs (i + 1) (insert i d.emptyIds) (s + 0) <;>
          simp_all
      · simp only [hc, if_false]
        have : ∀ cs i e s, Driver.initLoop cs i e s ≠ .fail := by
          intro cs
          induction cs with
          | nil => simp [Driver.initLoop]
          | cons c cs ih =>
            intro i e s
            simp only [Driver.initLoop]
            unfold i32
            split_ifs
            · simpa using ih _ _ _
            · simpa using ih _ _ _
            · simp
            · simp
        rw [ih _ _ _ rfl]
        cases h : Driver.initLoop cs (i + 1) d.emptyIds (s + c) <;> simp_all
    · rw [i32, if_neg h32]; rfl

theorem impInit (lvl : Nat) (hl : 1 ≤ lvl) (l : List Nat) (hs : l.sum ≤ 2147483647)
    (e : Finset Nat) (n : Option Int) :
    Imp.Driver.init lvl ⟨l.map Int.ofNat, e, n⟩ =
      if 0 ∈ l then .ok (Driver.ofSizes l) () else .fail (Driver.ofSizes l) := by
  obtain ⟨e', h1, h2⟩ := Driver.initLoop_spec l 0 ∅ 0 (by omega)
  have he : e' = (Driver.ofSizes l).emptyIds := by
    ext j; rw [h2, Driver.mem_ofSizes]; simp
  have h1' : Driver.initLoop (l.map Int.ofNat) 0 ∅ 0 = .ok (e', ((l.sum : Nat) : Int)) := by
    have := h1; rw [Nat.zero_add] at this; exact this
  unfold Imp.Driver.init
  simp only [modify_bind, get_bind]
  rw [bind_apply, impInitLoop _ _ _ 0 rfl, h1', he]
  have : (⟨l.map Int.ofNat, (Driver.ofSizes l).emptyIds, some ((l.sum : Nat) : Int)⟩ : Driver)
      = Driver.ofSizes l := rfl
  simp only [this, Imp.Driver.validate, get_bind]
  by_cases h0 : 0 ∈ l
  · rw [if_pos h0, Driver.ofSizes_validate (.inr h0)]; rfl
  · rw [if_neg h0, Driver.ofSizes_validate_fail hl h0]; rfl

/-- The outcome of a call that leaves no trace when it fails. -/
def cleanOut {σ α : Type} (s : σ) : Res (σ × α) → Out σ α
  | .ok (s', a) => .ok s' a
  | .fail => .fail s
  | .ub => .ub

theorem clean_run {σ α : Type} {x : Act σ α} {s : σ} (hc : CleanOn x s) {r : Res (σ × α)}
    (h : (x s).res (fun s a => (s, a)) = r) : x s = cleanOut s r := by
  subst h
  cases hx : x s with
  | ok s' a => rfl
  | fail s' => rw [hc s' hx]; rfl
  | ub => rfl

theorem reachable_sizes (lvl : Nat) {l : List Nat} (hs : l.sum ≤ 2147483647) (h0 : 0 ∈ l) :
    (Driver.ofSizes l).Reachable lvl :=
  ⟨l, [], Driver.ofSizes l, hs, .inr h0, trivial,
    by rw [Driver.init_eq lvl l hs, if_pos (.inr h0)], [], rfl⟩

theorem impAdd {l : List Nat} (hs : l.sum < 2147483647) (h0 : 0 ∈ l) (g : Nat) :
    Imp.Driver.addValue pyLevel g 1 (Driver.ofSizes l) =
      if g < l.length then .ok (Driver.ofSizes (addTo l g 1)) (l[g]? == some 0)
      else .fail (Driver.ofSizes l) := by
  rw [clean_run (C65_driver pyLevel _ (reachable_sizes _ hs.le h0) g 1).1
    (C65_refines_driver pyLevel _ g 1).2.1]
  split_ifs with hg
  · have := Driver.addValue_ofSizes pyLevel (l := l) (g := g) (c := 1)
      ⟨hg, by omega, by omega⟩
    simp only [Nat.cast_one] at this
    rw [this]; rfl
  · unfold Driver.addValue
    rw [distAssert_of (by decide), Res.ok_bind, distAssert_of_not (by decide) (by simpa using hg)]
    rfl

theorem impRemove {l : List Nat} (hs : l.sum ≤ 2147483647) (h0 : 0 ∈ l) (g : Nat) :
    Imp.Driver.removeValue pyLevel g 1 (Driver.ofSizes l) =
      if l.getD g 0 ≠ 0 then .ok (Driver.ofSizes (removeFrom l g 1)) (l[g]? == some 1)
      else .fail (Driver.ofSizes l) := by
  rw [clean_run (C65_driver pyLevel _ (reachable_sizes _ hs h0) g 1).2
    (C65_refines_driver pyLevel _ g 1).2.2]
  split_ifs with hg
  · cases hx : l[g]? with
    | none => simp [List.getD_eq_getElem?_getD, hx] at hg
    | some n =>
      have hn : n ≠ 0 := by simpa [List.getD_eq_getElem?_getD, hx] using hg
      have := Driver.removeValue_ofSizes pyLevel (l := l) (g := g) (c := 1)
        ⟨by omega, n, hx, by omega⟩ (.inr h0) hs
      simp only [Nat.cast_one] at this
      rw [this]
      simp [hx, cleanOut]
  · unfold Driver.removeValue
    rw [distAssert_of (by decide), Res.ok_bind]
    by_cases hgl : g < l.length
    · rw [distAssert_of (by simpa using hgl), Res.ok_bind, getAt_of (by simpa using hgl),
        Res.ok_bind, distAssert_of_not (by decide)]
      · rfl
      · simp [List.getD_eq_getElem?_getD, hgl] at hg
        simp [hg]
    · rw [distAssert_of_not (by decide) (by simpa using hgl)]; rfl

/-- A Python integer that names a group reaches it; another one names no group. -/
theorem size_of_id {n : Nat} (hn : n ≤ 2147483648) (z : Int) (hz : InInt32 z) :
    (0 ≤ z ∧ z < n → toSize z = z.toNat) ∧ (¬ (0 ≤ z ∧ z < n) → n ≤ toSize z) := by
  refine ⟨fun h => toSize_nonneg hz h.1, fun h => ?_⟩
  rcases lt_or_ge z 0 with h0 | h0
  · have := toSize_neg hz h0; omega
  · rw [toSize_nonneg hz h0]; omega

theorem inInt32_of_lt {n : Nat} (hn : n ≤ 2147483648) {z : Int} (h : 0 ≤ z ∧ z < n) : InInt32 z := by
  unfold InInt32 int32Min int32Max; omega

/-! ## Pitman-Yor -/

theorem pyInit (m : PitmanYor F) (l : List Nat) (hs : l.sum ≤ 2147483647) (c0 : Cached F) :
    PYMixture.init m (l.map Int.ofNat) c0 =
      if 0 ∈ l then .ok (Cached.canon m l) () else .fail ⟨Driver.ofSizes l, c0.shifted⟩ := by
  unfold PYMixture.init
  rw [asInts_nat l hs]
  simp only [lift_ok, pure_bind, modify_bind]
  rw [bind_apply]
  simp only [PYMixture.onDriver, onMember]
  rw [impInit pyLevel (by decide) l hs]
  by_cases h0 : 0 ∈ l
  · simp only [if_pos h0]
    rw [modify_bind]
    obtain ⟨sh', h1, h2, h3⟩ := Cached.initLoop_ofSizes pyLevel m l l.length 0 (by omega)
      (Cached.resize c0.shifted l.length) (Cached.resize_length _ _) (by intro j k hj; omega)
    simp only [PYMixture.update, bind_assoc, get_bind, Driver.ofSizes_counts, List.length_map]
    rw [h1]
    simp only [lift_ok, pure_bind, modify_bind, get_bind]
    rw [Cached.updateEmpty_ofSizes m l sh' h2, Cached.mapIdx_eq_canon m l sh' h2 h3]
    rfl
  · simp only [if_neg h0]

theorem pyInit_canon (m : PitmanYor F) {l : List Nat} (hs : l.sum ≤ 2147483647) (h0 : 0 ∈ l) :
    FreshWith (PYMixture.init m) l (Cached.canon m l) := fun s0 => by
  rw [pyInit m l hs s0, if_pos h0]

theorem freshWith_eq (m : PitmanYor F) {l : List Nat} (hs : l.sum ≤ 2147483647) {c : Cached F}
    (h : FreshWith (PYMixture.init m) l c) : 0 ∈ l ∧ c = Cached.canon m l := by
  have := h PYMixture.new
  rw [pyInit m l hs] at this
  split_ifs at this with h0
  exact ⟨h0, by injection this with h; exact h.symm⟩

theorem pyAdd (m : PitmanYor F) {l : List Nat} (hs : l.sum < 2147483647) (h0 : 0 ∈ l)
    (hl : l.length ≤ 2147483648) (z : Int) :
    PYMixture.addValue m z (Cached.canon m l) =
      if 0 ≤ z ∧ z < l.length then
        .ok (Cached.canon m (addTo l z.toNat 1)) (l[z.toNat]? == some 0)
      else .fail (Cached.canon m l) := by
  unfold PYMixture.addValue
  by_cases hz : InInt32 z
  · rw [asInt_ok hz]
    simp only [lift_ok, pure_bind]
    rw [bind_apply]
    simp only [PYMixture.onDriver, onMember]
    have hd : (Cached.canon m l).driver = Driver.ofSizes l := rfl
    rw [hd, impAdd hs h0]
    split_ifs with h1 h2 h2
    · obtain ⟨e1, -⟩ := size_of_id hl z hz
      rw [e1 h2] at h1 ⊢
      have hc := Cached.addValue_canon pyLevel m (l := l) (g := z.toNat) (c := 1)
        ⟨h1, by omega, by omega⟩
      have hv := Driver.addValue_ofSizes pyLevel (l := l) (g := z.toNat) (c := 1)
        ⟨h1, by omega, by omega⟩
      simp only [Cached.addValue] at hc
      rw [hd, hv, Res.ok_bind] at hc
      simp only at hc ⊢
      by_cases hf : (l[z.toNat]? == some 0) = true
      · simp only [hf, if_true, bind_assoc, modify_bind, PYMixture.update, get_bind] at hc ⊢
        rw [Res.bind_eq_ok] at hc
        obtain ⟨c1, hc1, hc⟩ := hc
        rw [hc1]
        simp only [lift_ok, pure_bind, modify_bind, get_bind]
        rw [Res.bind_eq_ok] at hc
        obtain ⟨c2, hc2, hc⟩ := hc
        rw [hc2]
        simp only [lift_ok, pure_bind, modify_bind, pure_apply]
        injection hc with hc
        injection hc with hc
        rw [hc]
      · simp only [hf, if_false, PYMixture.update, bind_assoc, get_bind, pure_bind, Res.ok_bind,
          Bool.false_eq_true] at hc ⊢
        rw [Res.bind_eq_ok] at hc
        obtain ⟨c2, hc2, hc⟩ := hc
        rw [hc2]
        simp only [lift_ok, pure_bind, modify_bind, pure_apply]
        injection hc with hc
        injection hc with hc
        rw [hc]
    · have := (size_of_id hl z hz).2 h2; omega
    · have := (size_of_id hl z hz).1 h2; omega
    · rfl
  · rw [if_neg fun h => hz (inInt32_of_lt hl h), asInt, if_neg hz]; rfl

theorem pyRemove (m : PitmanYor F) {l : List Nat} (hs : l.sum ≤ 2147483647) (h0 : 0 ∈ l)
    (hl : l.length ≤ 2147483648) (z : Int) :
    PYMixture.removeValue m z (Cached.canon m l) =
      if 0 ≤ z ∧ l.getD z.toNat 0 ≠ 0 then
        .ok (Cached.canon m (removeFrom l z.toNat 1)) (l[z.toNat]? == some 1)
      else .fail (Cached.canon m l) := by
  have hlen : ∀ {g}, l.getD g 0 ≠ 0 → g < l.length := by
    intro g hg
    by_contra h
    exact hg (by simp [List.getD_eq_getElem?_getD, List.getElem?_eq_none (by omega : l.length ≤ g)])
  unfold PYMixture.removeValue
  by_cases hz : InInt32 z
  · rw [asInt_ok hz]
    simp only [lift_ok, pure_bind]
    rw [bind_apply]
    simp only [PYMixture.onDriver, onMember]
    have hd : (Cached.canon m l).driver = Driver.ofSizes l := rfl
    rw [hd, impRemove hs h0]
    by_cases h2 : 0 ≤ z ∧ l.getD z.toNat 0 ≠ 0
    · have h3 := hlen h2.2
      have e1 := (size_of_id hl z hz).1 ⟨h2.1, by omega⟩
      rw [e1, if_pos h2.2, if_pos h2]
      obtain ⟨n, hn⟩ : ∃ n, l[z.toNat]? = some n := ⟨_, List.getElem?_eq_getElem h3⟩
      have hn0 : n ≠ 0 := by simpa [List.getD_eq_getElem?_getD, hn] using h2.2
      have hval : (Op.remove z.toNat 1).Valid l := ⟨by omega, n, hn, by omega⟩
      have hc := Cached.removeValue_canon pyLevel m hval (.inr h0) hs
      have hv := Driver.removeValue_ofSizes pyLevel hval (.inr h0) hs
      simp only [Cached.removeValue] at hc
      rw [hd, hv, Res.ok_bind] at hc
      simp only at hc ⊢
      by_cases hf : (l[z.toNat]? == some 1) = true
      · simp only [hf, if_true, bind_assoc, modify_bind, PYMixture.update, get_bind] at hc ⊢
        rw [Res.bind_eq_ok] at hc
        obtain ⟨sh, hsh, hc⟩ := hc
        rw [hsh, Res.ok_bind]
        simp only [Res.pure_eq, lift_ok, pure_bind, modify_bind, get_bind]
        rw [Res.bind_eq_ok] at hc
        obtain ⟨c2, hc2, hc⟩ := hc
        rw [hc2]
        simp only [lift_ok, pure_bind, modify_bind, pure_apply]
        injection hc with hc
        injection hc with hc
        rw [hc]
      · simp only [hf, if_false, PYMixture.update, bind_assoc, get_bind, pure_bind,
          Bool.false_eq_true] at hc ⊢
        rw [Res.bind_eq_ok] at hc
        obtain ⟨c2, hc2, hc⟩ := hc
        rw [hc2]
        simp only [lift_ok, pure_bind, modify_bind, pure_apply]
        injection hc with hc
        injection hc with hc
        rw [hc]
    · rw [if_neg h2, if_neg]
      · rfl
      · intro h
        have h3 := hlen h
        by_cases h4 : 0 ≤ z ∧ z < l.length
        · rw [(size_of_id hl z hz).1 h4] at h; exact h2 ⟨h4.1, h⟩
        · have := (size_of_id hl z hz).2 h4; omega
  · rw [if_neg, asInt, if_neg hz]
    · rfl
    · rintro ⟨h1, h2⟩
      have := hlen h2
      exact hz (inInt32_of_lt hl ⟨h1, by omega⟩)

/-! ## Low entropy -/

theorem leInit (l : List Nat) (hs : l.sum ≤ 2147483647) (d0 : Driver) :
    LEMixture.init (l.map Int.ofNat) d0 =
      if 0 ∈ l then .ok (Driver.ofSizes l) () else .fail (Driver.ofSizes l) := by
  unfold LEMixture.init
  rw [asInts_nat l hs]
  simp only [lift_ok, pure_bind, modify_bind]
  exact impInit pyLevel (by decide) l hs _ _

theorem leInit_sizes {l : List Nat} (hs : l.sum ≤ 2147483647) (h0 : 0 ∈ l) :
    FreshWith LEMixture.init l (Driver.ofSizes l) := fun s0 => by
  rw [leInit l hs s0, if_pos h0]

theorem leFresh_eq {l : List Nat} (hs : l.sum ≤ 2147483647) {d : Driver}
    (h : FreshWith LEMixture.init l d) : 0 ∈ l ∧ d = Driver.ofSizes l := by
  have := h LEMixture.new
  rw [leInit l hs] at this
  split_ifs at this with h0
  exact ⟨h0, by injection this with h; exact h.symm⟩

theorem leAdd {l : List Nat} (hs : l.sum < 2147483647) (h0 : 0 ∈ l) (hl : l.length ≤ 2147483648)
    (z : Int) :
    LEMixture.addValue z (Driver.ofSizes l) =
      if 0 ≤ z ∧ z < l.length then .ok (Driver.ofSizes (addTo l z.toNat 1)) (l[z.toNat]? == some 0)
      else .fail (Driver.ofSizes l) := by
  unfold LEMixture.addValue
  by_cases hz : InInt32 z
  · rw [asInt_ok hz]
    simp only [lift_ok, pure_bind]
    rw [impAdd hs h0]
    split_ifs with h1 h2 h2
    · rw [(size_of_id hl z hz).1 h2]
    · have := (size_of_id hl z hz).2 h2; omega
    · have := (size_of_id hl z hz).1 h2; omega
    · rfl
  · rw [if_neg fun h => hz (inInt32_of_lt hl h), asInt, if_neg hz]; rfl

theorem leRemove {l : List Nat} (hs : l.sum ≤ 2147483647) (h0 : 0 ∈ l)
    (hl : l.length ≤ 2147483648) (z : Int) :
    LEMixture.removeValue z (Driver.ofSizes l) =
      if 0 ≤ z ∧ l.getD z.toNat 0 ≠ 0 then
        .ok (Driver.ofSizes (removeFrom l z.toNat 1)) (l[z.toNat]? == some 1)
      else .fail (Driver.ofSizes l) := by
  have hlen : ∀ {g}, l.getD g 0 ≠ 0 → g < l.length := by
    intro g hg
    by_contra h
    exact hg (by simp [List.getD_eq_getElem?_getD, List.getElem?_eq_none (by omega : l.length ≤ g)])
  unfold LEMixture.removeValue
  by_cases hz : InInt32 z
  · rw [asInt_ok hz]
    simp only [lift_ok, pure_bind]
    rw [impRemove hs h0]
    by_cases h2 : 0 ≤ z ∧ l.getD z.toNat 0 ≠ 0
    · have h3 := hlen h2.2
      rw [(size_of_id hl z hz).1 ⟨h2.1, by omega⟩, if_pos h2.2, if_pos h2]
    · rw [if_neg h2, if_neg]
      intro h
      have h3 := hlen h
      by_cases h4 : 0 ≤ z ∧ z < l.length
      · rw [(size_of_id hl z hz).1 h4] at h; exact h2 ⟨h4.1, h⟩
      · have := (size_of_id hl z hz).2 h4; omega
  · rw [if_neg, asInt, if_neg hz]
    · rfl
    · rintro ⟨h1, h2⟩
      have := hlen h2
      exact hz (inInt32_of_lt hl ⟨h1, by omega⟩)

/-! ## Sizes along a program -/

theorem sizes_inv {l : List Nat} (h0 : 0 ∈ l) (hs : l.sum < 2147483647) (op : PyCall) :
    0 ∈ op.sizes l ∧ (op.sizes l).sum ≤ l.sum + 1 ∧ (op.sizes l).length ≤ l.length + 1 := by
  cases op with
  | add z =>
    simp only [PyCall.sizes]
    split_ifs with h
    · have hv : (Op.add z.toNat 1).Valid l := ⟨by omega, by omega, by omega⟩
      refine ⟨?_, ?_, ?_⟩
      · rcases Driver.has_empty_step (lvl := 1) hv (.inr h0) with h | h
        · omega
        · exact h
      · obtain ⟨n, hn⟩ : ∃ n, l[z.toNat]? = some n := ⟨_, List.getElem?_eq_getElem hv.1⟩
        unfold addTo
        have h1 := Driver.sum_set_add (m := 1) hn
        have h2 := Driver.sum_set_add (m := n + 1) hn
        split_ifs with h3
        · rw [List.sum_append]
          rw [hn] at h3; injection h3 with h3
          simp; omega
        · simp only [List.getD_eq_getElem?_getD, hn, Option.getD_some]; omega
      · unfold addTo; split_ifs <;> simp
    · exact ⟨h0, by omega, by omega⟩
  | remove z =>
    simp only [PyCall.sizes]
    split_ifs with h
    · obtain ⟨h1, h2⟩ := h
      cases hn : l[z.toNat]? with
      | none => simp [List.getD_eq_getElem?_getD, hn] at h2
      | some n =>
        have hn0 : n ≠ 0 := by simpa [List.getD_eq_getElem?_getD, hn] using h2
        have hv : (Op.remove z.toNat 1).Valid l := ⟨by omega, n, hn, by omega⟩
        refine ⟨?_, ?_, ?_⟩
        · rcases Driver.has_empty_step (lvl := 1) hv (.inr h0) with h | h
          · omega
          · exact h
        · unfold removeFrom
          have h3 := Driver.sum_set_add (m := n - 1) hn
          split_ifs with h4
          · have := Driver.sum_swapRemove hn; omega
          · simp only [List.getD_eq_getElem?_getD, hn, Option.getD_some]; omega
        · unfold removeFrom; split_ifs
          · rw [Driver.swapRemove_length]; omega
          · simp
    · exact ⟨h0, by omega, by omega⟩

end Dist.Py
