import Verif.Lemmas.Stirling
import Verif.Spec.Stirling

/-! # The cache invariant, for calls in sequence and for interleaved threads -/

namespace Dist.Stirling

open FloatOps FloatNotation

theorem getRow_rows {F : Type} [FloatOps F] (L : Lib F) (n m : Nat) (result : List F) :
    ∃ m', getRow L n (rows L m) result = .ok (rows L m',
      if n < 32 then fullRow L n else (List.range (n + 1)).map fun j =>
      if j = n then lit 0 1 else if j = 0 then L.negInf else approxEntry L n j) := by
  have hl : ((result ++ List.replicate (n + 1 - result.length) (lit 0 1 : F)).take
      (n + 1)).length = n + 1 := by
    simp; omega
  unfold getRow
  by_cases hn : n < 32
  · simp only [if_pos hn]
    exact ⟨_, rowExact_rows L n m _ hl⟩
  · simp only [if_neg hn]
    rw [rowApprox_eq L n (by omega) _ hl]
    exact ⟨m, rfl⟩

theorem calls_rows {F : Type} [FloatOps F] (L : Lib F) : ∀ (ns : List (Nat × List F)) (m : Nat),
    ∃ m', calls L ns (rows L m) = .ok (rows L m') := by
  intro ns
  induction ns with
  | nil => intro m; exact ⟨m, rfl⟩
  | cons c ns ih =>
    intro m
    obtain ⟨m1, h1⟩ := getRow_rows L c.1 m c.2
    obtain ⟨m2, h2⟩ := ih m1
    refine ⟨m2, ?_⟩
    unfold calls at h2 ⊢
    rw [List.foldlM_cons, h1]
    exact h2

/-- What a finished call holds. -/
def answer {F : Type} [FloatOps F] (L : Lib F) (n : Nat) : List F :=
  if n < 32 then fullRow L n else
    (List.range (n + 1)).map fun j =>
      if j = n then lit 0 1 else if j = 0 then L.negInf else approxEntry L n j

/-- Inside the critical section. -/
def PC.busy {F : Type} : PC F → Bool
  | .filling _ _ => true
  | .writing _ _ _ => true
  | _ => false

/-- What is known about one thread. -/
def PC.Good {F : Type} [FloatOps F] (L : Lib F) : PC F → Prop
  | .idle => True
  | .called n r => r.length = n + 1
  | .filling n r => r.length = n + 1 ∧ n < 32
  | .writing n r _ => r.length = n + 1 ∧ n < 32
  | .done n r => r = answer L n

/-- What the thread at `p` knows about the cache while it holds the lock. -/
def PC.CacheOk {F : Type} [FloatOps F] (L : Lib F) (cache : List (List F)) : PC F → Prop
  | .writing n _ k => ∃ m, 1 ≤ k ∧ k ≤ m + 1 ∧ m + 1 ≤ n ∧
      cache = rows L (m + 1) ++ [partialRow L (m + 1) k]
  | _ => ∃ m, cache = rows L m

structure Inv {F : Type} [FloatOps F] (L : Lib F) (s : Sys F) : Prop where
  own : ∀ t, (s.pc t).busy = true ↔ s.holder = some t
  good : ∀ t, (s.pc t).Good L
  free : s.holder = none → ∃ m, s.cache = rows L m
  held : ∀ t, s.holder = some t → (s.pc t).CacheOk L s.cache

/-- A step that moves thread `t` to `p` and does not touch the cache of another holder. -/
theorem Inv.update {F : Type} [FloatOps F] {L : Lib F} {s : Sys F} (h : Inv L s) (t : Nat)
    (p : PC F) (cache : List (List F)) (holder : Option Nat) (hg : p.Good L)
    (hb : p.busy = true ↔ holder = some t)
    (hother : ∀ t', t' ≠ t → (holder = some t' ↔ s.holder = some t'))
    (hfree : holder = none → ∃ m, cache = rows L m)
    (hown : holder = some t → p.CacheOk L cache)
    (hsame : (∃ t', t' ≠ t ∧ holder = some t') → cache = s.cache) :
    Inv L ⟨cache, holder, Function.update s.pc t p⟩ := by
  constructor
  · intro t'
    by_cases ht : t' = t
    · subst ht; simpa using hb
    · simp only [Function.update_of_ne ht]
      rw [h.own t', hother t' ht]
  · intro t'
    by_cases ht : t' = t
    · subst ht; simpa using hg
    · simp only [Function.update_of_ne ht]; exact h.good t'
  · exact hfree
  · intro t' hh
    by_cases ht : t' = t
    · subst ht; simpa using hown hh
    · simp only [Function.update_of_ne ht]
      rw [show cache = s.cache from hsame ⟨t', ht, hh⟩]
      exact h.held t' ((hother t' ht).mp hh)

theorem inv_step {F : Type} [FloatOps F] {L : Lib F} {s s' : Sys F} (h : Inv L s)
    (hs : Step L s s') : Inv L s' := by
  cases hs with
  | call t n row hp hr =>
    have hb : (s.pc t).busy = false := by
      rcases hp with hp | ⟨m, r, hp⟩ <;> rw [hp] <;> rfl
    have hno : s.holder ≠ some t := by
      intro hc; rw [← h.own t, hb] at hc; cases hc
    exact h.update t _ s.cache s.holder hr (by simp [PC.busy, hno]) (fun _ _ => Iff.rfl) h.free
      (fun hc => absurd hc hno) (fun _ => rfl)
  | approx t n row r hp hn hr =>
    have hno : s.holder ≠ some t := by
      intro hc; rw [← h.own t, hp] at hc; cases hc
    have hl := h.good t
    rw [hp] at hl
    refine h.update t _ s.cache s.holder ?_ (by simp [PC.busy, hno]) (fun _ _ => Iff.rfl) h.free
      (fun hc => absurd hc hno) (fun _ => rfl)
    rw [rowApprox_eq L n (by omega) row hl] at hr
    injection hr with hr
    show r = _
    rw [answer, if_neg (by omega), ← hr]
  | acquire t n row hp hn hl =>
    have hlen := h.good t
    rw [hp] at hlen
    refine h.update t _ s.cache (some t) ⟨hlen, hn⟩ (by simp [PC.busy]) ?_ ?_ ?_ ?_
    · intro t' ht
      rw [hl]
      constructor
      · intro hc; injection hc with hc; exact absurd hc.symm ht
      · intro hc; cases hc
    · intro hc; cases hc
    · intro _; exact h.free hl
    · rintro ⟨t', ht, hc⟩
      injection hc with hc; exact absurd hc.symm ht
  | push t n row r0 r1 hp hn h0 h1 =>
    have hown : s.holder = some t := (h.own t).mp (by rw [hp]; rfl)
    have hheld := h.held t hown
    have hg := h.good t
    rw [hp] at hheld hg
    obtain ⟨m, hm⟩ := hheld
    have hlen : s.cache.length = m := by rw [hm, length_rows]
    rw [hlen] at h0 h1 hn ⊢
    obtain ⟨e0, e1⟩ := partialRow_one L m
    rw [e0] at h0
    injection h0 with h0
    rw [← h0, e1] at h1
    injection h1 with h1
    rw [← h1]
    refine h.update t _ _ s.holder ?_ ?_ (fun _ _ => Iff.rfl) ?_ ?_ ?_
    · split_ifs <;> exact hg
    · split_ifs <;> simp [PC.busy, hown]
    · intro hc; rw [hown] at hc; cases hc
    · intro _
      split_ifs with hm1
      · obtain ⟨q, rfl⟩ : ∃ q, m = q + 1 := ⟨m - 1, by omega⟩
        exact ⟨q, le_refl _, by omega, hn, by rw [hm]⟩
      · exact ⟨m + 1, by rw [hm, rows_succ, partialRow_full L (by omega)]⟩
    · rintro ⟨t', ht, hc⟩
      rw [hown] at hc; injection hc with hc; exact absurd hc.symm ht
  | write t n k row prev cur cur' a b cache hp hk hprev ha hb hc hs hw =>
    have hown : s.holder = some t := (h.own t).mp (by rw [hp]; rfl)
    have hheld := h.held t hown
    have hg := h.good t
    rw [hp] at hheld hg
    obtain ⟨m, hk1, hk2, hmn, hm⟩ := hheld
    have hlen : s.cache.length = m + 2 := by rw [hm]; simp
    have e1 : s.cache.length - 1 = m + 1 := by omega
    have e2 : s.cache.length - 2 = m := by omega
    rw [e1] at hk hc hw
    rw [e2] at hprev hs
    rw [hm, getAt_rows L (by omega)] at hprev
    injection hprev with hprev
    rw [← hprev, getAt_fullRow L (by omega)] at ha hb
    injection ha with ha
    injection hb with hb
    have hcur : getAt s.cache (m + 1) = .ok (partialRow L (m + 1) k) := by
      rw [getAt_of (by omega)]
      simp [hm]
    rw [hcur] at hc
    injection hc with hc
    rw [← ha, ← hb, ← hc, setAt_partialRow L hk1 (by omega)] at hs
    injection hs with hs
    have hcache : cache = rows L (m + 1) ++ [partialRow L (m + 1) (k + 1)] := by
      rw [setAt_of (by omega)] at hw
      injection hw with hw
      rw [← hw, ← hs, hm]
      rw [List.set_append_right _ _ (by simp)]
      simp
    refine h.update t _ cache s.holder hg (by simp [PC.busy, hown]) (fun _ _ => Iff.rfl) ?_ ?_ ?_
    · intro hc; rw [hown] at hc; cases hc
    · intro _; exact ⟨m, by omega, by omega, hmn, hcache⟩
    · rintro ⟨t', ht, hc⟩
      rw [hown] at hc; injection hc with hc; exact absurd hc.symm ht
  | rowEnd t n k row hp hk =>
    have hown : s.holder = some t := (h.own t).mp (by rw [hp]; rfl)
    have hheld := h.held t hown
    have hg := h.good t
    rw [hp] at hheld hg
    obtain ⟨m, hk1, hk2, hmn, hm⟩ := hheld
    have hlen : s.cache.length = m + 2 := by rw [hm]; simp
    refine h.update t _ s.cache s.holder hg (by simp [PC.busy, hown]) (fun _ _ => Iff.rfl) ?_ ?_ ?_
    · intro hc; rw [hown] at hc; cases hc
    · intro _
      exact ⟨m + 2, by rw [hm, rows_succ L (m + 1), partialRow_full L (by omega)]⟩
    · intro _; rfl
  | copy t n row cached r hp hn hc hr =>
    have hown : s.holder = some t := (h.own t).mp (by rw [hp]; rfl)
    have hheld := h.held t hown
    have hg := h.good t
    rw [hp] at hheld hg
    obtain ⟨m, hm⟩ := hheld
    refine h.update t _ s.cache none ?_ (by simp [PC.busy]) ?_ ?_ ?_ ?_
    · have hg' := getAt_rows L (m := m) (k := n) (by rw [hm] at hn; simpa using hn) []
      rw [List.append_nil, ← hm, hc] at hg'
      injection hg' with hg'
      rw [hg', copyRow_fullRow L n row hg.1] at hr
      injection hr with hr
      show r = _
      rw [answer, if_pos hg.2, hr]
    · intro t' ht
      rw [hown]
      constructor
      · intro hc; cases hc
      · intro hc; injection hc with hc; exact absurd hc.symm ht
    · intro _; exact ⟨m, hm⟩
    · intro hc; cases hc
    · rintro ⟨t', ht, hc⟩; cases hc

theorem inv_reach {F : Type} [FloatOps F] {L : Lib F} {s : Sys F} (h : Reach L s) : Inv L s := by
  induction h with
  | start =>
    exact ⟨fun t => by simp [Sys.start, PC.busy], fun t => trivial, fun _ => ⟨0, rfl⟩,
      fun t ht => by cases ht⟩
  | step _ hs ih => exact inv_step ih hs

end Dist.Stirling
