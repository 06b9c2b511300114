import Verif.Model.Driver
import Verif.Model.IdTracker
import Verif.Model.DPDExample
import Verif.Model.Sparse
import Mathlib.Tactic.NormNum

/-!
# C56: counters are read only after initialisation

Each class has one member without an initialiser.  A state whose member is still
indeterminate is `none` there.  The theorems say that the documented initialisation sets the
member whatever the object held before, that no call ever un-sets it (valid or not, at every
debug level), and which calls on a fresh object read it.
-/

namespace Dist

/-! ## SparseCounter -/

namespace Spec

/-- The calls of a `SparseCounter` that can change it. -/
inductive CounterCall (K : Type) [DecidableEq K] where
  | clear
  | initCount (k : K) (v : Int)
  | add (k : K) (v : Int)
  | remove (k : K)
  | merge (other : SparseCounter K) (order : List K)
  | rename (a b : K)

def CounterCall.run {K : Type} [DecidableEq K] (lvl : Nat) (c : SparseCounter K) :
    CounterCall K → Res (SparseCounter K)
  | .clear => .ok c.clear
  | .initCount k v => c.initCount lvl k v
  | .add k v => do let r ← c.add k v; return r.2
  | .remove k => do let r ← c.remove k; return r.2
  | .merge other order => c.merge other order
  | .rename a b => c.rename lvl a b

/-- The calls of a `MixtureDriver` after `init`. -/
inductive DriverCall where
  | add (g : Nat) (c : Int)
  | remove (g : Nat) (c : Int)
  | init

def DriverCall.run (lvl : Nat) (d : Driver) : DriverCall → Res Driver
  | .add g c => do let r ← d.addValue lvl g c; return r.1
  | .remove g c => do let r ← d.removeValue lvl g c; return r.1
  | .init => d.init lvl

/-- The calls of a `MixtureIdTracker` after `init`. -/
inductive TrackerCall where
  | add
  | remove (p : Nat)
  | init (n : Nat)

def TrackerCall.run (lvl : Nat) (t : IdTracker) : TrackerCall → Res IdTracker
  | .add => t.addGroup
  | .remove p => t.removeGroup lvl p
  | .init n => t.init n

end Spec

open Spec

/-- Reading and writing the total again leaves it set. -/
theorem SparseCounter.add_total {K : Type} [DecidableEq K] {c c' : SparseCounter K} {k : K}
    {v n : Int} (h : c.add k v = .ok (n, c')) (hc : c.total.isSome) : c'.total.isSome := by
  unfold SparseCounter.add at h
  split_ifs at h with hv
  · obtain ⟨t, _, h⟩ := Res.bind_eq_ok.mp h
    cases hl : c.map.lookup k with
    | none =>
      rw [hl] at h
      injection h with h; injection h with _ h; subst h; rfl
    | some old =>
      rw [hl] at h
      simp only at h
      obtain ⟨w, _, h⟩ := Res.bind_eq_ok.mp h
      split_ifs at h <;> (injection h with h; injection h with _ h; subst h; rfl)
  · injection h with h; injection h with _ h; subst h; exact hc

/-- **C56 for the sparse counter.** `clear()` initialises whatever object it is called on, and
after that every state reached by any sequence of calls, with any arguments and at every
debug level, is initialised: no later call reads an indeterminate total. -/
theorem C56_counter {K : Type} [DecidableEq K] (lvl : Nat) (c0 : SparseCounter K)
    (calls : List (CounterCall K)) (c : SparseCounter K)
    (h : calls.foldlM (CounterCall.run lvl) c0.clear = .ok c) :
    ∃ t, c.total = some t ∧ c.getTotal = .ok t := by
  have key : ∀ (calls : List (CounterCall K)) (c0 c : SparseCounter K), c0.total.isSome →
      calls.foldlM (CounterCall.run lvl) c0 = .ok c → c.total.isSome := by
    intro calls
    induction calls with
    | nil => intro c0 c h0 h; injection h with h; rwa [← h]
    | cons op ops ih =>
      intro c0 c h0 h
      rw [List.foldlM_cons] at h
      obtain ⟨c1, h1, h2⟩ := Res.bind_eq_ok.mp h
      refine ih c1 c ?_ h2
      cases op with
      | clear => injection h1 with h1; rw [← h1]; rfl
      | initCount k v =>
        simp only [CounterCall.run, SparseCounter.initCount] at h1
        by_cases hv : v ≠ 0
        · rw [if_pos hv] at h1
          obtain ⟨_, _, h1⟩ := Res.bind_eq_ok.mp h1
          obtain ⟨_, _, h1⟩ := Res.bind_eq_ok.mp h1
          injection h1 with h1; rw [← h1]; rfl
        · rw [if_neg hv] at h1
          injection h1 with h1; rwa [← h1]
      | add k v =>
        simp only [CounterCall.run] at h1
        obtain ⟨⟨n, c'⟩, h1, h3⟩ := Res.bind_eq_ok.mp h1
        injection h3 with h3; rw [← h3]
        exact SparseCounter.add_total h1 h0
      | remove k =>
        simp only [CounterCall.run] at h1
        obtain ⟨⟨n, c'⟩, h1, h3⟩ := Res.bind_eq_ok.mp h1
        injection h3 with h3; rw [← h3]
        exact SparseCounter.add_total h1 h0
      | merge other order =>
        simp only [CounterCall.run, SparseCounter.merge] at h1
        obtain ⟨_, _, h1⟩ := Res.bind_eq_ok.mp h1
        obtain ⟨_, _, h1⟩ := Res.bind_eq_ok.mp h1
        obtain ⟨_, _, h1⟩ := Res.bind_eq_ok.mp h1
        injection h1 with h1; rw [← h1]; rfl
      | rename a b =>
        simp only [CounterCall.run, SparseCounter.rename] at h1
        split at h1
        · injection h1 with h1; rwa [← h1]
        · obtain ⟨_, _, h1⟩ := Res.bind_eq_ok.mp h1
          injection h1 with h1; rw [← h1]; exact h0
  have := key calls _ c rfl h
  obtain ⟨t, ht⟩ := Option.isSome_iff_exists.mp this
  exact ⟨t, ht, by unfold SparseCounter.getTotal; rw [ht]⟩

/-- Clear, add 3 of key 7, remove one, rename. -/
example : ∃ c, [CounterCall.add 7 3, .remove 7, .rename 7 8].foldlM (CounterCall.run 1)
    (SparseCounter.raw (K := Nat)).clear = .ok c := ⟨_, rfl⟩

/-- **C56, calls before `clear()`.** On a fresh counter every call that would count something
is undefined: `add` and `remove`, `init_count` of a non-zero count, `get_total`, and `merge`
(which reads both totals).  Looking up a count, renaming, and adding zero are harmless. -/
theorem C56_counter_before_clear {K : Type} [DecidableEq K] (lvl : Nat) (k a b : K) (v : Int)
    (other : SparseCounter K) (order : List K) :
    ((SparseCounter.raw (K := K)).getTotal = .ub) ∧
    (v ≠ 0 → (SparseCounter.raw (K := K)).add k v = .ub) ∧
    ((SparseCounter.raw (K := K)).remove k = .ub) ∧
    (v ≠ 0 → (SparseCounter.raw (K := K)).initCount lvl k v = .ub) ∧
    ((SparseCounter.raw (K := K)).merge SparseCounter.raw order = .ub) ∧
    (∀ c : SparseCounter K, c.merge SparseCounter.raw [] = .ub) ∧
    ((SparseCounter.raw (K := K)).getCount k = 0) ∧
    ((SparseCounter.raw (K := K)).add k 0 = .ok (0, SparseCounter.raw)) ∧
    ((SparseCounter.raw (K := K)).rename lvl a b = .ok SparseCounter.raw) := by
  have hadd : ∀ v : Int, v ≠ 0 → (SparseCounter.raw (K := K)).add k v = .ub := by
    intro v hv
    unfold SparseCounter.add
    rw [if_pos hv]; rfl
  refine ⟨rfl, hadd v, hadd (-1) (by norm_num), ?_, ?_, ?_, ?_, ?_, ?_⟩
  · intro hv
    unfold SparseCounter.initCount
    rw [if_pos hv]
    have : ((SparseCounter.raw (K := K)).map.contains k) = false := by
      simp [SparseCounter.raw, FMap.contains]
    simp only [this, Bool.not_false]
    rw [distAssert_of trivial]
    rfl
  · have hent : (SparseCounter.raw (K := K)).map.entries order = [] := by
      unfold FMap.entries SparseCounter.raw
      rw [List.filterMap_eq_nil_iff]
      intro x _
      simp
    unfold SparseCounter.merge
    rw [hent]
    rfl
  · intro c
    unfold SparseCounter.merge
    rfl
  · simp [SparseCounter.getCount, SparseCounter.raw]
  · unfold SparseCounter.add
    simp [SparseCounter.getCount, SparseCounter.raw]
  · unfold SparseCounter.rename
    simp [SparseCounter.raw]

/-- **C56, finding.** `DirichletProcessDiscrete::Shared::EXAMPLE()` counts its values in a
counter that was never cleared: it is undefined behaviour at every debug level. -/
theorem C56_dpd_example {F : Type} [FloatOps F] (lvl : Nat) :
    (DPD.Shared.EXAMPLE lvl : Res (DPD.Shared F)) = .ub := by
  unfold DPD.Shared.EXAMPLE
  rw [show List.range 100 = 0 :: (List.range 99).map (· + 1) by decide]
  unfold DPD.Shared.exampleLoop Sparse.add
  have : (FMap.empty : FMap UInt32 F).contains (UInt32.ofNat 0) = false := by
    simp [FMap.contains]
  simp only [this]
  rw [distAssert_of trivial]
  have h2 := (C56_counter_before_clear (K := UInt32) lvl (UInt32.ofNat 0) 0 0 1
    SparseCounter.raw []).2.1 (by norm_num)
  simp only [Res.ok_bind, Res.pure_eq, h2, Res.ub_bind]

/-! ## MixtureDriver -/

/-- **C56 for the mixture driver.** Whatever a driver object held before, after `init` and any
sequence of calls the sample size is initialised. -/
theorem C56_driver (lvl : Nat) (d d0 d' : Driver) (calls : List DriverCall)
    (h0 : d.init lvl = .ok d0) (h : calls.foldlM (DriverCall.run lvl) d0 = .ok d') :
    ∃ s, d'.sampleSize = some s ∧ d'.getSampleSize = .ok s := by
  have hinit : ∀ d d0 : Driver, d.init lvl = .ok d0 → d0.sampleSize.isSome := by
    intro d d0 h
    unfold Driver.init at h
    obtain ⟨⟨e, s⟩, _, h⟩ := Res.bind_eq_ok.mp h
    obtain ⟨_, _, h⟩ := Res.bind_eq_ok.mp h
    injection h with h; rw [← h]; rfl
  have key : ∀ (calls : List DriverCall) (d d' : Driver), d.sampleSize.isSome →
      calls.foldlM (DriverCall.run lvl) d = .ok d' → d'.sampleSize.isSome := by
    intro calls
    induction calls with
    | nil => intro d d' hd h; injection h with h; rwa [← h]
    | cons op ops ih =>
      intro d d' hd h
      rw [List.foldlM_cons] at h
      obtain ⟨d1, h1, h2⟩ := Res.bind_eq_ok.mp h
      refine ih d1 d' ?_ h2
      cases op with
      | init => exact hinit _ _ h1
      | add g c =>
        simp only [DriverCall.run] at h1
        obtain ⟨⟨d2, b⟩, h1, h3⟩ := Res.bind_eq_ok.mp h1
        injection h3 with h3; rw [← h3]
        unfold Driver.addValue at h1
        obtain ⟨_, _, h1⟩ := Res.bind_eq_ok.mp h1
        obtain ⟨_, _, h1⟩ := Res.bind_eq_ok.mp h1
        obtain ⟨_, _, h1⟩ := Res.bind_eq_ok.mp h1
        obtain ⟨_, _, h1⟩ := Res.bind_eq_ok.mp h1
        obtain ⟨_, _, h1⟩ := Res.bind_eq_ok.mp h1
        obtain ⟨_, _, h1⟩ := Res.bind_eq_ok.mp h1
        obtain ⟨_, _, h1⟩ := Res.bind_eq_ok.mp h1
        split_ifs at h1
        · obtain ⟨_, _, h1⟩ := Res.bind_eq_ok.mp h1
          injection h1 with h1; injection h1 with h1 _; rw [← h1]; rfl
        · injection h1 with h1; injection h1 with h1 _; rw [← h1]; rfl
      | remove g c =>
        simp only [DriverCall.run] at h1
        obtain ⟨⟨d2, b⟩, h1, h3⟩ := Res.bind_eq_ok.mp h1
        injection h3 with h3; rw [← h3]
        unfold Driver.removeValue at h1
        obtain ⟨_, _, h1⟩ := Res.bind_eq_ok.mp h1
        obtain ⟨_, _, h1⟩ := Res.bind_eq_ok.mp h1
        obtain ⟨_, _, h1⟩ := Res.bind_eq_ok.mp h1
        obtain ⟨_, _, h1⟩ := Res.bind_eq_ok.mp h1
        obtain ⟨_, _, h1⟩ := Res.bind_eq_ok.mp h1
        obtain ⟨_, _, h1⟩ := Res.bind_eq_ok.mp h1
        obtain ⟨_, _, h1⟩ := Res.bind_eq_ok.mp h1
        obtain ⟨_, _, h1⟩ := Res.bind_eq_ok.mp h1
        obtain ⟨_, _, h1⟩ := Res.bind_eq_ok.mp h1
        simp only at h1
        split at h1
        · obtain ⟨_, _, h1⟩ := Res.bind_eq_ok.mp h1
          obtain ⟨_, _, h1⟩ := Res.bind_eq_ok.mp h1
          obtain ⟨_, _, h1⟩ := Res.bind_eq_ok.mp h1
          obtain ⟨_, _, h1⟩ := Res.bind_eq_ok.mp h1
          injection h1 with h1; injection h1 with h1 _; rw [← h1]; rfl
        · injection h1 with h1; injection h1 with h1 _; rw [← h1]; rfl
  obtain ⟨s, hs⟩ := Option.isSome_iff_exists.mp (key calls d0 d' (hinit d d0 h0) h)
  exact ⟨s, hs, by unfold Driver.getSampleSize; rw [hs]⟩

/-- A driver with sizes 0 and 2: init, add to the empty group, remove from the other. -/
example : ∃ d0 d', (Driver.raw [0, 2]).init 2 = .ok d0 ∧
    [DriverCall.add 0 1, .remove 1 2].foldlM (DriverCall.run 2) d0 = .ok d' :=
  ⟨⟨[0, 2], {0}, some 2⟩, ⟨[1, 0], {1}, some 1⟩, by decide, by decide⟩

/-- **C56, a driver before `init`**: reading the sample size, adding, removing and (with at
least one group) scoring are undefined when the arguments are otherwise valid; with invalid
arguments at a debug level they may fail an assertion first.  None of them succeeds. -/
theorem C56_driver_before_init (lvl : Nat) (counts : List Int) (g : Nat) (c : Int) :
    (Driver.raw counts).getSampleSize = .ub ∧
    (∀ r, (Driver.raw counts).addValue lvl g c ≠ .ok r) ∧
    (∀ r, (Driver.raw counts).removeValue lvl g c ≠ .ok r) ∧
    (c ≠ 0 → (∃ n, counts[g]? = some n ∧ InInt32 (n + c)) →
      (Driver.raw counts).addValue lvl g c = .ub) ∧
    (∀ (F : Type) (scoreAdd : Int → Int → Int → Int → Res F), counts ≠ [] →
      (Driver.raw counts).scoreValue lvl counts.length scoreAdd = .ub) := by
  refine ⟨rfl, ?_, ?_, ?_, ?_⟩
  · intro r h
    unfold Driver.addValue at h
    obtain ⟨_, _, h⟩ := Res.bind_eq_ok.mp h
    obtain ⟨_, _, h⟩ := Res.bind_eq_ok.mp h
    obtain ⟨_, _, h⟩ := Res.bind_eq_ok.mp h
    obtain ⟨_, _, h⟩ := Res.bind_eq_ok.mp h
    obtain ⟨_, _, h⟩ := Res.bind_eq_ok.mp h
    obtain ⟨_, hs, h⟩ := Res.bind_eq_ok.mp h
    cases hs
  · intro r h
    unfold Driver.removeValue at h
    obtain ⟨_, _, h⟩ := Res.bind_eq_ok.mp h
    obtain ⟨_, _, h⟩ := Res.bind_eq_ok.mp h
    obtain ⟨_, _, h⟩ := Res.bind_eq_ok.mp h
    obtain ⟨_, _, h⟩ := Res.bind_eq_ok.mp h
    obtain ⟨_, _, h⟩ := Res.bind_eq_ok.mp h
    obtain ⟨_, _, h⟩ := Res.bind_eq_ok.mp h
    obtain ⟨_, _, h⟩ := Res.bind_eq_ok.mp h
    obtain ⟨_, hs, h⟩ := Res.bind_eq_ok.mp h
    cases hs
  · rintro hc ⟨n, hn, hi⟩
    obtain ⟨hg, hn⟩ := List.getElem?_eq_some_iff.mp hn
    subst hn
    unfold Driver.addValue
    rw [distAssert_of hc, Res.ok_bind,
      distAssert_of (show g < (Driver.raw counts).counts.length from hg), Res.ok_bind]
    show (getAt counts g >>= _) = _
    rw [getAt_of hg, Res.ok_bind]
    simp only
    rw [i32_of hi, Res.ok_bind]
    show (setAt counts g _ >>= _) = _
    rw [setAt_of hg, Res.ok_bind]
    rfl
  · intro F scoreAdd hne
    unfold Driver.scoreValue
    show (distAssert lvl 1 (counts.length = counts.length) >>= _) = _
    rw [distAssert_of rfl, Res.ok_bind]
    show (if counts.length < counts.length then _ else _) = _
    rw [if_neg (lt_irrefl _)]
    have : (Driver.raw counts).counts.isEmpty = false := by
      simpa [Driver.raw] using hne
    simp only [this]
    rfl

/-! ## MixtureIdTracker -/

/-- **C56 for the id tracker.** After `init` and any sequence of calls, whatever the object
held before, the number of ids handed out is initialised. -/
theorem C56_tracker (lvl : Nat) (t t0 t' : IdTracker) (n : Nat) (calls : List TrackerCall)
    (h0 : t.init n = .ok t0) (h : calls.foldlM (TrackerCall.run lvl) t0 = .ok t') :
    ∃ s, t'.globalSize = some s ∧ t'.getGlobalSize = .ok s := by
  have hadd : ∀ t t' : IdTracker, t.addGroup = .ok t' → t'.globalSize.isSome := by
    intro t t' h
    unfold IdTracker.addGroup at h
    obtain ⟨_, _, h⟩ := Res.bind_eq_ok.mp h
    injection h with h; rw [← h]; rfl
  have hadds : ∀ (n : Nat) (t t' : IdTracker), t.globalSize.isSome →
      IdTracker.addGroups n t = .ok t' → t'.globalSize.isSome := by
    intro n
    induction n with
    | zero => intro t t' ht h; injection h with h; rwa [← h]
    | succ n ih =>
      intro t t' ht h
      unfold IdTracker.addGroups at h
      obtain ⟨t1, h1, h⟩ := Res.bind_eq_ok.mp h
      exact ih t1 t' (hadd _ _ h1) h
  have hinit : ∀ (t t0 : IdTracker) n, t.init n = .ok t0 → t0.globalSize.isSome := by
    intro t t0 n h
    exact hadds n ⟨[], .empty, some 0⟩ _ rfl h
  have key : ∀ (calls : List TrackerCall) (t t' : IdTracker), t.globalSize.isSome →
      calls.foldlM (TrackerCall.run lvl) t = .ok t' → t'.globalSize.isSome := by
    intro calls
    induction calls with
    | nil => intro t t' ht h; injection h with h; rwa [← h]
    | cons op ops ih =>
      intro t t' ht h
      rw [List.foldlM_cons] at h
      obtain ⟨t1, h1, h2⟩ := Res.bind_eq_ok.mp h
      refine ih t1 t' ?_ h2
      cases op with
      | init n => exact hinit t t1 n h1
      | add => exact hadd _ _ h1
      | remove p =>
        simp only [TrackerCall.run] at h1
        unfold IdTracker.removeGroup at h1
        obtain ⟨_, _, h1⟩ := Res.bind_eq_ok.mp h1
        obtain ⟨_, _, h1⟩ := Res.bind_eq_ok.mp h1
        obtain ⟨_, _, h1⟩ := Res.bind_eq_ok.mp h1
        obtain ⟨_, _, h1⟩ := Res.bind_eq_ok.mp h1
        obtain ⟨_, _, h1⟩ := Res.bind_eq_ok.mp h1
        split_ifs at h1
        · obtain ⟨_, _, h1⟩ := Res.bind_eq_ok.mp h1
          obtain ⟨_, _, h1⟩ := Res.bind_eq_ok.mp h1
          obtain ⟨_, _, h1⟩ := Res.bind_eq_ok.mp h1
          split_ifs at h1
          injection h1 with h1; rw [← h1]; exact ht
        · injection h1 with h1; rw [← h1]; exact ht
  obtain ⟨s, hs⟩ := Option.isSome_iff_exists.mp (key calls t0 t' (hinit t t0 n h0) h)
  exact ⟨s, hs, by unfold IdTracker.getGlobalSize; rw [hs]⟩

/-- **C56, an id tracker before `init`**: adding a group reads the uninitialised size; looking
up an id reads it at every debug level that checks. -/
theorem C56_tracker_before_init (lvl : Nat) (g : Nat) :
    IdTracker.raw.addGroup = .ub ∧
    (1 ≤ lvl → IdTracker.raw.globalToPackedId lvl g = .ub) ∧
    (∀ r, IdTracker.raw.globalToPackedId lvl g ≠ .ok r) := by
  refine ⟨rfl, ?_, ?_⟩
  · intro h
    unfold IdTracker.globalToPackedId
    rw [if_pos h]
    rfl
  · intro r h
    unfold IdTracker.globalToPackedId at h
    obtain ⟨_, _, h⟩ := Res.bind_eq_ok.mp h
    obtain ⟨_, _, h⟩ := Res.bind_eq_ok.mp h
    obtain ⟨_, _, h⟩ := Res.bind_eq_ok.mp h
    simp [IdTracker.raw] at h

end Dist
