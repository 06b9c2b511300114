import Verif.Lemmas.Failure
import Verif.Lemmas.Driver
import Verif.Lemmas.IdTracker
import Verif.Base.XR

/-! # C65: what a failed call leaves behind -/

namespace Dist

open Spec Act FloatNotation

/-! ## The statement by statement functions are the modelled functions -/

theorem C65_refines_sparse {K V : Type} [DecidableEq K] (lvl : Nat) (m : FMap K V) (k : K) (v : V) :
    (Imp.Sparse.add lvl k v m).res (fun m _ => m) = Sparse.add lvl m k v ∧
    (Imp.Sparse.remove lvl k m).res (fun m _ => m) = Sparse.remove lvl m k ∧
    (Imp.Sparse.pop lvl k m).res (fun m v => (v, m)) = Sparse.pop lvl m k ∧
    (Imp.Sparse.set lvl k v m).res (fun m _ => m) = Sparse.set lvl m k v := by
  refine ⟨?_, ?_, ?_, ?_⟩
  · unfold Imp.Sparse.add Sparse.add check
    simp only [get_bind]
    cases h : m.contains k <;> simp [res_lift, res_ok]
  · unfold Imp.Sparse.remove Sparse.remove check
    simp [res_lift]
  · unfold Imp.Sparse.pop Sparse.pop check
    simp only [get_bind, res_lift_bind]
    cases h : m.lookup k <;> rfl
  · unfold Imp.Sparse.set Sparse.set check
    simp only [get_bind, res_lift_bind]
    cases h : m.lookup k <;> rfl

theorem C65_refines_counter {K : Type} [DecidableEq K] (lvl : Nat) (c : SparseCounter K) (k k' : K)
    (v : Int) :
    (Imp.SparseCounter.initCount lvl k v c).res (fun c _ => c) = c.initCount lvl k v ∧
    (Imp.SparseCounter.add k v c).res (fun c n => (n, c)) = c.add k v ∧
    (Imp.SparseCounter.remove k c).res (fun c n => (n, c)) = c.remove k ∧
    (Imp.SparseCounter.rename lvl k k' c).res (fun c _ => c) = c.rename lvl k k' := by
  have hadd : ∀ v, (Imp.SparseCounter.add k v c).res (fun c n => (n, c)) = c.add k v := by
    intro v
    unfold Imp.SparseCounter.add SparseCounter.add Imp.SparseCounter.bump
    by_cases hv : v ≠ 0
    · simp only [if_pos hv, bind_assoc, get_bind, res_lift_bind, modify_bind]
      cases SparseCounter.bumpTotal c.total v with
      | ok t =>
        simp only [Res.ok_bind]
        cases c.map.lookup k with
        | none => rfl
        | some old =>
          simp only [res_lift_bind]
          cases i32 (old + v) with
          | ok w =>
            simp only [Res.ok_bind, modify_bind]
            by_cases hw : w = 0
            · simp only [if_pos hw, modify_bind, pure_apply, res_ok, Res.pure_eq]
              congr 3
              apply FMap.ext; intro x
              simp only [FMap.lookup_erase, FMap.lookup_set]; split_ifs <;> rfl
            · simp [hw, res_ok]
          | fail => rfl
          | ub => rfl
      | fail => rfl
      | ub => rfl
    · simp only [if_neg hv]; rfl
  refine ⟨?_, hadd v, hadd (-1), ?_⟩
  · unfold Imp.SparseCounter.initCount SparseCounter.initCount Imp.SparseCounter.bump check
    by_cases hv : v ≠ 0
    · simp only [if_pos hv, get_bind]
      cases c.map.contains k <;> simp [res_lift_bind, res_lift, res_ok]
    · simp only [if_neg hv]; rfl
  · unfold Imp.SparseCounter.rename SparseCounter.rename check
    simp only [get_bind]
    cases c.map.lookup k with
    | none => rfl
    | some w =>
      simp only [modify_bind, get_bind]
      cases (c.map.erase k).contains k' <;> simp [res_lift, res_ok]

theorem C65_refines_driver (lvl : Nat) (d : Driver) (g : Nat) (c : Int) :
    (Imp.Driver.init lvl d).res (fun d _ => d) = d.init lvl ∧
    (Imp.Driver.addValue lvl g c d).res (fun d b => (d, b)) = d.addValue lvl g c ∧
    (Imp.Driver.removeValue lvl g c d).res (fun d b => (d, b)) = d.removeValue lvl g c := by
  refine ⟨?_, ?_, ?_⟩
  · have key : ∀ (cs : List Int) (i : Nat) (d : Driver) (s : Int), d.sampleSize = some s →
        ((do Imp.Driver.initLoop cs i; Imp.Driver.validate lvl : Act Driver Unit) d).res (fun d _ => d)
          = (do
            let (e, s) ← Driver.initLoop cs i d.emptyIds s
            let d : Driver := ⟨d.counts, e, some s⟩
            d.validate lvl
            return d) := by
      intro cs
      induction cs with
      | nil =>
        intro i d s hs
        simp only [Imp.Driver.initLoop, Driver.initLoop, pure_bind, Imp.Driver.validate, get_bind,
          res_lift, Res.ok_bind, ← hs]
        rfl
      | cons c cs ih =>
        intro i d s hs
        simp only [Imp.Driver.initLoop, Driver.initLoop, bind_assoc, get_bind, res_lift_bind,
          Driver.getSampleSize, hs, Res.ok_bind, modify_bind]
        cases i32 (s + c) with
        | ok t =>
          simp only [Res.ok_bind]
          by_cases hc : c = 0
          · simp only [if_pos hc, modify_bind, bind_assoc]
            exact ih (i + 1) _ t rfl
          · simp only [if_neg hc, pure_bind]
            exact ih (i + 1) _ t rfl
        | fail => rfl
        | ub => rfl
    unfold Imp.Driver.init Driver.init
    simp only [modify_bind, get_bind]
    rw [key d.counts 0 _ 0 rfl]
  · unfold Imp.Driver.addValue Driver.addValue check Imp.Driver.validate
    simp only [get_bind, res_lift_bind, modify_bind]
    congr 1; funext _
    congr 1; funext _
    congr 1; funext old
    congr 1; funext new
    congr 1; funext cs
    congr 1; funext s
    congr 1; funext s
    cases old == 0 <;> simp [-bind_pure_comp, res_ok, res_lift_bind]
  · unfold Imp.Driver.removeValue Driver.removeValue check Imp.Driver.validate
    simp only [get_bind, res_lift_bind, modify_bind]
    congr 1; funext _
    congr 1; funext _
    congr 1; funext old
    congr 1; funext _
    congr 1; funext _
    congr 1; funext new
    congr 1; funext cs
    congr 1; funext s
    congr 1; funext s
    cases new == 0 with
    | false => rfl
    | true =>
      simp only [if_true, res_lift_bind]
      congr 1; funext back
      by_cases h1 : g ≠ cs.length - 1
      · by_cases h2 : back = 0
        · simp [-bind_pure_comp, h1, h2, res_lift_bind, res_ok]
        · simp [-bind_pure_comp, h1, h2, res_lift_bind, res_ok]
      · simp [-bind_pure_comp, h1, res_lift_bind, res_ok]


theorem C65_refines_ids (lvl : Nat) (t : IdTracker) (p : Nat) :
    (Imp.IdTracker.removeGroup lvl p t).res (fun t _ => t) = t.removeGroup lvl p := by
  exact Imp.removeGroup_refines lvl t p

theorem C65_refines_groups {F : Type} [FloatOps F] (lvl : Nat) (sh : DPD.Shared F)
    (g : DD.Group) (v n : Int) (h : DPD.Group) (u : UInt32) (c : NICH.Group F) (x : F) :
    (Imp.ddAdd lvl v n g).res (fun g _ => g) = g.addRepeatedValue lvl v n ∧
    (Imp.ddAdd lvl v 1 g).res (fun g _ => g) = g.addValue lvl v ∧
    (Imp.ddAdd lvl v (-1) g).res (fun g _ => g) = g.removeValue lvl v ∧
    (Imp.dpdAdd lvl sh u n h).res (fun g _ => g) = DPD.Group.addRepeatedValue lvl sh h u n ∧
    (Imp.dpdAdd lvl sh u 1 h).res (fun g _ => g) = DPD.Group.addValue lvl sh h u ∧
    (Imp.dpdAdd lvl sh u (-1) h).res (fun g _ => g) = DPD.Group.removeValue lvl sh h u ∧
    (Imp.nichRemove x c).res (fun g _ => g) = c.removeValue x := by
  have hdd : ∀ n, (Imp.ddAdd lvl v n g).res (fun g _ => g) = g.addRepeatedValue lvl v n := by
    intro n
    unfold Imp.ddAdd DD.Group.addRepeatedValue check
    simp only [get_bind, res_lift_bind, modify_bind]
    rfl
  have hdpd : ∀ n, (Imp.dpdAdd lvl sh u n h).res (fun g _ => g)
      = DPD.Group.addRepeatedValue lvl sh h u n := by
    intro n
    unfold Imp.dpdAdd DPD.Group.addRepeatedValue check
    simp only [res_lift_bind]
    congr 1; funext _
    congr 1; funext _
    rw [← (C65_refines_counter lvl h u u n).2.1]
    simp only [bind_apply]
    cases Imp.SparseCounter.add u n h <;> rfl
  refine ⟨hdd n, hdd 1, hdd (-1), hdpd n, hdpd 1, hdpd (-1), ?_⟩
  unfold Imp.nichRemove NICH.Group.removeValue check
  simp only [get_bind, res_lift_bind, modify_bind]
  congr 1; funext _
  by_cases h0 : c.count - 1 = 0
  · have h1 : c.count - 1 ≤ 1 := by omega
    simp [h0, res_ok]
  · by_cases h1 : c.count - 1 ≤ 1
    · simp [h0, h1, res_ok]
    · simp [h0, h1, res_ok]

theorem C65_refines_dpd_shared {F σ : Type} [FloatOps F] (lvl : Nat) (rng : Rng F σ) (s : σ)
    (sh : DPD.Shared F) (v : UInt32) (msg : Proto.DPDSharedMsg F) :
    (Imp.dpdAddValue lvl rng v s sh).res (fun sh s => (sh, s)) = sh.addValue lvl rng v s ∧
    (Imp.dpdRemoveValue lvl v sh).res (fun sh _ => sh) = sh.removeValue lvl v ∧
    (Imp.dpdLoad lvl msg sh).res (fun sh _ => sh) = Proto.loadDPDShared lvl sh msg := by
  have hc : ∀ {α : Type} (v : UInt32) (n : Int) (f : Int → Act (DPD.Shared F) α) (sh : DPD.Shared F)
      {β : Type} (k : DPD.Shared F → α → β),
      ((Imp.onCounts (Imp.SparseCounter.add v n) >>= f) sh).res k =
        (sh.counts.add v n >>= fun r => (f r.1 { sh with counts := r.2 }).res k) := by
    intro α v n f sh β k
    rw [← (C65_refines_counter lvl sh.counts v v n).2.1]
    simp only [bind_apply, Imp.onCounts, onMember]
    cases Imp.SparseCounter.add v n sh.counts <;> rfl
  have hb : ∀ {α : Type} (v : UInt32) (b : F) (f : Unit → Act (DPD.Shared F) α) (sh : DPD.Shared F)
      {β : Type} (k : DPD.Shared F → α → β),
      ((Imp.onBetas (Imp.Sparse.add lvl v b) >>= f) sh).res k =
        (Sparse.add lvl sh.betas v b >>= fun m => (f () { sh with betas := m }).res k) := by
    intro α v b f sh β k
    rw [← (C65_refines_sparse lvl sh.betas v b).1]
    simp only [bind_apply, Imp.onBetas, onMember]
    cases Imp.Sparse.add lvl v b sh.betas <;> rfl
  have hp : ∀ {α : Type} (v : UInt32) (f : F → Act (DPD.Shared F) α) (sh : DPD.Shared F)
      {β : Type} (k : DPD.Shared F → α → β),
      ((Imp.onBetas (Imp.Sparse.pop lvl v) >>= f) sh).res k =
        (Sparse.pop lvl sh.betas v >>= fun r => (f r.1 { sh with betas := r.2 }).res k) := by
    intro α v f sh β k
    rw [← (C65_refines_sparse lvl sh.betas v (FloatOps.ofInt 0)).2.2.1]
    simp only [bind_apply, Imp.onBetas, onMember]
    cases Imp.Sparse.pop lvl v sh.betas <;> rfl
  refine ⟨?_, ?_, ?_⟩
  · unfold Imp.dpdAddValue DPD.Shared.addValue check
    simp only [res_lift_bind, hc]
    congr 1; funext _
    congr 1; funext r
    by_cases hr : r.1 = 1
    · simp only [if_pos hr, get_bind, res_lift_bind, modify_bind, hb]
      rfl
    · simp only [if_neg hr]; rfl
  · unfold Imp.dpdRemoveValue DPD.Shared.removeValue check Imp.SparseCounter.remove
      SparseCounter.remove
    simp only [res_lift_bind, hc]
    congr 1; funext _
    congr 1; funext r
    by_cases hr : r.1 = 0
    · simp only [if_pos hr, hp]
      rfl
    · simp only [if_neg hr]; rfl
  · have hbody : ∀ {α : Type} (v : UInt32) (b : F) (n : Int) (f : Unit → Act (DPD.Shared F) α)
        (sh : DPD.Shared F) {β : Type} (k : DPD.Shared F → α → β),
        ((Imp.dpdLoadBody lvl v b n >>= f) sh).res k =
          (distAssert0 (FloatOps.lt (FloatOps.ofInt 0) b = true) >>= fun _ =>
            Sparse.add lvl sh.betas v b >>= fun m => sh.counts.add v n >>= fun r =>
              (f () { sh with betas := m, counts := r.2 }).res k) := by
      intro α v b n f sh β k
      unfold Imp.dpdLoadBody check
      rw [bind_assoc, res_lift_bind]
      refine congrArg _ (funext fun _ => ?_)
      rw [bind_assoc, hb]
      refine congrArg _ (funext fun m => ?_)
      rw [bind_assoc, hc]
      rfl
    have loop : ∀ (vs : List UInt32) (bs : List F) (cs : List UInt64) (sum : F)
        (sh : DPD.Shared F) {α β : Type} (f : F → Act (DPD.Shared F) α) (k : DPD.Shared F → α → β),
        ((Imp.dpdLoadLoop lvl vs bs cs sum >>= f) sh).res k =
          (Proto.loadDPDLoop lvl vs bs cs sh.betas sh.counts sum >>= fun r =>
            (f r.2.2 { sh with betas := r.1, counts := r.2.1 }).res k) := by
      intro vs
      induction vs with
      | nil =>
        intro bs cs sum sh α β f k
        rw [Imp.dpdLoadLoop_nil, Proto.loadDPDLoop, pure_bind]
        rfl
      | cons v vs ih =>
        intro bs cs sum sh α β f k
        cases bs with
        | nil =>
          rw [Imp.dpdLoadLoop_short, Proto.loadDPDLoop]
          · rfl
          all_goals simp
        | cons b bs =>
          cases cs with
          | nil =>
            rw [Imp.dpdLoadLoop_short', Proto.loadDPDLoop]
            · rfl
            all_goals simp
          | cons c cs =>
            rw [Imp.dpdLoadLoop_cons, bind_assoc, hbody, Proto.loadDPDLoop]
            generalize Proto.u64ToInt c = n
            simp only [ih, bind_assoc]
    unfold Imp.dpdLoad Proto.loadDPDShared check
    simp only [res_lift_bind, modify_bind, loop]
    rfl

/-- The part of the array in use. -/
theorem C65_refines_dd_load {F : Type} [FloatOps F] (m : Imp.DDShared F) (s : DD.Shared F)
    (msg : Proto.DDSharedMsg F) (g : Imp.DDGroup) (g' : DD.Group) (gmsg : Proto.DDGroupMsg) :
    (Imp.ddSharedLoad msg m).res (fun m _ => ⟨m.alphas.take m.dim⟩) =
      Proto.loadDDShared m.alphas.length s msg ∧
    (Imp.ddGroupLoad gmsg g).res (fun m _ => ⟨m.countSum, m.counts.take m.dim⟩) =
      Proto.loadDDGroup g.counts.length g' gmsg := by
  constructor
  · have loop : ∀ (as : List F) (i : Nat) (m : Imp.DDShared F), m.dim = i + as.length →
        m.dim ≤ m.alphas.length →
        (Imp.ddSharedLoop as i m).res (fun m _ => (⟨m.alphas.take m.dim⟩ : DD.Shared F)) =
          .ok ⟨m.alphas.take i ++ as⟩ := by
      intro as
      induction as with
      | nil =>
        intro i m hd hl
        simp only [List.length_nil, Nat.add_zero] at hd
        simp [Imp.ddSharedLoop, res_ok, hd]
      | cons a as ih =>
        intro i m hd hl
        simp only [List.length_cons] at hd
        have hi : i < m.alphas.length := by omega
        simp only [Imp.ddSharedLoop, get_bind, res_lift_bind, setAt_of hi, Res.ok_bind, modify_bind]
        rw [ih (i + 1) ⟨m.dim, m.alphas.set i a⟩ (by simp only; omega) (by simpa using hl)]
        congr 2
        rw [List.take_succ_eq_append_getElem (by simpa using hi), List.take_set_of_le (Nat.le_refl i)]
        simp
    unfold Imp.ddSharedLoad Proto.loadDDShared check
    simp only [modify_bind, get_bind, res_lift_bind]
    by_cases h : msg.alphas.length ≤ m.alphas.length
    · rw [distAssert_of h, distAssert0_of h, Res.ok_bind, Res.ok_bind, loop _ _ _ (by simp) h]
      simp
    · rw [distAssert_of_not (by omega) h, distAssert0_of_not h]; rfl
  · have loop : ∀ (xs : List UInt64) (i : Nat) (m : Imp.DDGroup), m.dim = i + xs.length →
        m.dim ≤ m.counts.length →
        (Imp.ddGroupLoop xs i m).res (fun m _ => (⟨m.countSum, m.counts.take m.dim⟩ : DD.Group)) =
          Proto.loadDDLoop xs m.countSum (m.counts.take i) := by
      intro xs
      induction xs with
      | nil =>
        intro i m hd hl
        simp only [List.length_nil, Nat.add_zero] at hd
        simp [Imp.ddGroupLoop, Proto.loadDDLoop, res_ok, hd]
      | cons a as ih =>
        intro i m hd hl
        simp only [List.length_cons] at hd
        have hi : i < m.counts.length := by omega
        simp only [Imp.ddGroupLoop, Proto.loadDDLoop, get_bind, res_lift_bind, setAt_of hi,
          Res.ok_bind, modify_bind]
        congr 1; funext s
        rw [ih (i + 1) ⟨m.dim, s, m.counts.set i _⟩ (by simp only; omega) (by simpa using hl)]
        congr 1
        rw [List.take_succ_eq_append_getElem (by simpa using hi), List.take_set_of_le (Nat.le_refl i)]
        simp
    unfold Imp.ddGroupLoad Proto.loadDDGroup check
    simp only [modify_bind, get_bind, res_lift_bind]
    by_cases h : gmsg.counts.length ≤ g.counts.length
    · rw [distAssert_of h, distAssert0_of h, Res.ok_bind, Res.ok_bind, loop _ _ _ (by simp) h]
      simp
    · rw [distAssert_of_not (by omega) h, distAssert0_of_not h]; rfl

/-! ## Calls that leave no trace when they fail -/

/-- All calls of the containers but `rename`, which is not clean (`C65_rename`). -/
theorem C65_containers_partial {K V : Type} [DecidableEq K] (lvl : Nat) (k : K) (v : V) (n : Int) :
    Clean (Imp.Sparse.add lvl k v) ∧ Clean (Imp.Sparse.remove (V := V) lvl k) ∧
    Clean (Imp.Sparse.pop (V := V) lvl k) ∧ Clean (Imp.Sparse.set lvl k v) ∧
    Clean (Imp.SparseCounter.initCount lvl k n) ∧
    (∀ c c', Imp.SparseCounter.add k n c ≠ .fail c') := by
  refine ⟨?_, ?_, ?_, ?_, ?_, ?_⟩
  · intro m m' h
    unfold Imp.Sparse.add check at h
    simp only [get_bind] at h
    cases hk : m.contains k
    · simp [hk] at h
    · simp [hk] at h; exact h.2.symm
  · intro m m' h
    unfold Imp.Sparse.remove check at h
    simp only [get_bind, modify_bind, lift_fail_iff] at h
    obtain ⟨h1, rfl⟩ := h
    have hk : m.lookup k = none := by
      by_contra hc
      rw [distAssert_of (by unfold FMap.contains; exact Option.isSome_iff_ne_none.mpr hc)] at h1
      exact absurd h1 (by simp)
    apply FMap.ext; intro x; simp only [FMap.lookup_erase]; split_ifs with hx
    · rw [hx, hk]
    · rfl
  · intro m m' h
    unfold Imp.Sparse.pop check at h
    simp only [get_bind, lift_bind_fail_iff] at h
    rcases h with ⟨_, h⟩ | ⟨_, _, h⟩
    · exact h.symm
    · cases hk : m.lookup k <;> simp [hk] at h
  · intro m m' h
    unfold Imp.Sparse.set check at h
    simp only [get_bind, lift_bind_fail_iff] at h
    rcases h with ⟨_, h⟩ | ⟨_, _, h⟩
    · exact h.symm
    · cases hk : m.lookup k <;> simp [hk] at h
  · intro c c' h
    unfold Imp.SparseCounter.initCount Imp.SparseCounter.bump check at h
    by_cases hn : n ≠ 0
    · simp only [if_pos hn, get_bind] at h
      have hb : SparseCounter.bumpTotal c.total n ≠ .fail := by
        unfold SparseCounter.bumpTotal i32
        cases c.total <;> simp; split_ifs <;> simp
      cases hk : c.map.contains k
      · simp [hk, hb] at h
      · simp [hk, hb] at h; exact h.2.symm
    · simp [hn] at h
  · intro c c' h
    have := (C65_refines_counter 0 c k k n).2.1
    rw [h] at this
    revert this
    unfold SparseCounter.add SparseCounter.bumpTotal i32
    cases c.total with
    | none => split_ifs <;> simp [Out.res]
    | some t =>
      by_cases hn : n ≠ 0
      · simp only [if_pos hn]
        by_cases ht : InInt32 (t + n)
        · simp only [if_pos ht, Res.ok_bind]
          cases c.map.lookup k with
          | none => simp [Out.res]
          | some o =>
            by_cases ho : InInt32 (o + n)
            · simp only [if_pos ho, Res.ok_bind]; split_ifs <;> simp [Out.res]
            · simp [ho, Out.res]
        · simp [ht, Out.res]
      · simp [hn, Out.res]


/-- The groups of the feature models, whatever the hyperparameters. -/
theorem C65_groups {F : Type} [FloatOps F] (lvl : Nat) (sh : DPD.Shared F) (v n : Int) (u : UInt32)
    (x : F) :
    Clean (Imp.ddAdd lvl v n) ∧ Clean (Imp.dpdAdd lvl sh u n) ∧ Clean (Imp.nichRemove x) := by
  refine ⟨?_, ?_, ?_⟩
  · intro g g' h
    unfold Imp.ddAdd check at h
    simp only [get_bind, lift_bind_fail_iff, modify_bind] at h
    rcases h with ⟨_, h⟩ | ⟨_, _, ⟨h, _⟩ | ⟨s, _, ⟨h, _⟩ | ⟨a, _, ⟨h, _⟩ | ⟨b, _, ⟨h, _⟩ | ⟨e, _, h⟩⟩⟩⟩⟩
    · exact h.symm
    · unfold i32 at h; split_ifs at h
    · unfold DD.readAt getAt at h; split_ifs at h; split at h <;> simp at h
    · unfold i32 at h; split_ifs at h
    · unfold DD.writeAt setAt at h; split_ifs at h
    · simp at h
  · intro g g' h
    unfold Imp.dpdAdd check at h
    simp only [lift_bind_fail_iff] at h
    rcases h with ⟨_, h⟩ | ⟨_, _, ⟨_, h⟩ | ⟨_, _, h⟩⟩
    · exact h.symm
    · exact h.symm
    · exfalso
      rw [bind_apply] at h
      cases hr : Imp.SparseCounter.add u n g with
      | ok s a => rw [hr] at h; simp at h
      | fail s => exact (C65_containers_partial lvl u x n).2.2.2.2.2 _ _ hr
      | ub => rw [hr] at h; simp at h
  · intro g g' h
    unfold Imp.nichRemove check at h
    simp only [get_bind, lift_bind_fail_iff, modify_bind] at h
    rcases h with ⟨_, h⟩ | ⟨_, _, h⟩
    · exact h.symm
    · by_cases h0 : g.count - 1 = 0
      · simp [h0] at h
      · by_cases h1 : g.count - 1 ≤ 1 <;> simp [h0, h1] at h

/-- The mixture driver, in every state a history of proper calls can reach: whatever group and
count the next call names, if it fails it leaves no trace. -/
theorem C65_driver (lvl : Nat) (d : Driver) (hd : d.Reachable lvl) (g : Nat) (c : Int) :
    CleanOn (Imp.Driver.addValue lvl g c) d ∧ CleanOn (Imp.Driver.removeValue lvl g c) d := by
  obtain ⟨l, rfl, hs, he⟩ := hd.eq_ofSizes
  have hg32 : ∀ x, i32 x ≠ .fail := by intro x; unfold i32; split_ifs <;> simp
  have hget : ∀ (l : List Int) i, getAt l i ≠ .fail := by
    intro l i; unfold getAt; cases l[i]? <;> simp
  have hset : ∀ (l : List Int) i x, setAt l i x ≠ .fail := by
    intro l i x; unfold setAt; split_ifs <;> simp
  have hback : ∀ (l : List Int), backOf l ≠ .fail := by
    intro l; unfold backOf; cases l.getLast? <;> simp
  have hpop : ∀ (l : List Int), popBack l ≠ .fail := by
    intro l; unfold popBack; split_ifs <;> simp
  have hss : (Driver.ofSizes l).getSampleSize ≠ .fail := by
    simp [Driver.getSampleSize]
  constructor
  · intro d' h
    unfold Imp.Driver.addValue check at h
    simp only [get_bind, lift_bind_fail_iff, modify_bind] at h
    rcases h with ⟨_, h⟩ | ⟨_, h1, ⟨_, h⟩ | ⟨_, h2, ⟨h, _⟩ | ⟨old, h3, ⟨h, _⟩ | ⟨new, h4, ⟨h, _⟩ |
      ⟨cs, h5, ⟨h, _⟩ | ⟨s0, h6, ⟨h, _⟩ | ⟨s, h7, h⟩⟩⟩⟩⟩⟩⟩
    · exact h.symm
    · exact h.symm
    · exact absurd h (hget _ _)
    · exact absurd h (hg32 _)
    · exact absurd h (hset _ _ _)
    · exact absurd h hss
    · exact absurd h (hg32 _)
    · exfalso
      cases hold : old == 0 with
      | false => simp [hold] at h
      | true =>
        have hold' : old = 0 := by simpa using hold
        subst hold'
        simp only [hold, if_true, modify_bind, Imp.Driver.validate, get_bind, bind_assoc,
          lift_bind_fail_iff, pure_apply] at h
        rcases h with ⟨h, _⟩ | ⟨_, _, h⟩
        swap
        · simp at h
        rw [getAt_eq_ok, Driver.ofSizes_counts] at h3
        rw [i32_eq_ok] at h4
        obtain ⟨_, h4⟩ := h4
        have hgl : g < l.length := by
          have := (List.getElem?_eq_some_iff.mp h3).1
          simpa using this
        have h5' : cs = (l.map Int.ofNat).set g new := by
          rw [Driver.ofSizes_counts, setAt_of (by simpa using hgl)] at h5
          simpa using h5.symm
        have h0 : l[g]? = some 0 := by
          rw [List.getElem?_map] at h3
          cases hx : l[g]? with
          | none => rw [hx] at h3; simp at h3
          | some w => rw [hx] at h3; simp at h3; rw [h3]
        unfold Driver.validate at h
        have hc1 : (insert cs.length ((Driver.ofSizes l).emptyIds.erase g)).card ≠ 0 :=
          Finset.card_ne_zero_of_mem (Finset.mem_insert_self _ _)
        rw [distAssert_of hc1, Res.ok_bind] at h
        by_cases hl2 : 2 ≤ lvl
        swap
        · rw [distAssert_of_lt (by omega)] at h; simp at h
        have hc0 : c ≠ 0 := (distAssert_eq_ok.mp h1) (by omega)
        rw [distAssert_of] at h
        · simp at h
        intro i hi
        simp only [Finset.mem_insert, Finset.mem_erase, Driver.mem_ofSizes]
        subst h5'
        simp only [List.length_append, List.length_set, List.length_map, List.length_singleton] at hi ⊢
        by_cases hil : i = l.length
        · subst hil
          simp
        · have hi' : i < l.length := by omega
          rw [List.getElem_append_left (by simpa using hi')]
          by_cases hig : i = g
          · subst hig
            simp only [List.getElem_set_self]
            constructor
            · intro hn; exfalso; omega
            · rintro (hn | ⟨hn, _⟩)
              · exact absurd hn hil
              · exact absurd rfl hn
          · rw [List.getElem_set_ne (fun hn => hig hn.symm), List.getElem_map]
            rw [List.getElem?_eq_getElem hi']
            simp [hil, hig]
  · intro d' h
    have href := (C65_refines_driver lvl (Driver.ofSizes l) g c).2.2
    rw [h] at href
    unfold Imp.Driver.removeValue check at h
    simp only [get_bind, lift_bind_fail_iff, modify_bind] at h
    rcases h with ⟨_, h⟩ | ⟨_, h1, ⟨_, h⟩ | ⟨_, h2, ⟨h, _⟩ | ⟨old, h3, ⟨_, h⟩ | ⟨_, h3a, ⟨_, h⟩ | ⟨_, h3b,
      ⟨h, _⟩ | ⟨new, h4, ⟨h, _⟩ | ⟨cs, h5, ⟨h, _⟩ | ⟨s0, h6, ⟨h, _⟩ | ⟨s, h7, h⟩⟩⟩⟩⟩⟩⟩⟩⟩
    · exact h.symm
    · exact h.symm
    · exact absurd h (hget _ _)
    · exact h.symm
    · exact h.symm
    · exact absurd h (hg32 _)
    · exact absurd h (hset _ _ _)
    · exact absurd h hss
    · exact absurd h (hg32 _)
    · exfalso
      cases hnew : new == 0 with
      | false => simp [hnew] at h
      | true =>
        have hnew' : new = 0 := by simpa using hnew
        subst hnew'
        obtain ⟨_, h4⟩ := i32_eq_ok.mp h4
        by_cases hl : 1 ≤ lvl
        · have hc0 : c ≠ 0 := (distAssert_eq_ok.mp h1) hl
          rw [getAt_eq_ok, Driver.ofSizes_counts, List.getElem?_map] at h3
          cases hx : l[g]? with
          | none => rw [hx] at h3; simp at h3
          | some w =>
            rw [hx] at h3
            have hw : (w : Int) = old := by simpa using h3
            have hcw : c = (w : Int) := by omega
            subst hcw
            rw [Driver.removeValue_ofSizes lvl (show (Op.remove g w).Valid l from
              ⟨by omega, w, hx, Nat.le_refl _⟩) he hs] at href
            simp [Out.res] at href
        · have hlv : lvl = 0 := by omega
          subst hlv
          simp only [hnew, if_true, Imp.Driver.validate, get_bind, bind_assoc, lift_bind_fail_iff,
            pure_apply] at h
          rcases h with ⟨h, _⟩ | ⟨back, _, h⟩
          · exact hback _ h
          have hv : ∀ d : Driver, d.validate 0 = .ok () := by
            intro d
            unfold Driver.validate
            rw [distAssert_of_lt (by omega), Res.ok_bind, distAssert_of_lt (by omega)]
          by_cases hx : g ≠ cs.length - 1
          · by_cases hy : back = 0 <;>
            · simp [-bind_pure_comp, hx, hy, hset, hpop, hv] at h
          · simp [-bind_pure_comp, hx, hpop, hv] at h

/-- The id tracker, after any proper history: a call of `remove_group` that fails leaves no trace. -/
theorem C65_ids (lvl : Nat) (t t0 t' : IdTracker) (n : Nat) (ops : List GroupOp)
    (hv : ValidGroupHistory (Groups.start n) ops)
    (hb : ((Groups.start n).run ops).created ≤ 4294967296)
    (h0 : t.init n = .ok t0) (h : t0.runOps lvl ops = .ok t') (p : Nat) :
    CleanOn (Imp.IdTracker.removeGroup lvl p) t' := by
  obtain ⟨t0', h1, h2⟩ := IdTracker.rep_init t n
    (Nat.le_trans (IdTracker.created_mono (Groups.start n) ops) hb)
  rw [h0] at h1; injection h1 with h1; subst h1
  obtain ⟨t'', h3, h4⟩ := h2.run lvl hv hb
  rw [h] at h3; injection h3 with h3; subst h3
  exact Imp.removeGroup_clean lvl h4 p

/-! ## Feature mixtures -/

/-- A feature mixture: if the group leaves no trace and the value scorer accepts every change the
group accepted, the mixture leaves no trace. -/
theorem C65_slave {S G V : Type} (lvl : Nat) (change : V → Act G Unit)
    (tell : Nat → G → V → Act S Unit) (m : MixtureSlave S G) (i : Nat) (v : V)
    (hc : ∀ g, m.groups[i]? = some g → CleanOn (change v) g)
    (ht : ∀ g g', m.groups[i]? = some g → change v g = .ok g' () →
      ∀ s', tell i g' v m.scorer ≠ .fail s') :
    CleanOn (Imp.slaveChange lvl change tell i v) m := by
  intro m' h
  unfold Imp.slaveChange check at h
  simp only [get_bind, lift_bind_fail_iff] at h
  rcases h with ⟨_, h⟩ | ⟨_, _, h⟩
  · exact h.symm
  simp only [bind_apply, onMember, onElement] at h
  cases hg : m.groups[i]? with
  | none => rw [hg] at h; simp at h
  | some g =>
    simp only [hg] at h
    have hi : i < m.groups.length := (List.getElem?_eq_some_iff.mp hg).1
    have hgi : m.groups[i] = g := (List.getElem?_eq_some_iff.mp hg).2
    cases hx : change v g with
    | ub => simp [hx] at h
    | fail g' =>
      have := hc g hg g' hx
      subst this
      simp only [hx, Out.fail.injEq] at h
      rw [← h]
      have : m.groups.set i g' = m.groups := by rw [← hgi, List.set_getElem_self]
      rw [this]
    | ok g' u =>
      simp only [hx, get_apply] at h
      have e : SlaveGroups.groupAt lvl (m.groups.set i g') i = .ok g' := by
        unfold SlaveGroups.groupAt
        rw [distAssert_of (by simpa using hi), Res.ok_bind, getAt_of (by simpa using hi)]
        simp
      simp only [e, lift] at h
      cases hy : tell i g' v m.scorer with
      | ok s a => simp [hy] at h
      | fail s => exact absurd hy (ht g g' hg hx s)
      | ub => simp [hy] at h

/-- Statement by statement, `MixtureSlave::add_value` and `remove_value` are the modelled
functions, for any group and scorer of which this is true. -/
theorem C65_refines_slave {S G V F : Type} (lvl : Nat) (ops : GroupOps G V)
    (vs : ValueScorerOps S G V F) (change : V → Act G Unit) (tell : Nat → G → V → Act S Unit)
    (m : MixtureSlave S G) (i : Nat) (v : V) :
    ((∀ g, (change v g).res (fun g _ => g) = ops.add g v) →
      (∀ s g, (tell i g v s).res (fun s _ => s) = vs.addValue s i g v) →
      (Imp.slaveChange lvl change tell i v m).res (fun m _ => m) = m.addValue lvl ops vs i v) ∧
    ((∀ g, (change v g).res (fun g _ => g) = ops.remove g v) →
      (∀ s g, (tell i g v s).res (fun s _ => s) = vs.removeValue s i g v) →
      (Imp.slaveChange lvl change tell i v m).res (fun m _ => m) =
        m.removeValue lvl ops vs i v) := by
  have key : ∀ (f : G → Res G) (t : S → G → Res S), (∀ g, (change v g).res (fun g _ => g) = f g) →
      (∀ s g, (tell i g v s).res (fun s _ => s) = t s g) →
      (Imp.slaveChange lvl change tell i v m).res (fun m _ => m) = (do
        let g ← SlaveGroups.groupAt lvl m.groups i
        let g ← f g
        let gs ← setAt m.groups i g
        let g ← SlaveGroups.groupAt lvl gs i
        let s ← t m.scorer g
        return (⟨gs, s⟩ : MixtureSlave S G)) := by
    intro f t hf ht
    unfold Imp.slaveChange check
    simp only [get_bind, res_lift_bind, SlaveGroups.groupAt, bind_assoc]
    congr 1; funext _
    simp only [bind_apply, onMember, onElement, getAt]
    cases hg : m.groups[i]? with
    | none => rfl
    | some g =>
      have hi : i < m.groups.length := (List.getElem?_eq_some_iff.mp hg).1
      simp only [Res.ok_bind, ← hf, get_apply]
      cases hx : change v g with
      | ub => rfl
      | fail g' => rfl
      | ok g' u =>
        simp only [Out.res, Res.ok_bind, setAt_of hi, SlaveGroups.groupAt, ← ht]
        rw [distAssert_of (show i < (m.groups.set i g').length by simpa using hi)]
        have e : (m.groups.set i g')[i]? = some g' := by simp [hi]
        simp only [Res.ok_bind, getAt, e, lift]
        cases tell i g' v m.scorer <;> rfl
  constructor
  · intro hf ht
    rw [key _ _ hf ht]
    simp [MixtureSlave.addValue, SlaveGroups.addValue, bind_assoc]
  · intro hf ht
    rw [key _ _ hf ht]
    simp [MixtureSlave.removeValue, SlaveGroups.removeValue, bind_assoc]


/-- The value scorers, statement by statement. -/
theorem C65_refines_scorers {F : Type} [FloatOps F] (lvl : Nat) (sh : DD.Shared F) (c : DD.Cache F)
    (i : Nat) (g : DD.Group) (v : Int) (sh' : DPD.Shared F) (c' : DPD.Cache F) (g' : DPD.Group)
    (u : UInt32) :
    (Imp.ddTell lvl sh i g v c).res (fun c _ => c) = (DD.valueScorer lvl sh).addValue c i g v ∧
    (Imp.ddTell lvl sh i g v c).res (fun c _ => c) = (DD.valueScorer lvl sh).removeValue c i g v ∧
    (Imp.dpdTellAdd lvl sh' i g' u c').res (fun c _ => c) =
      (DPD.valueScorer lvl sh').addValue c' i g' u ∧
    (Imp.dpdTellRemove lvl sh' i g' u c').res (fun c _ => c) =
      (DPD.valueScorer lvl sh').removeValue c' i g' u := by
  have hset : ∀ (m : FMap UInt32 (DPD.Entry F)) a b, (m.set u a).set u b = m.set u b := by
    intro m a b; apply FMap.ext; intro x; simp only [FMap.lookup_set]; split_ifs <;> rfl
  have hera : ∀ (m : FMap UInt32 (DPD.Entry F)) a, (m.set u a).erase u = m.erase u := by
    intro m a; apply FMap.ext; intro x
    simp only [FMap.lookup_erase, FMap.lookup_set]; split_ifs <;> rfl
  have hdd : (Imp.ddTell lvl sh i g v c).res (fun c _ => c) = DD.updateGroupValue lvl sh c i g v := by
    unfold Imp.ddTell check
    simp only [get_bind, res_lift_bind, modify_apply, res_ok]
    unfold DD.updateGroupValue
    by_cases h : 1 ≤ lvl ∧ ¬ v < sh.alphas.length
    · rw [distAssert_of_not h.1 h.2]; rfl
    · have h1 : distAssert lvl 1 (v < sh.alphas.length) = .ok () := by
        rw [distAssert_eq_ok]; tauto
      rw [h1]
      simp only [Res.ok_bind]
      exact bind_pure _
  refine ⟨hdd, hdd, ?_, ?_⟩
  · show _ = DPD.addValue lvl sh' c' i g' u
    unfold Imp.dpdTellAdd DPD.addValue check
    simp only [get_bind, res_lift_bind, modify_bind]
    congr 1; funext _
    by_cases hr : (Sparse.getOrAdd c'.scores u DPD.Entry.fresh).1.refCount + 1 = 1
    · simp only [if_pos hr, bind_assoc, res_lift_bind, pure_bind, modify_bind, modify_apply, res_ok,
        hset, Res.pure_eq, Res.ok_bind]
    · simp only [if_neg hr, pure_bind, res_lift_bind, modify_bind, modify_apply, res_ok, hset,
        Res.pure_eq, Res.ok_bind]
  · show _ = DPD.removeValue lvl sh' c' i g' u
    unfold Imp.dpdTellRemove DPD.removeValue check
    simp only [get_bind, res_lift_bind, modify_bind]
    congr 1; funext _
    cases he : Sparse.get lvl c'.scores u with
    | fail => rfl
    | ub => rfl
    | ok e =>
      have hk : c'.scores.contains u = true := by
        unfold Sparse.get at he
        rw [Res.bind_eq_ok] at he
        obtain ⟨_, _, he⟩ := he
        unfold FMap.contains
        cases hk : c'.scores.lookup u with
        | none => rw [hk] at he; simp at he
        | some w => rfl
      simp only [Res.ok_bind]
      by_cases hr : e.refCount - 1 = 0
      · simp only [if_pos hr]
        have hk' : ∀ a, (c'.scores.set u a).contains u = true := by
          intro a; simp [FMap.contains]
        simp only [bind_apply, onMember, Imp.Sparse.remove, check, get_apply, modify_apply, hk',
          distAssert_of, lift_ok, pure_apply, hera, Sparse.remove, hk, Res.ok_bind, Res.pure_eq]
        exact res_lift_bind
      · simp only [if_neg hr, bind_assoc, res_lift_bind, pure_bind, modify_bind, modify_apply, res_ok,
          hset, Res.pure_eq, Res.ok_bind]

/-- Mixtures of the Dirichlet-Discrete model whose groups have the dimension of the
hyperparameters. -/
theorem C65_dd_mixture {F : Type} [FloatOps F] (lvl : Nat) (sh : DD.Shared F)
    (m : MixtureSlave (DD.Cache F) DD.Group) (i : Nat) (v n : Int)
    (hd : ∀ g ∈ m.groups, g.counts.length = sh.alphas.length) :
    CleanOn (Imp.slaveChange lvl (fun v => Imp.ddAdd lvl v n) (Imp.ddTell lvl sh) i v) m := by
  apply C65_slave
  · intro g _
    exact (C65_groups lvl (F := F) ⟨FloatOps.ofInt 0, FloatOps.ofInt 0, FloatOps.ofInt 0, .empty, .raw⟩
      v n 0 (FloatOps.ofInt 0)).1 g
  · intro g g' hg hx s' h
    have hl := hd g (List.mem_of_getElem? hg)
    have hv : 1 ≤ lvl → v < sh.alphas.length := by
      intro h1
      unfold Imp.ddAdd check at hx
      by_contra hc
      simp only [get_bind] at hx
      rw [distAssert_of_not h1 (by rw [hl]; exact hc)] at hx
      simp at hx
    unfold Imp.ddTell check at h
    rw [distAssert_eq_ok (u := ()) |>.mpr hv] at h
    simp only [lift_ok, pure_bind, get_bind, lift_bind_fail_iff] at h
    rcases h with ⟨h, _⟩ | ⟨_, _, h⟩
    · revert h
      unfold DD.updateGroupValue
      rw [distAssert_eq_ok (u := ()) |>.mpr hv, Res.ok_bind]
      have hr : ∀ {α : Type} (l : List α) j, DD.readAt l j ≠ .fail := by
        intro α l j; unfold DD.readAt getAt; split_ifs
        · cases l[j.toNat]? <;> simp
        · simp
      have hw : ∀ {α : Type} (l : List α) j x, DD.writeAt l j x ≠ .fail := by
        intro α l j x; unfold DD.writeAt setAt; split_ifs <;> simp
      have hs : ∀ (l : List F) j x, setAt l j x ≠ .fail := by
        intro l j x; unfold setAt; split_ifs <;> simp
      have hi : ∀ x : Option F, DD.readInit x ≠ .fail := by
        intro x; cases x <;> simp [DD.readInit]
      have nb : ∀ {α β : Type} {x : Res α} {f : α → Res β}, x ≠ .fail → (∀ a, f a ≠ .fail) →
          (x >>= f) ≠ .fail := by
        intro α β x f hx hf; cases x <;> simp_all
      refine nb (hr _ _) fun _ => nb (hr _ _) fun _ => nb (hr _ _) fun _ => nb (hs _ _ _) fun _ =>
        nb (hw _ _ _) fun _ => nb (hi _) fun _ => nb (hs _ _ _) fun _ => by simp
    · simp at h

/-- Adding a value to a mixture of the Dirichlet-Process-Discrete model.  Removal is missing: it is
not clean (`C65_dpd_mixture_remove`). -/
theorem C65_dpd_mixture_partial {F : Type} [FloatOps F] (lvl : Nat) (sh : DPD.Shared F)
    (m : MixtureSlave (DPD.Cache F) DPD.Group) (i : Nat) (v : UInt32) :
    CleanOn (Imp.slaveChange lvl (fun v => Imp.dpdAdd lvl sh v 1) (Imp.dpdTellAdd lvl sh) i v) m := by
  apply C65_slave
  · intro g _
    exact (C65_groups lvl sh 0 1 v (FloatOps.ofInt 0)).2.1 g
  · intro g g' hg hx s' h
    have hv : 1 ≤ lvl → v ≠ DPD.other ∧ sh.betas.contains v = true := by
      intro h1
      unfold Imp.dpdAdd check at hx
      by_contra hc
      rw [not_and_or] at hc
      rcases hc with hc | hc
      · rw [distAssert_of_not h1 hc] at hx; simp at hx
      · by_cases h2 : v ≠ DPD.other
        · rw [distAssert_of h2, distAssert_of_not h1 hc] at hx; simp at hx
        · rw [distAssert_of_not h1 h2] at hx; simp at hx
    have hget : Sparse.get lvl sh.betas v ≠ .fail := by
      unfold Sparse.get
      rw [distAssert_eq_ok (u := ()) |>.mpr (fun h => (hv h).2), Res.ok_bind]
      cases sh.betas.lookup v <;> simp
    have nb : ∀ {α β : Type} {x : Res α} {f : α → Res β}, x ≠ .fail → (∀ a, f a ≠ .fail) →
        (x >>= f) ≠ .fail := by
      intro α β x f hx hf; cases x <;> simp_all
    have hs : ∀ (l : List F) j x, setAt l j x ≠ .fail := by
      intro l j x; unfold setAt; split_ifs <;> simp
    have ht : SparseCounter.getTotal g' ≠ .fail := by
      unfold SparseCounter.getTotal; cases g'.total <;> simp
    have hr := (C65_refines_scorers lvl (⟨[]⟩ : DD.Shared F) ⟨none, [], []⟩ i ⟨0, []⟩ 0 sh m.scorer g'
      v).2.2.1
    rw [h] at hr
    have hr' : DPD.addValue lvl sh m.scorer i g' v = .fail := by
      simpa [Out.res, DPD.valueScorer] using hr.symm
    revert hr'
    unfold DPD.addValue
    rw [distAssert_eq_ok (u := ()) |>.mpr (fun h => (hv h).1), Res.ok_bind]
    refine nb ?_ fun _ => nb (nb hget fun _ => hs _ _ _) fun _ =>
      nb (nb ht fun _ => hs _ _ _) fun _ => by simp
    split_ifs
    · exact nb hget fun _ => by simp
    · simp


/-! ## Catching errors -/

/-- If every call leaves no trace when it fails, a program that catches every error ends where the
program ends that leaves out the failing calls. -/
theorem C65_caught {σ α : Type} (inv : σ → Prop) (xs : List (Act σ α))
    (hc : ∀ x ∈ xs, ∀ s, inv s → CleanOn x s)
    (hi : ∀ x ∈ xs, ∀ s s' a, inv s → x s = .ok s' a → inv s')
    (s s' : σ) (hs : inv s) (h : runCaught xs s = some s') :
    inv s' ∧ ∃ ys, ys.Sublist xs ∧ runAll ys s = some s' := by
  induction xs generalizing s with
  | nil =>
    simp only [runCaught, Option.some.injEq] at h
    subst h
    exact ⟨hs, [], List.Sublist.refl _, rfl⟩
  | cons x xs ih =>
    simp only [runCaught] at h
    cases hx : x s with
    | ub => simp [hx] at h
    | ok s1 a =>
      simp only [hx] at h
      obtain ⟨h1, ys, h2, h3⟩ := ih (fun x hx => hc x (by simp [hx])) (fun x hx => hi x (by simp [hx]))
        s1 (hi x (by simp) s s1 a hs hx) h
      exact ⟨h1, x :: ys, h2.cons_cons x, by simp [runAll, hx, h3]⟩
    | fail s1 =>
      simp only [hx] at h
      have := hc x (by simp) s hs s1 hx
      subst this
      obtain ⟨h1, ys, h2, h3⟩ := ih (fun x hx => hc x (by simp [hx])) (fun x hx => hi x (by simp [hx]))
        s1 hs h
      exact ⟨h1, ys, h2.cons x, h3⟩

/-- The mixture driver under a caller that catches errors (level 2 and up): whatever calls are made,
the driver ends as after a history of proper calls only. -/
theorem C65_driver_caught (lvl : Nat) (hl : 2 ≤ lvl) (l0 : List Nat) (hs : l0.sum ≤ 2147483647)
    (h0 : 0 ∈ l0) (d0 d : Driver) (hd : (Driver.raw (l0.map Int.ofNat)).init lvl = .ok d0)
    (ops : List Op) (h : runCaught (ops.map (driverCall lvl)) d0 = some d) :
    ∃ kept fl, kept.Sublist ops ∧ ValidHistory l0 kept ∧ d0.runOps lvl kept = .ok (d, fl) := by
  rw [Driver.init_eq lvl l0 hs, if_pos (.inr h0)] at hd
  injection hd with hd
  subst hd
  have step : ∀ (l : List Nat), l.sum ≤ 2147483647 → 0 ∈ l → ∀ op : Op,
      (op.Valid l ∧ driverCall lvl op (Driver.ofSizes l) = .ok (Driver.ofSizes (op.step l)) (op.flag l)) ∨
      driverCall lvl op (Driver.ofSizes l) = .fail (Driver.ofSizes l) ∨
      driverCall lvl op (Driver.ofSizes l) = .ub := by
    intro l hs h0 op
    have hres : (driverCall lvl op (Driver.ofSizes l)).res (fun d b => (d, b)) =
        (Driver.ofSizes l).stepOp lvl op := by
      cases op with
      | add g c => exact (C65_refines_driver lvl _ g c).2.1
      | remove g c => exact (C65_refines_driver lvl _ g c).2.2
    have hreach : (Driver.ofSizes l).Reachable lvl :=
      ⟨l, [], Driver.ofSizes l, hs, .inr h0, trivial,
        by rw [Driver.init_eq lvl l hs, if_pos (.inr h0)], [], rfl⟩
    have hclean : CleanOn (driverCall lvl op) (Driver.ofSizes l) := by
      cases op with
      | add g c => exact (C65_driver lvl _ hreach g c).1
      | remove g c => exact (C65_driver lvl _ hreach g c).2
    by_cases hv : op.Valid l
    · left
      refine ⟨hv, ?_⟩
      rw [Driver.stepOp_ofSizes lvl hv (.inr h0) hs] at hres
      cases hx : driverCall lvl op (Driver.ofSizes l) with
      | ok s a => rw [hx] at hres; simp [Out.res] at hres; rw [hres.1, hres.2]
      | fail s => rw [hx] at hres; simp [Out.res] at hres
      | ub => rw [hx] at hres; simp [Out.res] at hres
    · right
      cases hx : driverCall lvl op (Driver.ofSizes l) with
      | fail s => exact .inl (by rw [hclean s hx])
      | ub => exact .inr rfl
      | ok s a =>
        exfalso
        rw [hx] at hres
        simp only [Out.res] at hres
        have hres := hres.symm
        cases op with
        | add g c =>
          simp only [Driver.stepOp, Driver.addValue] at hres
          rw [Res.bind_eq_ok] at hres
          obtain ⟨_, h1, hres⟩ := hres
          rw [Res.bind_eq_ok] at hres
          obtain ⟨_, h2, hres⟩ := hres
          have hc := (distAssert_eq_ok.mp h1) (by omega)
          have hg := (distAssert_eq_ok.mp h2) hl
          rw [Res.bind_eq_ok] at hres
          obtain ⟨old, _, hres⟩ := hres
          rw [Res.bind_eq_ok] at hres
          obtain ⟨new, _, hres⟩ := hres
          rw [Res.bind_eq_ok] at hres
          obtain ⟨cs, _, hres⟩ := hres
          rw [Res.bind_eq_ok] at hres
          obtain ⟨s0, h3, hres⟩ := hres
          rw [Res.bind_eq_ok] at hres
          obtain ⟨s1, h4, hres⟩ := hres
          simp only [Driver.getSampleSize, Driver.ofSizes_sampleSize, Res.ok.injEq] at h3
          obtain ⟨h4, _⟩ := i32_eq_ok.mp h4
          refine hv ⟨by simpa using hg, by omega, ?_⟩
          unfold InInt32 int32Max at h4
          omega
        | remove g c =>
          simp only [Driver.stepOp, Driver.removeValue] at hres
          rw [Res.bind_eq_ok] at hres
          obtain ⟨_, h1, hres⟩ := hres
          rw [Res.bind_eq_ok] at hres
          obtain ⟨_, h2, hres⟩ := hres
          have hc := (distAssert_eq_ok.mp h1) (by omega)
          rw [Res.bind_eq_ok] at hres
          obtain ⟨old, h3, hres⟩ := hres
          rw [Res.bind_eq_ok] at hres
          obtain ⟨_, h4, hres⟩ := hres
          rw [Res.bind_eq_ok] at hres
          obtain ⟨_, h5, hres⟩ := hres
          have h5 := (distAssert_eq_ok.mp h5) hl
          rw [getAt_eq_ok, Driver.ofSizes_counts, List.getElem?_map] at h3
          cases hx : l[g]? with
          | none => rw [hx] at h3; simp at h3
          | some w =>
            rw [hx] at h3
            have hw : (w : Int) = old := by simpa using h3
            exact hv ⟨by omega, w, hx, by omega⟩
  have main : ∀ (ops : List Op) (l : List Nat), l.sum ≤ 2147483647 → 0 ∈ l →
      runCaught (ops.map (driverCall lvl)) (Driver.ofSizes l) = some d →
      ∃ kept fl, kept.Sublist ops ∧ ValidHistory l kept ∧
        (Driver.ofSizes l).runOps lvl kept = .ok (d, fl) := by
    intro ops
    induction ops with
    | nil =>
      intro l _ _ h
      simp only [List.map_nil, runCaught, Option.some.injEq] at h
      subst h
      exact ⟨[], [], List.Sublist.refl _, trivial, rfl⟩
    | cons op ops ih =>
      intro l hs h0 h
      simp only [List.map_cons, runCaught] at h
      rcases step l hs h0 op with ⟨hv, hx⟩ | hx | hx
      · simp only [hx] at h
        have hrun := Driver.runOps_ofSizes lvl (l := l) (ops := [op]) ⟨hv, trivial⟩ (.inr h0) hs
        obtain ⟨_, h02, hs2, _⟩ := hrun
        have hs2 : (op.step l).sum ≤ 2147483647 := hs2
        have h02 : 0 ∈ op.step l := by
          rcases h02 with h02 | h02
          · omega
          · exact h02
        obtain ⟨kept, fl, h1, h2, h3⟩ := ih _ hs2 h02 h
        refine ⟨op :: kept, op.flag l :: fl, h1.cons_cons op, ⟨hv, h2⟩, ?_⟩
        simp only [Driver.runOps]
        rw [Driver.stepOp_ofSizes lvl hv (.inr h0) hs, Res.ok_bind]
        simp only [h3, Res.ok_bind, Res.pure_eq]
      · simp only [hx] at h
        obtain ⟨kept, fl, h1, h2, h3⟩ := ih l hs h0 h
        exact ⟨kept, fl, h1.cons op, h2, h3⟩
      · simp [hx] at h
  exact main ops l0 hs h0 h

/-- A caller that removes too much, then from an empty group, then from a group that does not
exist: those three calls fail and are as if not made. -/
example : runCaught ([Op.add 0 3, .remove 0 9, .remove 1 1, .remove 7 1, .remove 0 3].map
      (driverCall 2)) (Driver.ofSizes [2, 0]) = some (Driver.ofSizes [2, 0]) := by
  decide +kernel

/-- The id tracker under a caller that catches errors (level 1 and up). -/
theorem C65_ids_caught (lvl : Nat) (hl : 1 ≤ lvl) (t t0 t' : IdTracker) (n : Nat)
    (ops : List GroupOp) (hb : n + ops.length ≤ 4294967296) (h0 : t.init n = .ok t0)
    (h : runCaught (ops.map (idCall lvl)) t0 = some t') :
    ∃ kept, kept.Sublist ops ∧ ValidGroupHistory (Groups.start n) kept ∧
      t0.runOps lvl kept = .ok t' := by
  obtain ⟨t0', h1, h2⟩ := IdTracker.rep_init t n (by omega)
  rw [h0] at h1; injection h1 with h1; subst h1
  have main : ∀ (ops : List GroupOp) (s : Groups) (t0 : IdTracker), t0.Rep s →
      s.created + ops.length ≤ 4294967296 → runCaught (ops.map (idCall lvl)) t0 = some t' →
      ∃ kept, kept.Sublist ops ∧ ValidGroupHistory s kept ∧ t0.runOps lvl kept = .ok t' := by
    intro ops
    induction ops with
    | nil =>
      intro s t0 _ _ h
      simp only [List.map_nil, runCaught, Option.some.injEq] at h
      subst h
      exact ⟨[], List.Sublist.refl _, trivial, rfl⟩
    | cons op ops ih =>
      intro s t0 hr hb h
      simp only [List.length_cons] at hb
      simp only [List.map_cons, runCaught] at h
      cases op with
      | add =>
        obtain ⟨t1, h1, h2⟩ := hr.addGroup (by omega)
        have hx : idCall lvl .add t0 = .ok t1 () := by
          simp only [idCall, Imp.IdTracker.addGroup, get_bind, h1, lift_ok, pure_bind, modify_apply]
        simp only [hx] at h
        obtain ⟨kept, h3, h4, h5⟩ := ih _ _ h2 (by simp only [GroupOp.step]; omega) h
        refine ⟨.add :: kept, h3.cons_cons _, ⟨trivial, h4⟩, ?_⟩
        simp only [IdTracker.runOps, IdTracker.stepOp, h1, Res.ok_bind, h5]
      | remove p =>
        have hres : (idCall lvl (.remove p) t0).res (fun t _ => t) = t0.removeGroup lvl p :=
          C65_refines_ids lvl t0 p
        cases hx : idCall lvl (.remove p) t0 with
        | ub => simp [hx] at h
        | fail t1 =>
          simp only [hx] at h
          have := Imp.removeGroup_clean lvl hr p t1 hx
          subst this
          obtain ⟨kept, h3, h4, h5⟩ := ih _ _ hr (by omega) h
          exact ⟨kept, h3.cons _, h4, h5⟩
        | ok t1 u =>
          simp only [hx] at h
          rw [hx] at hres
          simp only [Out.res] at hres
          by_cases hp : p < s.live.length
          · obtain ⟨t2, h1, h2⟩ := hr.removeGroup lvl hp
            rw [h1] at hres; injection hres with hres; subst hres
            obtain ⟨kept, h3, h4, h5⟩ := ih _ _ h2 (by simp only [GroupOp.step]; omega) h
            refine ⟨.remove p :: kept, h3.cons_cons _, ⟨hp, h4⟩, ?_⟩
            simp only [IdTracker.runOps, IdTracker.stepOp, h1, Res.ok_bind, h5]
          · exfalso
            unfold IdTracker.removeGroup at hres
            rw [distAssert_of_not hl (by rw [hr.p2g]; exact hp)] at hres
            simp at hres
  exact main ops _ t0 h2 (by simpa [Groups.start] using hb) h


/-! ## Calls that leave a trace -/

/-- Finding: `rename` onto a key that is present fails after it has erased the old entry.  The
count of the old key is gone and the total no longer is the sum of the counts. -/
theorem C65_rename {K : Type} [DecidableEq K] (lvl : Nat) (hl : 1 ≤ lvl) (c : SparseCounter K)
    (k k' : K) (hk : k ≠ k') (n n' : Int) (h : c.map.lookup k = some n)
    (h' : c.map.lookup k' = some n') :
    ∃ c', Imp.SparseCounter.rename lvl k k' c = .fail c' ∧ c'.getCount k = 0 ∧
      c'.getCount k' = n' ∧ c'.total = c.total := by
  refine ⟨⟨c.map.erase k, c.total⟩, ?_, ?_, ?_, rfl⟩
  · unfold Imp.SparseCounter.rename check
    have hc : (c.map.erase k).contains k' = true := by simp [FMap.contains, hk.symm, h']
    simp only [get_bind, h, modify_bind, hc]
    simp [distAssert, hl]
  · simp [SparseCounter.getCount]
  · simp [SparseCounter.getCount, hk.symm, h']

/-- Renaming 3 onto 5 with counts 2 and 7: key 3 is gone and the total still says 9. -/
example : ∃ c', Imp.SparseCounter.rename 1 (3 : Nat) 5 ⟨(FMap.empty.set 3 2).set 5 7, some 9⟩ =
      .fail c' ∧ c'.getCount 3 = 0 ∧ c'.getCount 5 = 7 ∧ c'.total = some 9 :=
  C65_rename 1 (by decide) _ 3 5 (by decide) 2 7 (by simp) (by simp)

/-- So `rename` is not clean. -/
example : ¬ Clean (Imp.SparseCounter.rename 1 (3 : Nat) 5) := by
  intro h
  obtain ⟨c', h1, h2, -, -⟩ := C65_rename 1 (by decide) ⟨(FMap.empty.set 3 2).set 5 7, some 9⟩ 3 5
    (by decide) 2 7 (by simp) (by simp)
  rw [h _ c' h1] at h2
  simp [SparseCounter.getCount] at h2

/-- Finding: once all the mass is spent, `Shared::add_value` of a new value fails, but only after
it has counted the value; the same call made again succeeds, and the value still has no weight.
Removing it then fails, or is undefined without checks. -/
theorem C65_dpd_add {F σ : Type} [FloatOps F] (lvl : Nat) (rng : Rng F σ) (s : σ)
    (sh : DPD.Shared F) (v : UInt32) (t : Int) (hv : v ≠ DPD.other)
    (hz : FloatOps.lt (FloatOps.ofInt 0) sh.beta0 = false) (ht : sh.counts.total = some t)
    (hr : -2147483648 ≤ t ∧ t + 2 ≤ 2147483647) (hc : sh.counts.map.lookup v = none)
    (hb : sh.betas.lookup v = none) :
    ∃ sh1 sh2, Imp.dpdAddValue lvl rng v s sh = .fail sh1 ∧ sh1.counts.getCount v = 1 ∧
      sh1.betas = sh.betas ∧
      Imp.dpdAddValue lvl rng v s sh1 = .ok sh2 s ∧ sh2.betas.lookup v = none ∧
      sh1.removeValue lvl v = if 1 ≤ lvl then .fail else .ub := by
  have i1 : InInt32 (t + 1) := by unfold InInt32 int32Min int32Max; omega
  have i2 : InInt32 (t + 1 + 1) := by unfold InInt32 int32Min int32Max; omega
  have i3 : InInt32 (t + 1 + -1) := by unfold InInt32 int32Min int32Max; omega
  have i4 : InInt32 (1 + 1) := by unfold InInt32 int32Min int32Max; omega
  have i5 : InInt32 (1 + -1) := by unfold InInt32 int32Min int32Max; omega
  refine ⟨{ sh with counts := ⟨sh.counts.map.set v 1, some (t + 1)⟩ },
    { sh with counts := ⟨(sh.counts.map.set v 1).set v (1 + 1), some (t + 1 + 1)⟩ },
    ?_, ?_, rfl, ?_, hb, ?_⟩
  · unfold Imp.dpdAddValue check
    rw [distAssert_of hv, lift_ok, pure_bind, bind_apply]
    simp only [Imp.onCounts, onMember, Imp.counterAdd_new sh.counts v 1 t (by decide) ht i1 hc, if_true,
      get_bind, hz]
    rfl
  · simp [SparseCounter.getCount]
  · unfold Imp.dpdAddValue check
    rw [distAssert_of hv, lift_ok, pure_bind, bind_apply]
    simp only [Imp.onCounts, onMember, Imp.counterAdd_old ⟨sh.counts.map.set v 1, some (t + 1)⟩ v 1
      (t + 1) 1 (by decide) rfl i2 (by simp) i4 (by decide)]
    rfl
  · have hadd : SparseCounter.add ⟨sh.counts.map.set v 1, some (t + 1)⟩ v (-1) =
        .ok (0, ⟨(sh.counts.map.set v 1).erase v, some (t + 1 + -1)⟩) := by
      unfold SparseCounter.add
      simp only [SparseCounter.bumpTotal, i32_of i3, FMap.lookup_set, if_true, Res.ok_bind, i32_of i5]
      rfl
    unfold DPD.Shared.removeValue SparseCounter.remove
    simp only [hadd]
    rw [distAssert_of hv, Res.ok_bind, Res.ok_bind]
    simp only [if_true]
    unfold Sparse.pop
    have hn : ¬ (sh.betas.contains v = true) := by simp [FMap.contains, hb]
    split_ifs with hl
    · rw [distAssert_of_not hl hn]; rfl
    · rw [distAssert_of_lt (by omega), hb]; rfl

/-- All the mass is on value 0 and value 4 is new. -/
example {σ : Type} (rng : Rng XR σ) (s : σ) : ∃ sh1 sh2,
    Imp.dpdAddValue 1 rng 4 s
      ⟨XR.fin 1, XR.fin 1, XR.fin 0, FMap.empty.set 0 (XR.fin 1), ⟨FMap.empty.set 0 6, some 6⟩⟩ =
        .fail sh1 ∧ sh1.counts.getCount 4 = 1 ∧ sh1.betas = FMap.empty.set 0 (XR.fin 1) ∧
      Imp.dpdAddValue 1 rng 4 s sh1 = .ok sh2 s ∧ sh2.betas.lookup 4 = none ∧
      sh1.removeValue 1 4 = .fail :=
  C65_dpd_add 1 rng s _ 4 6 (by decide) (by simp [FloatOps.lt, FloatOps.ofInt, XR.cmp]) rfl
    (by decide) (by simp) (by simp)

/-- Finding: a failed `Shared::protobuf_load` of the Dirichlet-Process-Discrete model whose lists
agree in length has already taken over `gamma` and `alpha`, dropped the old weights and counts,
and kept the old `beta0`. -/
theorem C65_dpd_load {F : Type} [FloatOps F] (lvl : Nat) (msg : Proto.DPDSharedMsg F)
    (sh sh' : DPD.Shared F) (h1 : msg.betas.length = msg.values.length)
    (h2 : msg.counts.length = msg.values.length) (h : Imp.dpdLoad lvl msg sh = .fail sh') :
    sh'.gamma = msg.gamma ∧ sh'.alpha = msg.alpha ∧ sh'.beta0 = sh.beta0 ∧
      ∀ v, sh'.betas.contains v = true → v ∈ msg.values := by
  unfold Imp.dpdLoad check at h
  rw [distAssert_of h1, distAssert_of h2] at h
  simp only [lift_ok, pure_bind, modify_bind] at h
  have done : ∀ sh1 : DPD.Shared F, Imp.Loaded msg.values
      ⟨msg.gamma, msg.alpha, sh.beta0, .empty, sh.counts.clear⟩ sh1 →
      sh1.gamma = msg.gamma ∧ sh1.alpha = msg.alpha ∧ sh1.beta0 = sh.beta0 ∧
      ∀ v, sh1.betas.contains v = true → v ∈ msg.values := by
    rintro sh1 ⟨k1, k2, k3, k4⟩
    refine ⟨k1, k2, k3, fun v hv => ?_⟩
    rcases k4 v hv with hv | hv
    · simp [FMap.contains] at hv
    · exact hv
  rcases Imp.fail_bind h with h | ⟨s1, sum, h, h'⟩
  · exact done _ (Imp.ends_loop lvl _ _ _ _ (.inl h))
  · have := done _ (Imp.ends_loop lvl _ _ _ _ (.inr ⟨_, h⟩))
    rcases Imp.fail_bind h' with h' | ⟨_, _, _, h'⟩
    · rw [← (lift_fail_iff.mp h').2]; exact this
    · simp at h'

/-- A message that gives the value 3 the weight -1, read over an object that knew value 8. -/
example : ∃ sh', Imp.dpdLoad 0 ⟨XR.fin 2, XR.fin 2, [3], [XR.fin (-1)], [1]⟩
      ⟨XR.fin 1, XR.fin 1, XR.fin 0, FMap.empty.set 8 (XR.fin 1), ⟨FMap.empty, some 0⟩⟩ = .fail sh' ∧
    sh'.gamma = XR.fin 2 ∧ sh'.beta0 = XR.fin 0 ∧ sh'.betas.contains 8 = false := by
  have hf : ∃ sh', Imp.dpdLoad 0 ⟨XR.fin 2, XR.fin 2, [3], [XR.fin (-1)], [1]⟩
      ⟨XR.fin 1, XR.fin 1, XR.fin 0, FMap.empty.set 8 (XR.fin 1), ⟨FMap.empty, some 0⟩⟩ =
        .fail sh' := by
    refine ⟨⟨XR.fin 2, XR.fin 2, XR.fin 0, .empty, SparseCounter.clear ⟨FMap.empty, some 0⟩⟩, ?_⟩
    unfold Imp.dpdLoad check
    rw [distAssert_of (by simp), distAssert_of (by simp)]
    simp only [lift_ok, pure_bind, modify_bind]
    rw [Imp.dpdLoadLoop_cons]
    unfold Imp.dpdLoadBody check
    rw [distAssert_of_not (by decide) (by simp [FloatOps.lt, FloatOps.ofInt, XR.cmp]), bind_apply,
      bind_apply, lift_fail_bind]
  obtain ⟨sh', h⟩ := hf
  obtain ⟨h1, -, h2, h3⟩ := C65_dpd_load 0 _ _ sh' rfl rfl h
  refine ⟨sh', h, h1, h2, ?_⟩
  cases h8 : sh'.betas.contains 8
  · rfl
  · exact absurd (h3 8 h8) (by decide)

/-- Finding: a failed `protobuf_load` of the Dirichlet-Discrete model has already set `dim` beyond
the array; to write the object out again, or to initialise a group from it, is undefined. -/
theorem C65_dd_load {F : Type} [FloatOps F] (m : Imp.DDShared F) (msg : Proto.DDSharedMsg F)
    (g : Imp.DDGroup) (gmsg : Proto.DDGroupMsg) :
    (m.alphas.length < msg.alphas.length →
      ∃ m', Imp.ddSharedLoad msg m = .fail m' ∧ m'.dim = msg.alphas.length ∧
        m'.alphas = m.alphas ∧ Imp.ddSharedDump m' = .ub ∧
        ∀ g : Imp.DDGroup, g.counts.length = m.alphas.length → Imp.ddGroupInit m'.dim g = .ub) ∧
    (g.counts.length < gmsg.counts.length →
      ∃ g', Imp.ddGroupLoad gmsg g = .fail g' ∧ g'.dim = gmsg.counts.length ∧
        g'.counts = g.counts ∧ Imp.ddGroupDump g' = .ub) := by
  have hread : ∀ {α : Type} (l : List α) (n : Nat), l.length < n →
      (List.range n).mapM (fun i => getAt l i) = .ub := by
    intro α l n hn
    have key : ∀ (is : List Nat), (∃ i ∈ is, l.length ≤ i) → is.mapM (fun i => getAt l i) = .ub := by
      intro is
      induction is with
      | nil => rintro ⟨i, h, _⟩; simp at h
      | cons j is ih =>
        rintro ⟨i, h, hi⟩
        rw [List.mapM_cons]
        by_cases hj : l.length ≤ j
        · rw [getAt_of_ge hj]; rfl
        · rw [getAt_of (by omega), Res.ok_bind, ih]
          · rfl
          · rcases List.mem_cons.mp h with rfl | h
            · exact absurd hi hj
            · exact ⟨i, h, hi⟩
    exact key _ ⟨l.length, List.mem_range.mpr hn, Nat.le_refl _⟩
  constructor
  · intro h
    refine ⟨⟨msg.alphas.length, m.alphas⟩, ?_, rfl, rfl, ?_, ?_⟩
    · unfold Imp.ddSharedLoad check
      simp only [modify_bind, get_bind]
      rw [distAssert_of_not (by omega) (by omega)]
      rfl
    · unfold Imp.ddSharedDump
      rw [hread _ _ h]; rfl
    · intro g hg
      unfold Imp.ddGroupInit
      exact if_neg (by show ¬ msg.alphas.length ≤ g.counts.length; omega)
  · intro h
    refine ⟨⟨gmsg.counts.length, g.countSum, g.counts⟩, ?_, rfl, rfl, ?_⟩
    · unfold Imp.ddGroupLoad check
      simp only [modify_bind, get_bind]
      rw [distAssert_of_not (by omega) (by omega)]
      rfl
    · unfold Imp.ddGroupDump
      rw [hread _ _ h]; rfl

/-- Three alphas into an object with room for two. -/
example : ∃ m', Imp.ddSharedLoad ⟨[XR.fin 1, XR.fin 2, XR.fin 3]⟩ ⟨1, [XR.fin 9, XR.fin 9]⟩ = .fail m' ∧
    m'.dim = 3 ∧ Imp.ddSharedDump m' = .ub := by
  obtain ⟨m', h1, h2, -, h3, -⟩ := (C65_dd_load ⟨1, [XR.fin 9, XR.fin 9]⟩
    ⟨[XR.fin 1, XR.fin 2, XR.fin 3]⟩ ⟨1, 0, [0, 0]⟩ ⟨[]⟩).1 (by simp)
  exact ⟨m', h1, h2, h3⟩

/-- Finding: `init` of a driver without an empty group fails after everything is set up; the object
that is left looks like an initialised driver. -/
theorem C65_driver_init (lvl : Nat) (hl : 1 ≤ lvl) (l : List Nat) (hs : l.sum ≤ 2147483647)
    (h0 : 0 ∉ l) :
    Imp.Driver.init lvl (Driver.raw (l.map Int.ofNat)) = .fail (Driver.ofSizes l) := by
  have loop : ∀ (cs : List Int) (i : Nat) (d : Driver) (s : Int) (e : Finset Nat) (s' : Int),
      d.sampleSize = some s → Driver.initLoop cs i d.emptyIds s = .ok (e, s') →
      Imp.Driver.initLoop cs i d = .ok ⟨d.counts, e, some s'⟩ () := by
    intro cs
    induction cs with
    | nil =>
      intro i d s e s' hs h
      simp only [Driver.initLoop, Res.ok.injEq, Prod.mk.injEq] at h
      obtain ⟨rfl, rfl⟩ := h
      simp only [Imp.Driver.initLoop, pure_apply, ← hs]
    | cons c cs ih =>
      intro i d s e s' hs h
      simp only [Driver.initLoop] at h
      rw [Res.bind_eq_ok] at h
      obtain ⟨t, h1, h⟩ := h
      simp only [Imp.Driver.initLoop, get_bind, Driver.getSampleSize, hs, lift_ok, pure_bind, h1,
        modify_bind]
      by_cases hc : c = 0
      · rw [if_pos hc] at h ⊢
        simp only [modify_bind]
        exact ih (i + 1) ⟨d.counts, insert i d.emptyIds, some t⟩ t e s' rfl h
      · rw [if_neg hc] at h ⊢
        exact ih (i + 1) ⟨d.counts, d.emptyIds, some t⟩ t e s' rfl h
  have hinit := Driver.init_eq 0 l hs
  rw [if_pos (.inl rfl)] at hinit
  unfold Driver.init at hinit
  rw [Res.bind_eq_ok] at hinit
  obtain ⟨⟨e, s'⟩, h1, h2⟩ := hinit
  simp only at h2
  rw [Res.bind_eq_ok] at h2
  obtain ⟨_, _, h2⟩ := h2
  simp only [Res.pure_eq, Res.ok.injEq] at h2
  unfold Imp.Driver.init Imp.Driver.validate
  simp only [bind_apply, Act.modify, Act.get]
  rw [loop _ 0 ⟨(Driver.raw (l.map Int.ofNat)).counts, ∅, some 0⟩ 0 e s' rfl h1]
  simp only [h2]
  rw [Driver.ofSizes_validate_fail hl h0]
  rfl

example : Imp.Driver.init 1 (Driver.raw [2, 5]) = .fail (Driver.ofSizes [2, 5]) :=
  C65_driver_init 1 (by decide) [2, 5] (by decide) (by decide)

/-- Finding: a Dirichlet-Process-Discrete mixture.  A value no group holds any more has left the
cache; removing it once more fails in the cache, after the group has gone into debt. -/
theorem C65_dpd_mixture_remove {F : Type} [FloatOps F] (lvl : Nat) (hl : 1 ≤ lvl)
    (sh : DPD.Shared F) (m : MixtureSlave (DPD.Cache F) DPD.Group) (i : Nat) (v : UInt32)
    (g : DPD.Group) (t : Int) (hi : m.groups[i]? = some g) (hv : v ≠ DPD.other)
    (hb : sh.betas.contains v = true) (ht : g.total = some t)
    (hr : -2147483648 ≤ t - 1 ∧ t ≤ 2147483647) (hn : g.map.lookup v = none)
    (hc : m.scorer.scores.lookup v = none) :
    ∃ g', Imp.slaveChange lvl (fun v => Imp.dpdAdd lvl sh v (-1)) (Imp.dpdTellRemove lvl sh) i v m =
        .fail ⟨m.groups.set i g', m.scorer⟩ ∧ g'.getCount v = -1 ∧ g'.total = some (t - 1) := by
  have i1 : InInt32 (t + -1) := by unfold InInt32 int32Min int32Max; omega
  have hil : i < m.groups.length := (List.getElem?_eq_some_iff.mp hi).1
  refine ⟨⟨g.map.set v (-1), some (t + -1)⟩, ?_, by simp [SparseCounter.getCount], rfl⟩
  have hadd : Imp.dpdAdd lvl sh v (-1) g = .ok ⟨g.map.set v (-1), some (t + -1)⟩ () := by
    unfold Imp.dpdAdd check
    rw [distAssert_of hv, distAssert_of hb, lift_ok, pure_bind, pure_bind, bind_apply,
      Imp.counterAdd_new g v (-1) t (by decide) ht i1 hn]
    rfl
  have htell : Imp.dpdTellRemove lvl sh i ⟨g.map.set v (-1), some (t + -1)⟩ v m.scorer
      = .fail m.scorer := by
    unfold Imp.dpdTellRemove check
    have hg : Sparse.get lvl m.scorer.scores v = .fail := by
      unfold Sparse.get
      rw [distAssert_of_not hl (by simp [FMap.contains, hc])]; rfl
    rw [distAssert_of hv, lift_ok, pure_bind]
    simp only [get_bind, hg, lift_fail_bind]
  unfold Imp.slaveChange check
  simp only [get_bind]
  rw [distAssert_of hil, lift_ok, pure_bind]
  have e : SlaveGroups.groupAt lvl (m.groups.set i ⟨g.map.set v (-1), some (t + -1)⟩) i
      = .ok ⟨g.map.set v (-1), some (t + -1)⟩ := by
    unfold SlaveGroups.groupAt
    rw [distAssert_of (by simpa using hil), Res.ok_bind, getAt_of (by simpa using hil)]
    simp
  simp only [bind_apply, onMember, onElement, hi, hadd, get_apply, e, lift, htell]

/-- The last holder of value 0 let go of it; removing it again leaves the group at -1. -/
example : ∃ g', Imp.slaveChange 1 (fun v => Imp.dpdAdd 1
      ⟨XR.fin 1, XR.fin 1, XR.fin 0, FMap.empty.set 0 (XR.fin 1), ⟨FMap.empty.set 0 6, some 6⟩⟩ v (-1))
      (Imp.dpdTellRemove 1
        ⟨XR.fin 1, XR.fin 1, XR.fin 0, FMap.empty.set 0 (XR.fin 1), ⟨FMap.empty.set 0 6, some 6⟩⟩)
      0 0 ⟨[⟨FMap.empty, some 0⟩], ⟨FMap.empty, [XR.fin 0]⟩⟩ =
    .fail ⟨[g'], ⟨FMap.empty, [XR.fin 0]⟩⟩ ∧ g'.getCount 0 = -1 ∧ g'.total = some (-1) :=
  C65_dpd_mixture_remove 1 (by decide) _ _ 0 0 ⟨FMap.empty, some 0⟩ 0 rfl (by decide)
    (by simp [FMap.contains]) rfl (by decide) (by simp) (by simp)

end Dist
