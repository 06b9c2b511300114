import Verif.Model.Failure
import Verif.Spec.Failure
import Verif.Lemmas.IdTracker

/-! # Lemmas on state-carrying calls -/

namespace Dist

namespace Act

variable {σ τ α β γ : Type}

@[simp] theorem pure_apply (a : α) (s : σ) : (pure a : Act σ α) s = .ok s a := rfl

theorem bind_apply (x : Act σ α) (f : α → Act σ β) (s : σ) :
    (x >>= f) s = match x s with
      | .ok s a => f a s
      | .fail s => .fail s
      | .ub => .ub := rfl

instance : LawfulMonad (Act σ) := LawfulMonad.mk'
  (id_map := by intro α x; funext s; show (x >>= _) s = _; rw [bind_apply]; cases x s <;> rfl)
  (pure_bind := by intros; rfl)
  (bind_assoc := by
    intro α β γ x f g; funext s; simp only [bind_apply]; cases x s <;> rfl)

@[simp] theorem get_bind (f : σ → Act σ β) (s : σ) : (get >>= f) s = f s s := rfl
@[simp] theorem modify_bind (g : σ → σ) (f : Unit → Act σ β) (s : σ) :
    (modify g >>= f) s = f () (g s) := rfl
@[simp] theorem modify_apply (g : σ → σ) (s : σ) : modify g s = .ok (g s) () := rfl
@[simp] theorem get_apply (s : σ) : (get : Act σ σ) s = .ok s s := rfl

@[simp] theorem lift_ok (a : α) : (lift (.ok a) : Act σ α) = pure a := rfl
@[simp] theorem lift_ub_apply (s : σ) : (lift (.ub : Res α) : Act σ α) s = .ub := rfl
@[simp] theorem lift_ub_bind (f : α → Act σ β) (s : σ) : (lift .ub >>= f) s = .ub := rfl
@[simp] theorem lift_fail_bind (f : α → Act σ β) (s : σ) : (lift .fail >>= f) s = .fail s := rfl

@[simp] theorem ite_act_apply (c : Prop) [Decidable c] (x y : Act σ α) (s : σ) :
    (if c then x else y) s = if c then x s else y s := by split_ifs <;> rfl

/-- A failed `lift` leaves the object alone. -/
@[simp] theorem lift_fail_iff {r : Res α} {s s' : σ} :
    (lift r : Act σ α) s = .fail s' ↔ r = .fail ∧ s = s' := by
  cases r <;> simp [lift]

@[simp] theorem lift_bind_fail_iff {r : Res α} {f : α → Act σ β} {s s' : σ} :
    (lift r >>= f) s = .fail s' ↔ (r = .fail ∧ s = s') ∨ ∃ a, r = .ok a ∧ f a s = .fail s' := by
  cases r <;> simp [bind_apply, lift]

theorem res_lift {r : Res α} {s : σ} {k : σ → α → β} :
    ((lift r : Act σ α) s).res k = (r >>= fun a => .ok (k s a)) := by
  cases r <;> rfl

theorem res_lift_bind {r : Res α} {f : α → Act σ β} {s : σ} {k : σ → β → γ} :
    ((lift r >>= f) s).res k = (r >>= fun a => (f a s).res k) := by
  cases r <;> rfl

theorem res_ok {s : σ} {a : α} {k : σ → α → β} : (Out.ok s a).res k = .ok (k s a) := rfl

end Act

theorem Out.res_ite {σ α β : Type} (c : Prop) [Decidable c] (x y : Out σ α) (k : σ → α → β) :
    (if c then x else y).res k = if c then x.res k else y.res k := by split_ifs <;> rfl

namespace Imp

open FloatNotation

theorem counterAdd_new {K : Type} [DecidableEq K] (c : Dist.SparseCounter K) (k : K) (n t : Int)
    (hn : n ≠ 0) (ht : c.total = some t) (hi : InInt32 (t + n)) (hk : c.map.lookup k = none) :
    SparseCounter.add k n c = .ok ⟨c.map.set k n, some (t + n)⟩ n := by
  obtain ⟨m, tot⟩ := c
  simp only at ht hk
  subst ht
  unfold SparseCounter.add SparseCounter.bump
  simp only [if_pos hn, bind_assoc, Act.get_bind, Dist.SparseCounter.bumpTotal, i32_of hi, Act.lift_ok,
    pure_bind, Act.modify_bind, hk]
  rfl

theorem counterAdd_old {K : Type} [DecidableEq K] (c : Dist.SparseCounter K) (k : K) (n t o : Int)
    (hn : n ≠ 0) (ht : c.total = some t) (hi : InInt32 (t + n)) (hk : c.map.lookup k = some o)
    (ho : InInt32 (o + n)) (h0 : o + n ≠ 0) :
    SparseCounter.add k n c = .ok ⟨c.map.set k (o + n), some (t + n)⟩ (o + n) := by
  obtain ⟨m, tot⟩ := c
  simp only at ht hk
  subst ht
  unfold SparseCounter.add SparseCounter.bump
  simp only [if_pos hn, bind_assoc, Act.get_bind, Dist.SparseCounter.bumpTotal, i32_of hi, Act.lift_ok,
    pure_bind, Act.modify_bind, hk, i32_of ho, if_neg h0]
  rfl

variable {F : Type} [FloatOps F]

theorem dpdLoadLoop_nil (lvl : Nat) (bs : List F) (cs : List UInt64) (sum : F) :
    dpdLoadLoop lvl [] bs cs sum = (pure sum : Act (DPD.Shared F) F) := rfl

theorem dpdLoadLoop_short (lvl : Nat) (v : UInt32) (vs : List UInt32) (cs : List UInt64) (sum : F) :
    dpdLoadLoop lvl (v :: vs) [] cs sum = (Act.lift .ub : Act (DPD.Shared F) F) := rfl

theorem dpdLoadLoop_short' (lvl : Nat) (v : UInt32) (vs : List UInt32) (b : F) (bs : List F)
    (sum : F) :
    dpdLoadLoop lvl (v :: vs) (b :: bs) [] sum = (Act.lift .ub : Act (DPD.Shared F) F) := rfl

theorem dpdLoadLoop_cons (lvl : Nat) (v : UInt32) (vs : List UInt32) (b : F) (bs : List F)
    (c : UInt64) (cs : List UInt64) (sum : F) :
    dpdLoadLoop lvl (v :: vs) (b :: bs) (c :: cs) sum = (do
      dpdLoadBody lvl v b (Proto.u64ToInt c)
      dpdLoadLoop lvl vs bs cs (sum + b) : Act (DPD.Shared F) F) := rfl

theorem removeGroup_refines (lvl : Nat) (t : IdTracker) (p : Nat) :
    (Imp.IdTracker.removeGroup lvl p t).res (fun t _ => t) = t.removeGroup lvl p := by
  unfold Imp.IdTracker.removeGroup Dist.IdTracker.removeGroup Act.check
  simp only [Act.get_bind, Act.res_lift_bind, Act.modify_bind]
  congr 1; funext _
  congr 1; funext global
  congr 1; funext gs
  congr 1; funext _
  congr 1; funext p2g
  by_cases h : p ≠ p2g.length
  · simp only [if_pos h, Act.get_bind, Act.res_lift_bind]
    congr 1; funext global
    congr 1; funext _
    congr 1; funext _
    split_ifs <;> rfl
  · simp only [if_neg h]; rfl

/-- Under the invariant of the id tracker only the first check of `remove_group` can fail. -/
theorem removeGroup_clean (lvl : Nat) {t : IdTracker} {s : Spec.Groups} (hr : t.Rep s) (p : Nat) :
    Spec.CleanOn (Imp.IdTracker.removeGroup lvl p) t := by
  intro t' h
  by_cases hp : p < s.live.length
  · exfalso
    obtain ⟨t2, h2, _⟩ := hr.removeGroup lvl hp
    have hr2 : (Imp.IdTracker.removeGroup lvl p t).res (fun t _ => t) = t.removeGroup lvl p :=
      removeGroup_refines lvl t p
    rw [h, h2] at hr2
    simp [Out.res] at hr2
  · unfold Imp.IdTracker.removeGroup Act.check at h
    simp only [Act.get_bind, Act.lift_bind_fail_iff] at h
    rcases h with ⟨_, h⟩ | ⟨_, h1, h⟩
    · exact h.symm
    · exfalso
      rw [hr.p2g, getAt_of_ge (by omega)] at h
      rcases h with ⟨h, _⟩ | ⟨_, h, _⟩ <;> simp at h

/-- The call ends, normally or by an error, with the object `s'`. -/
def Ends {σ α : Type} (x : Act σ α) (s s' : σ) : Prop := x s = .fail s' ∨ ∃ a, x s = .ok s' a

theorem Ends.bind {σ α β : Type} {x : Act σ α} {f : α → Act σ β} {s s' : σ}
    (h : Ends (x >>= f) s s') : x s = .fail s' ∨ ∃ s1 a, x s = .ok s1 a ∧ Ends (f a) s1 s' := by
  unfold Ends at h
  simp only [Act.bind_apply] at h
  cases hx : x s with
  | ok s1 a => simp only [hx] at h; exact .inr ⟨s1, a, rfl, h⟩
  | fail s1 => simp [hx] at h; exact .inl (by rw [h])
  | ub => simp [hx] at h

theorem fail_bind {σ α β : Type} {x : Act σ α} {f : α → Act σ β} {s s' : σ}
    (h : (x >>= f) s = .fail s') :
    x s = .fail s' ∨ ∃ s1 a, x s = .ok s1 a ∧ f a s1 = .fail s' := by
  simp only [Act.bind_apply] at h
  cases hx : x s with
  | ok s1 a => simp only [hx] at h; exact .inr ⟨s1, a, rfl, h⟩
  | fail s1 => simp [hx] at h; exact .inl (by rw [h])
  | ub => simp [hx] at h

/-- What a loop of `protobuf_load` may have done to the object so far. -/
def Loaded (vs : List UInt32) (sh sh' : DPD.Shared F) : Prop :=
  sh'.gamma = sh.gamma ∧ sh'.alpha = sh.alpha ∧ sh'.beta0 = sh.beta0 ∧
    ∀ v, sh'.betas.contains v = true → sh.betas.contains v = true ∨ v ∈ vs

theorem Loaded.trans {vs ws : List UInt32} {a b c : DPD.Shared F} (h : Loaded vs a b)
    (h' : Loaded ws b c) : Loaded (vs ++ ws) a c := by
  obtain ⟨h1, h2, h3, h4⟩ := h
  obtain ⟨k1, k2, k3, k4⟩ := h'
  refine ⟨k1.trans h1, k2.trans h2, k3.trans h3, fun v hv => ?_⟩
  rcases k4 v hv with hv | hv
  · rcases h4 v hv with hv | hv
    · exact .inl hv
    · exact .inr (by simp [hv])
  · exact .inr (by simp [hv])

theorem Loaded.refl (sh : DPD.Shared F) : Loaded [] sh sh := ⟨rfl, rfl, rfl, fun _ h => .inl h⟩

theorem ends_counts (v : UInt32) (n : Int) {sh sh' : DPD.Shared F}
    (h : Ends (onCounts (SparseCounter.add v n)) sh sh') : Loaded [] sh sh' := by
  unfold Ends onCounts Act.onMember at h
  cases hx : SparseCounter.add v n sh.counts with
  | ok s1 a => simp [hx] at h; subst h; exact ⟨rfl, rfl, rfl, fun _ h => .inl h⟩
  | fail s1 => simp [hx] at h; subst h; exact ⟨rfl, rfl, rfl, fun _ h => .inl h⟩
  | ub => simp [hx] at h

theorem ends_betas (lvl : Nat) (v : UInt32) (b : F) {sh sh' : DPD.Shared F}
    (h : Ends (onBetas (Sparse.add lvl v b)) sh sh') : Loaded [v] sh sh' := by
  have key : ∀ m', Ends (Sparse.add lvl v b) sh.betas m' → ∀ w, m'.contains w = true →
      sh.betas.contains w = true ∨ w ∈ [v] := by
    intro m' hm w hw
    unfold Ends Sparse.add Act.check at hm
    simp only [Act.get_bind] at hm
    have hm' : m' = sh.betas ∨ m' = sh.betas.set v b := by
      cases hk : sh.betas.contains v
      · simp [hk] at hm; exact .inr hm.symm
      · left
        simp only [hk, Bool.not_true, Bool.false_eq_true, if_false, pure_bind] at hm
        rcases hm with hm | ⟨_, hm⟩
        · exact (Act.lift_fail_iff.mp hm).2.symm
        · unfold Act.lift at hm
          cases hd : distAssert lvl 1 False <;> simp [hd] at hm
          exact hm.symm
    rcases hm' with rfl | rfl
    · exact .inl hw
    · by_cases hwv : w = v
      · exact .inr (by simp [hwv])
      · left; simpa [FMap.contains, hwv] using hw
  unfold Ends onBetas Act.onMember at h
  cases hx : Sparse.add lvl v b sh.betas with
  | ok s1 a => simp [hx] at h; subst h; exact ⟨rfl, rfl, rfl, key s1 (.inr ⟨a, hx⟩)⟩
  | fail s1 => simp [hx] at h; subst h; exact ⟨rfl, rfl, rfl, key s1 (.inl hx)⟩
  | ub => simp [hx] at h

theorem ends_lift {α : Type} {r : Res α} {sh sh' : DPD.Shared F} (h : Ends (Act.lift r) sh sh') :
    sh' = sh := by
  unfold Ends Act.lift at h
  cases r <;> simp at h <;> exact h.symm

theorem ends_body (lvl : Nat) (v : UInt32) (b : F) (n : Int) {sh sh' : DPD.Shared F}
    (h : Ends (dpdLoadBody lvl v b n) sh sh') : Loaded [v] sh sh' := by
  have wk : ∀ {a b : DPD.Shared F}, Loaded [] a b → Loaded [v] a b := by
    intro a b ⟨h1, h2, h3, h4⟩
    exact ⟨h1, h2, h3, fun w hw => .inl (by simpa using h4 w hw)⟩
  unfold dpdLoadBody Act.check at h
  rcases h.bind with h | ⟨s1, _, h, h'⟩
  · rw [ends_lift (.inl h)]; exact wk (.refl _)
  have := ends_lift (.inr ⟨_, h⟩); subst this
  rcases h'.bind with h | ⟨s2, _, h, h'⟩
  · exact ends_betas lvl v b (.inl h)
  have l1 := ends_betas lvl v b (.inr ⟨_, h⟩)
  rcases h'.bind with h | ⟨s3, _, h, h'⟩
  · exact l1.trans (ends_counts v n (.inl h))
  have l2 := l1.trans (ends_counts v n (.inr ⟨_, h⟩))
  have : sh' = s3 := by
    unfold Ends at h'; simp at h'; exact h'.symm
  rw [this]; exact l2

theorem ends_loop (lvl : Nat) : ∀ (vs : List UInt32) (bs : List F) (cs : List UInt64) (sum : F)
    {sh sh' : DPD.Shared F}, Ends (dpdLoadLoop lvl vs bs cs sum) sh sh' → Loaded vs sh sh' := by
  intro vs
  induction vs with
  | nil =>
    intro bs cs sum sh sh' h
    rw [dpdLoadLoop_nil] at h
    unfold Ends at h; simp at h; rw [h]; exact .refl _
  | cons v vs ih =>
    intro bs cs sum sh sh' h
    cases bs with
    | nil => rw [dpdLoadLoop_short] at h; unfold Ends at h; simp at h
    | cons b bs =>
      cases cs with
      | nil => rw [dpdLoadLoop_short'] at h; unfold Ends at h; simp at h
      | cons c cs =>
        rw [dpdLoadLoop_cons] at h
        rcases h.bind with h | ⟨s1, _, h, h'⟩
        · have := ends_body lvl v b _ (.inl h)
          exact ⟨this.1, this.2.1, this.2.2.1, fun w hw => (this.2.2.2 w hw).imp id (by
            intro hw; simp at hw; simp [hw])⟩
        · exact (ends_body lvl v b _ (.inr ⟨_, h⟩)).trans (ih bs cs _ h')

end Imp

end Dist
