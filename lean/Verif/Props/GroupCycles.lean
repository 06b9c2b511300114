import Verif.Lemmas.NoDrift
import Verif.Model.NIW
import Verif.Model.GP
import Mathlib.Algebra.BigOperators.Group.Multiset.Basic
import Mathlib.Algebra.Order.BigOperators.Group.Multiset
import Mathlib.Tactic.Linarith
import Mathlib.Tactic.NormNum

/-!
# C89: sums of observations in single precision

The groups of `NormalInverseWishart` and `GammaPoisson` keep sums in single precision: adding an
observation adds to them, removing it subtracts.  `nearest v = v` says that `v` is a
single-precision number.
-/

namespace Dist

open FloatOps FloatNotation

variable {lib : Libm} {d : ℕ}

namespace NIW

/-- One step of a sampler that moves an observation away and back: the observation is added and
removed. -/
noncomputable def cycle (v : Vec (Single lib) d) (g : Group (Single lib) d) : Res (Group (Single lib) d) := do
  let g ← g.addValue v
  g.removeValue v

/-- Several such steps. -/
noncomputable def cycles (v : Vec (Single lib) d) : ℕ → Group (Single lib) d → Res (Group (Single lib) d)
  | 0, g => .ok g
  | n + 1, g => do
    let g ← cycle v g
    cycles v n g

theorem cycle_single {v : Vec (Single lib) d} {g : Group (Single lib) d} (h0 : 0 ≤ g.count)
    (h : g.count + 1 < 2 ^ 31) :
    cycle v g = .ok ⟨g.count, fun i => ⟨nearest (nearest ((g.sumX i).val + (v i).val) - (v i).val)⟩,
      fun i j => ⟨nearest (nearest ((g.sumXXT i j).val + nearest ((v i).val * (v j).val)) -
        nearest ((v i).val * (v j).val))⟩⟩ := by
  unfold cycle Group.addValue Group.removeValue
  rw [i32_of (by unfold InInt32 int32Min int32Max; omega)]
  simp only [Res.ok_bind]
  show (i32 (g.count + 1 - 1) >>= _) = _
  rw [i32_of (by unfold InInt32 int32Min int32Max; omega)]
  simp only [Res.ok_bind, add_sub_cancel_right]
  rfl

/-- **C89 (no drift).** Adding and removing the same vector over and over changes a group at most
once: any number of further cycles leaves it exactly as the first one did. -/
theorem C89_cycles (v : Vec (Single lib) d) (g : Group (Single lib) d) (h0 : 0 ≤ g.count)
    (h1 : g.count + 1 < 2 ^ 31) (hv : ∀ i, nearest (v i).val = (v i).val)
    (hx : ∀ i, nearest (g.sumX i).val = (g.sumX i).val)
    (hxx : ∀ i j, nearest (g.sumXXT i j).val = (g.sumXXT i j).val) (n : ℕ) (hn : 0 < n) :
    ∃ g', cycle v g = .ok g' ∧ cycles v n g = .ok g' := by
  refine ⟨_, cycle_single h0 h1, ?_⟩
  obtain ⟨n, rfl⟩ : ∃ k, n = k + 1 := ⟨n - 1, by omega⟩
  show (cycle v g >>= fun g => cycles v n g) = _
  rw [cycle_single h0 h1, Res.ok_bind]
  clear hn
  induction n with
  | zero => rfl
  | succ n ih =>
    show (cycle v _ >>= fun g => cycles v n g) = _
    rw [cycle_single (by exact h0) (by exact h1), Res.ok_bind]
    simp only [nearest.no_drift (hx _) (hv _), nearest.no_drift (hxx _ _) (nearest.idem _)]
    exact ih

end NIW

namespace GP

/-- **C89 (no drift, counts).** The same for `GammaPoisson`, whose group keeps a sum of logarithms
of factorials. -/
theorem C89_gp_cycles (v : UInt32) (g : Group (Single lib)) (hp : nearest g.logProd.val = g.logProd.val)
    (n : ℕ) (hn : 0 < n) :
    (fun g : Group (Single lib) => (g.addValue v).removeValue v)^[n] g = (g.addValue v).removeValue v := by
  have hf : nearest (Single.logFactorialf lib v.toNat) = Single.logFactorialf lib v.toNat := by
    unfold Single.logFactorialf Single.narrow
    split
    · exact nearest.idem _
    · exact Factor.nearest_zero
  have e : ∀ g : Group (Single lib), (g.addValue v).removeValue v =
      ⟨g.count, g.sum, ⟨nearest (nearest (g.logProd.val + Single.logFactorialf lib v.toNat) -
        Single.logFactorialf lib v.toNat)⟩⟩ := by
    intro g
    show (⟨g.count + 1 - 1, g.sum + v - v, _⟩ : Group (Single lib)) = _
    rw [UInt32.add_sub_cancel, UInt32.add_sub_cancel]
    rfl
  obtain ⟨n, rfl⟩ : ∃ k, n = k + 1 := ⟨n - 1, by omega⟩
  clear hn
  induction n with
  | zero => rfl
  | succ n ih =>
    rw [Function.iterate_succ_apply', ih, e, e]
    simp only [nearest.no_drift hp hf]

end GP

namespace NIW

/-- A vector of integers. -/
noncomputable def ints (z : Fin d → ℤ) : Vec (Single lib) d := fun i => ⟨z i⟩

/-- The exact statistics of a bag of vectors of integers. -/
noncomputable def exactGroup (s : Multiset (Fin d → ℤ)) : Group (Single lib) d :=
  ⟨s.card, fun i => ⟨((s.map fun z => z i).sum : ℤ)⟩, fun i j => ⟨((s.map fun z => z i * z j).sum : ℤ)⟩⟩

/-- A run of additions, removals of observations that are present, and merges, of vectors of
integers of size at most `B`, in which no group holds more than `2^24 / B^2` observations.  The bag
holds the observations that are in the group. -/
inductive Run (lib : Libm) (lvl : ℕ) (d B : ℕ) : Multiset (Fin d → ℤ) → Group (Single lib) d → Prop
  | init {g} : Group.init lvl = .ok g → Run lib lvl d B 0 g
  | add {s g} {z : Fin d → ℤ} {g'} : Run lib lvl d B s g → (∀ i, |z i| ≤ (B : ℤ)) → (s.card + 1) * B ^ 2 ≤ 2 ^ 24 →
      g.addValue (ints z) = .ok g' → Run lib lvl d B (z ::ₘ s) g'
  | remove {s g} {z : Fin d → ℤ} {g'} : Run lib lvl d B (z ::ₘ s) g → g.removeValue (ints z) = .ok g' → Run lib lvl d B s g'
  | merge {s t g h g'} : Run lib lvl d B s g → Run lib lvl d B t h → (s.card + t.card) * B ^ 2 ≤ 2 ^ 24 →
      g.merge h = .ok g' → Run lib lvl d B (s + t) g'

theorem abs_sum_le {α : Type*} (s : Multiset α) (f : α → ℤ) (C : ℤ) (h : ∀ a ∈ s, |f a| ≤ C) :
    |(s.map f).sum| ≤ s.card * C := by
  induction s using Multiset.induction with
  | empty => simp
  | cons a s ih =>
    rw [Multiset.map_cons, Multiset.sum_cons, Multiset.card_cons]
    push_cast
    have h1 := h a (Multiset.mem_cons_self a s)
    have h2 := ih fun b hb => h b (Multiset.mem_cons_of_mem hb)
    have h3 := abs_add_le (f a) (s.map f).sum
    linarith

structure Small (B : ℕ) (s : Multiset (Fin d → ℤ)) : Prop where
  size : ∀ z ∈ s, ∀ i, |z i| ≤ B
  card : s.card * B ^ 2 ≤ 2 ^ 24

theorem Small.sum {B : ℕ} {s : Multiset (Fin d → ℤ)} (h : Small B s) (i : Fin d) :
    |(s.map fun z => z i).sum| ≤ 2 ^ 24 := by
  have h1 := abs_sum_le s (fun z => z i) B fun z hz => h.size z hz i
  refine h1.trans ?_
  have h2 := h.card
  have h3 : B ≤ B ^ 2 := Nat.le_self_pow (by norm_num) B
  have h4 : s.card * B ≤ 2 ^ 24 := (Nat.mul_le_mul_left _ h3).trans h2
  exact_mod_cast h4

theorem Small.sumProd {B : ℕ} {s : Multiset (Fin d → ℤ)} (h : Small B s) (i j : Fin d) :
    |(s.map fun z => z i * z j).sum| ≤ 2 ^ 24 := by
  have h1 := abs_sum_le s (fun z => z i * z j) (B ^ 2) fun z hz => by
    rw [abs_mul, sq]
    exact mul_le_mul (h.size z hz i) (h.size z hz j) (abs_nonneg _) (by positivity)
  refine h1.trans ?_
  exact_mod_cast h.card

/-- **C89 (exact).** On vectors of integers such a run is exact: the group is determined by the
observations in it, however they came and whatever was added and removed before. -/
theorem C89_exact {lvl B : ℕ} {s : Multiset (Fin d → ℤ)} {g : Group (Single lib) d}
    (h : Run lib lvl d B s g) : g = exactGroup s := by
  suffices hh : Small B s ∧ g = exactGroup s from hh.2
  induction h with
  | init h =>
    refine ⟨⟨by simp, by simp⟩, ?_⟩
    unfold Group.init at h
    obtain ⟨_, -, h⟩ := Res.bind_eq_ok.1 h
    have h := Res.ok.inj h
    subst h
    have e : (ofInt 0 : Single lib) = ⟨0⟩ := by
      show (⟨nearest ((0 : ℤ) : ℝ)⟩ : Single lib) = _
      rw [Int.cast_zero, Factor.nearest_zero]
    simp [exactGroup, e]
  | @add s g z g' _ hz hc h ih =>
    obtain ⟨hS, rfl⟩ := ih
    have hS' : Small B (z ::ₘ s) := ⟨fun w hw => by
      rcases Multiset.mem_cons.1 hw with rfl | hw
      · exact hz
      · exact hS.size w hw, by rw [Multiset.card_cons]; exact hc⟩
    refine ⟨hS', ?_⟩
    unfold Group.addValue at h
    obtain ⟨c, hc', h⟩ := Res.bind_eq_ok.1 h
    obtain ⟨-, rfl⟩ := i32_eq_ok.1 hc'
    have h := Res.ok.inj h
    subst h
    have hsing : Small B ({z} : Multiset (Fin d → ℤ)) := ⟨fun w hw => by
      rw [Multiset.mem_singleton] at hw; subst hw; exact hz, by
        rw [Multiset.card_singleton]; nlinarith [Nat.zero_le (s.card * B ^ 2)]⟩
    unfold exactGroup
    rw [Group.mk.injEq]
    refine ⟨?_, ?_, ?_⟩
    · rw [Multiset.card_cons]; push_cast; rfl
    · funext i
      show (⟨nearest (((s.map fun z => z i).sum : ℤ) + (z i : ℝ))⟩ : Single lib) = _
      have := nearest.int (hS'.sum i)
      rw [Multiset.map_cons, Multiset.sum_cons] at this ⊢
      rw [add_comm, ← this]; push_cast; rfl
    · funext i j
      show (⟨nearest (((s.map fun z => z i * z j).sum : ℤ) + nearest ((z i : ℝ) * z j))⟩ : Single lib) = _
      have hp := nearest.int (hsing.sumProd i j)
      rw [Multiset.map_singleton, Multiset.sum_singleton] at hp
      have := nearest.int (hS'.sumProd i j)
      rw [Multiset.map_cons, Multiset.sum_cons] at this ⊢
      rw [show (z i : ℝ) * z j = ((z i * z j : ℤ) : ℝ) by push_cast; rfl, hp, add_comm, ← this]; push_cast; rfl
  | @remove s g z g' _ h ih =>
    obtain ⟨hS, rfl⟩ := ih
    have hS' : Small B s := ⟨fun w hw => hS.size w (Multiset.mem_cons_of_mem hw), by
      have := hS.card
      rw [Multiset.card_cons] at this
      nlinarith⟩
    have hsing : Small B ({z} : Multiset (Fin d → ℤ)) := ⟨fun w hw => by
      rw [Multiset.mem_singleton] at hw; subst hw; exact hS.size _ (Multiset.mem_cons_self _ _), by
        have := hS.card
        rw [Multiset.card_cons] at this
        rw [Multiset.card_singleton]; nlinarith [Nat.zero_le (s.card * B ^ 2)]⟩
    refine ⟨hS', ?_⟩
    unfold Group.removeValue at h
    obtain ⟨c, hc', h⟩ := Res.bind_eq_ok.1 h
    obtain ⟨-, rfl⟩ := i32_eq_ok.1 hc'
    have h := Res.ok.inj h
    subst h
    unfold exactGroup
    rw [Group.mk.injEq]
    refine ⟨?_, ?_, ?_⟩
    · rw [Multiset.card_cons]; push_cast; ring
    · funext i
      show (⟨nearest ((((z ::ₘ s).map fun z => z i).sum : ℤ) - (z i : ℝ))⟩ : Single lib) = _
      have := nearest.int (hS'.sum i)
      rw [Multiset.map_cons, Multiset.sum_cons]
      push_cast
      rw [add_sub_cancel_left]
      push_cast at this
      rw [this]
    · funext i j
      show (⟨nearest ((((z ::ₘ s).map fun z => z i * z j).sum : ℤ) - nearest ((z i : ℝ) * z j))⟩ :
        Single lib) = _
      have hp := nearest.int (hsing.sumProd i j)
      rw [Multiset.map_singleton, Multiset.sum_singleton] at hp
      have := nearest.int (hS'.sumProd i j)
      rw [Multiset.map_cons, Multiset.sum_cons,
        show (z i : ℝ) * z j = ((z i * z j : ℤ) : ℝ) by push_cast; rfl, hp, Int.cast_add, add_sub_cancel_left,
        this]
  | @merge s t g h g' _ _ hc hm ih ih' =>
    obtain ⟨hS, rfl⟩ := ih
    obtain ⟨hT, rfl⟩ := ih'
    have hU : Small B (s + t) := ⟨fun w hw => by
      rcases Multiset.mem_add.1 hw with hw | hw
      · exact hS.size w hw
      · exact hT.size w hw, by rw [Multiset.card_add]; exact hc⟩
    refine ⟨hU, ?_⟩
    unfold Group.merge at hm
    obtain ⟨c, hc', hm⟩ := Res.bind_eq_ok.1 hm
    obtain ⟨-, rfl⟩ := i32_eq_ok.1 hc'
    have hm := Res.ok.inj hm
    subst hm
    unfold exactGroup
    rw [Group.mk.injEq]
    refine ⟨?_, ?_, ?_⟩
    · rw [Multiset.card_add]; push_cast; rfl
    · funext i
      show (⟨nearest (((s.map fun z => z i).sum : ℤ) + ((t.map fun z => z i).sum : ℤ))⟩ : Single lib) = _
      have := nearest.int (hU.sum i)
      rw [Multiset.map_add, Multiset.sum_add] at this ⊢
      rw [← this]; push_cast; rfl
    · funext i j
      show (⟨nearest (((s.map fun z => z i * z j).sum : ℤ) + ((t.map fun z => z i * z j).sum : ℤ))⟩ :
        Single lib) = _
      have := nearest.int (hU.sumProd i j)
      rw [Multiset.map_add, Multiset.sum_add] at this ⊢
      rw [← this]; push_cast; rfl

/-- **C89 (finding).** Three observations suffice to make the posterior scale matrix indefinite:
with the prior matrix the identity and the prior mean at the observations, after adding the vector
of all 4097 three times, the diagonal of the posterior matrix is -3. -/
theorem C89_posterior_indefinite (lvl : ℕ) (hd : 0 < d) (nu : Single lib) :
    ∃ post : Shared (Single lib) d,
      (do
        let g ← Group.init lvl
        let g ← g.addValue (ints fun _ => 4097)
        let g ← g.addValue (ints fun _ => 4097)
        let g ← g.addValue (ints fun _ => 4097)
        Shared.plusGroup lvl ⟨ints fun _ => 4097, ⟨1⟩, fun i j => ⟨if i = j then 1 else 0⟩, nu⟩ g) = Res.ok post ∧
      ∀ i, (post.psi i i).val = -3 := by
  have n1 : nearest 4097 = 4097 := Single.near_eq 4097 0 (by norm_num) (by norm_num) (by norm_num)
  have n2 : nearest 8194 = 8194 := Single.near_eq 8194 0 (by norm_num) (by norm_num) (by norm_num)
  have n3 : nearest 12291 = 12291 := Single.near_eq 12291 0 (by norm_num) (by norm_num) (by norm_num)
  have q1 : nearest 16785409 = 16785408 := by
    rw [nearest.eval_tie_down 8392704 1 (by norm_num) (by norm_num) (by norm_num) (by norm_num) (by decide)]
    norm_num
  have q1' : nearest 16785408 = 16785408 := Single.near_eq 8392704 1 (by norm_num) (by norm_num) (by norm_num)
  have q2 : nearest 33570816 = 33570816 := Single.near_eq 8392704 2 (by norm_num) (by norm_num) (by norm_num)
  have q3 : nearest 50356224 = 50356224 := Single.near_eq 12589056 2 (by norm_num) (by norm_num) (by norm_num)
  have q4 : nearest 50356227 = 50356228 := by
    rw [nearest.eval 12589057 2 (by norm_num) (by norm_num) (by norm_num) (by norm_num [abs_lt])]
    norm_num
  have q5 : nearest 50356232 = 50356232 := Single.near_eq 12589058 2 (by norm_num) (by norm_num) (by norm_num)
  have r3 : nearest 3 = 3 := Single.near_eq 3 0 (by norm_num) (by norm_num) (by norm_num)
  have r4 : nearest 4 = 4 := Single.near_eq 4 0 (by norm_num) (by norm_num) (by norm_num)
  have a0 : (Group.init lvl : Res (Group (Single lib) d)) = .ok ⟨0, fun _ => ⟨0⟩, fun _ _ => ⟨0⟩⟩ := by
    have e : (ofInt 0 : Single lib) = ⟨0⟩ := by
      show (⟨nearest ((0 : ℤ) : ℝ)⟩ : Single lib) = _
      rw [Int.cast_zero, Factor.nearest_zero]
    unfold Group.init
    rw [e]
    simp [distAssert, hd]
  have step : ∀ (c : ℤ) (a b a' b' : ℝ), 0 ≤ c → c < 3 → nearest (a + 4097) = a' →
      nearest (b + 16785408) = b' →
      Group.addValue (⟨c, fun _ => ⟨a⟩, fun _ _ => ⟨b⟩⟩ : Group (Single lib) d) (ints fun _ => 4097) =
        .ok ⟨c + 1, fun _ => ⟨a'⟩, fun _ _ => ⟨b'⟩⟩ := by
    intro c a b a' b' h0 h1 ha hb
    unfold Group.addValue
    rw [i32_of (by unfold InInt32 int32Min int32Max; simp only; omega), Res.ok_bind]
    show Res.ok (⟨c + 1, fun _ => ⟨nearest (a + ((4097 : ℤ) : ℝ))⟩,
      fun _ _ => ⟨nearest (b + nearest (((4097 : ℤ) : ℝ) * ((4097 : ℤ) : ℝ)))⟩⟩ : Group (Single lib) d) = _
    have e : ((4097 : ℤ) : ℝ) * ((4097 : ℤ) : ℝ) = 16785409 := by norm_num
    rw [e, q1, hb]
    push_cast
    rw [ha]
  have s1 := step 0 0 0 4097 16785408 (by norm_num) (by norm_num) (by rw [zero_add, n1]) (by rw [zero_add, q1'])
  have s2 := step 1 4097 16785408 8194 33570816 (by norm_num) (by norm_num) (by norm_num [n2]) (by norm_num [q2])
  have s3 := step 2 8194 33570816 12291 50356224 (by norm_num) (by norm_num) (by norm_num [n3]) (by norm_num [q3])
  norm_num at s1 s2 s3
  rw [a0]
  simp only [Res.ok_bind, s1, s2, s3]
  unfold Shared.plusGroup
  rw [show distAssert lvl 3 (0 < d) = .ok () by simp [distAssert, hd], Res.ok_bind]
  refine ⟨_, rfl, fun i => ?_⟩
  simp only [ne_eq, OfNat.ofNat_ne_zero, not_false_eq_true, if_true, outer, ints, Single.val_add, Single.val_sub,
    Single.val_mul, Single.val_div, Single.val_ofInt]
  push_cast
  have hm4 : nearest (-4) = -4 := by rw [nearest.neg, r4]
  have hm3 : nearest (-3) = -3 := by rw [nearest.neg, r3]
  have hm5 : nearest (-50356232) = -50356232 := by rw [nearest.neg, q5]
  norm_num [r3, r4, n1, n3, q4, hm4, hm5, hm3, Factor.nearest_zero]

/-- **C89 (finding).** Removing does not undo adding: after adding 4096, adding 1 and removing 1,
the sum of squares is `2^24 - 1`. -/
theorem C89_remove_inexact (lvl : ℕ) :
    ∃ g : Group (Single lib) 1,
      (do
        let g ← Group.init lvl
        let g ← g.addValue (ints fun _ => 4096)
        cycle (ints fun _ => 1) g) = Res.ok g ∧
      (g.sumXXT 0 0).val = 2 ^ 24 - 1 := by
  have a0 : (Group.init lvl : Res (Group (Single lib) 1)) = .ok ⟨0, fun _ => ⟨0⟩, fun _ _ => ⟨0⟩⟩ := by
    have e : (ofInt 0 : Single lib) = ⟨0⟩ := by
      show (⟨nearest ((0 : ℤ) : ℝ)⟩ : Single lib) = _
      rw [Int.cast_zero, Factor.nearest_zero]
    unfold Group.init
    rw [e]
    simp [distAssert]
  have q1 : nearest 16777216 = 16777216 := Single.near_eq 1 24 (by norm_num) (by norm_num) (by norm_num)
  have q2 : nearest 16777217 = 16777216 := by
    rw [nearest.eval_tie_down 8388608 1 (by norm_num) (by norm_num) (by norm_num) (by norm_num) (by decide)]
    norm_num
  have q3 : nearest 16777215 = 16777215 := Single.near_eq 16777215 0 (by norm_num) (by norm_num) (by norm_num)
  have q4 : nearest 4096 = 4096 := Single.near_eq 1 12 (by norm_num) (by norm_num) (by norm_num)
  have s1 : Group.addValue (⟨0, fun _ => ⟨0⟩, fun _ _ => ⟨0⟩⟩ : Group (Single lib) 1) (ints fun _ => 4096) =
      .ok ⟨1, fun _ => ⟨4096⟩, fun _ _ => ⟨16777216⟩⟩ := by
    unfold Group.addValue
    rw [i32_of (by unfold InInt32 int32Min int32Max; norm_num), Res.ok_bind]
    show Res.ok (⟨0 + 1, fun _ => ⟨nearest (0 + ((4096 : ℤ) : ℝ))⟩,
      fun _ _ => ⟨nearest (0 + nearest (((4096 : ℤ) : ℝ) * ((4096 : ℤ) : ℝ)))⟩⟩ : Group (Single lib) 1) = _
    norm_num [q1, q4]
  rw [a0]
  simp only [Res.ok_bind, s1]
  refine ⟨_, cycle_single (by norm_num) (by norm_num), ?_⟩
  simp only [ints]
  norm_num [Single.nearest_one, q2, q3]

/-! Concrete cases -/

/-- The group of the last finding, after which more cycles change nothing. -/
example (n : ℕ) (hn : 0 < n) : ∃ g',
    cycle (ints fun _ => 1) (⟨1, fun _ => ⟨4096⟩, fun _ _ => ⟨16777216⟩⟩ : Group (Single lib) 1) = .ok g' ∧
    cycles (ints fun _ => 1) n (⟨1, fun _ => ⟨4096⟩, fun _ _ => ⟨16777216⟩⟩ : Group (Single lib) 1) = .ok g' :=
  C89_cycles _ _ (by norm_num) (by norm_num)
    (fun _ => by simp [ints, Single.nearest_one])
    (fun _ => Single.near_eq 1 12 (by norm_num) (by norm_num) (by norm_num))
    (fun _ _ => Single.near_eq 1 24 (by norm_num) (by norm_num) (by norm_num)) n hn

/-- A run that adds two vectors and removes the first. -/
example : ∃ g : Group (Single lib) 2, Run lib 0 2 7 {![3, -7]} g := by
  obtain ⟨g0, h0⟩ : ∃ g0, (Group.init 0 : Res (Group (Single lib) 2)) = .ok g0 := ⟨_, rfl⟩
  have r0 : Run lib 0 2 7 0 g0 := .init h0
  have c0 := C89_exact r0
  obtain ⟨g1, h1⟩ : ∃ g1, g0.addValue (ints ![1, 2]) = .ok g1 := by
    rw [c0]; unfold Group.addValue exactGroup
    rw [i32_of (by unfold InInt32 int32Min int32Max; simp)]; exact ⟨_, rfl⟩
  have r1 : Run lib 0 2 7 (![1, 2] ::ₘ 0) g1 := .add r0 (z := ![1, 2]) (by decide) (by norm_num) h1
  have c1 := C89_exact r1
  obtain ⟨g2, h2⟩ : ∃ g2, g1.addValue (ints ![3, -7]) = .ok g2 := by
    rw [c1]; unfold Group.addValue exactGroup
    rw [i32_of (by unfold InInt32 int32Min int32Max; simp)]; exact ⟨_, rfl⟩
  have r2 : Run lib 0 2 7 (![3, -7] ::ₘ ![1, 2] ::ₘ 0) g2 := .add r1 (z := ![3, -7]) (by decide) (by norm_num) h2
  rw [Multiset.cons_swap] at r2
  have c2 := C89_exact r2
  obtain ⟨g3, h3⟩ : ∃ g3, g2.removeValue (ints ![1, 2]) = .ok g3 := by
    rw [c2]; unfold Group.removeValue exactGroup
    rw [i32_of (by unfold InInt32 int32Min int32Max; simp)]; exact ⟨_, rfl⟩
  exact ⟨g3, .remove r2 h3⟩

end NIW

end Dist
