import Verif.Base.XR
import Verif.Model.PyIo
import Verif.Spec.PyIo

/-! # C79: dictionaries and messages of the Python bindings

Models with a fixed set of scalar fields, and the clusterings. -/

namespace Dist.Py

open FloatOps Spec

section Basic

theorem asInt_of {z : Int} (h : InInt32 z) : asInt z = .ok z := by simp [asInt, h]

theorem asInt_not {z : Int} (h : ¬ InInt32 z) : asInt z = .fail := by simp [asInt, h]

theorem inInt32_ofU32 (u : UInt32) : InInt32 (ofU32 u) := by
  have := u.toNat_lt
  unfold InInt32 int32Min int32Max ofU32
  rw [Int.bmod_def]
  omega

theorem toU32_ofU32 (u : UInt32) : toU32 (ofU32 u) = u := by
  have := u.toNat_lt
  apply UInt32.toNat_inj.mp
  unfold toU32 ofU32 UInt32.ofInt
  rw [UInt32.toNat_ofNat', Int.bmod_def]
  norm_num
  split_ifs <;> omega

theorem ofU32_toU32 {z : Int} (h : InInt32 z) : ofU32 (toU32 z) = z := by
  unfold InInt32 int32Min int32Max at h
  have e : (toU32 z).toNat = (z % 4294967296).toNat := by
    unfold toU32 UInt32.ofInt
    rw [UInt32.toNat_ofNat']
    exact Nat.mod_eq_of_lt (by omega)
  unfold ofU32
  rw [e, Int.bmod_def]
  omega

theorem act_bind {σ α β : Type} (x : Act σ α) (f : α → Act σ β) (s : σ) :
    (x >>= f) s = match x s with
      | .ok s a => f a s
      | .fail s => .fail s
      | .ub => .ub := (rfl)

theorem act_lift_ok {σ α : Type} (a : α) (s : σ) : Act.lift (.ok a) s = .ok s a := (rfl)
theorem act_lift_fail {σ α : Type} (s : σ) : (Act.lift .fail : Act σ α) s = .fail s := (rfl)
theorem act_lift_ub {σ α : Type} (s : σ) : (Act.lift .ub : Act σ α) s = .ub := (rfl)
theorem act_modify {σ : Type} (f : σ → σ) (s : σ) : Act.modify f s = .ok (f s) () := (rfl)
theorem act_get {σ : Type} (s : σ) : Act.get s = .ok s s := (rfl)
theorem act_pure {σ α : Type} (a : α) (s : σ) : (pure a : Act σ α) s = .ok s a := (rfl)

end Basic

variable {D F : Type} (c : Conv D F)

theorem loadBNBShared_ok (alpha beta : D) {r : Int} (old : BNB.Shared F) (h : InInt32 r) :
    loadBNBShared c ⟨alpha, beta, r⟩ old = .ok ⟨c.narrow alpha, c.narrow beta, toU32 r⟩ () := by
  simp only [loadBNBShared, act_bind, act_modify, asInt_of h, act_lift_ok]

theorem loadGPGroup_ok {n m : Int} (l : D) (old : GP.Group F) (h : InInt32 n) (h' : InInt32 m) :
    loadGPGroup c ⟨n, m, l⟩ old = .ok ⟨toU32 n, toU32 m, c.narrow l⟩ () := by
  simp only [loadGPGroup, act_bind, act_modify, asInt_of h, asInt_of h', act_lift_ok]

theorem loadBNBGroup_ok {n m : Int} (old : BNB.Group) (h : InInt32 n) (h' : InInt32 m) :
    loadBNBGroup ⟨n, m⟩ old = .ok ⟨toU32 n, toU32 m⟩ () := by
  simp only [loadBNBGroup, act_bind, act_modify, asInt_of h, asInt_of h', act_lift_ok]

/-! ## Hyperparameters -/

/-- **C79, scalar hyperparameters.** For Beta-Bernoulli, Gamma-Poisson,
Beta-Negative-Binomial and Normal-Inverse-ChiSq, loading a dumped dictionary restores every
object, and loading a dictionary and dumping again returns it with every number rounded to
single precision.  Only `r` can be refused: it must fit a C `int`. -/
theorem C79_shared :
    RoundTrips (loadBBShared c) (dumpBBShared c) (fun _ => True) ∧
    RoundTrips (loadGPShared c) (dumpGPShared c) (fun _ => True) ∧
    RoundTrips (loadBNBShared c) (dumpBNBShared c) (fun _ => True) ∧
    RoundTrips (loadNICHShared c) (dumpNICHShared c) (fun _ => True) ∧
    LoadsAs (loadBBShared c) (dumpBBShared c)
      (fun r => ⟨c.widen (c.narrow r.alpha), c.widen (c.narrow r.beta)⟩) (fun _ => True) ∧
    LoadsAs (loadGPShared c) (dumpGPShared c)
      (fun r => ⟨c.widen (c.narrow r.alpha), c.widen (c.narrow r.invBeta)⟩) (fun _ => True) ∧
    LoadsAs (loadBNBShared c) (dumpBNBShared c)
      (fun r => ⟨c.widen (c.narrow r.alpha), c.widen (c.narrow r.beta), r.r⟩)
      (fun r => -2147483648 ≤ r.r ∧ r.r ≤ 2147483647) ∧
    LoadsAs (loadNICHShared c) (dumpNICHShared c)
      (fun r => ⟨c.widen (c.narrow r.mu), c.widen (c.narrow r.kappa),
        c.widen (c.narrow r.sigmasq), c.widen (c.narrow r.nu)⟩) (fun _ => True) := by
  refine ⟨?_, ?_, ?_, ?_, ?_, ?_, ?_, ?_⟩
  · intro s old _
    simp [loadBBShared, dumpBBShared, act_bind, act_modify, c.narrow_widen]
  · intro s old _
    simp [loadGPShared, dumpGPShared, act_bind, act_modify, c.narrow_widen]
  · intro s old _
    rw [dumpBNBShared, loadBNBShared_ok c _ _ _ (inInt32_ofU32 _), toU32_ofU32, c.narrow_widen,
      c.narrow_widen]
  · intro s old _
    simp [loadNICHShared, dumpNICHShared, act_bind, act_modify, c.narrow_widen]
  · intro r old
    simp [loadBBShared, dumpBBShared, act_bind, act_modify]
  · intro r old
    simp [loadGPShared, dumpGPShared, act_bind, act_modify]
  · intro r old
    refine ⟨fun h => ?_, fun h => ?_⟩
    · have h' : InInt32 r.r := by unfold InInt32 int32Min int32Max; omega
      refine ⟨⟨c.narrow r.alpha, c.narrow r.beta, toU32 r.r⟩, ?_, ?_⟩
      · simp only [loadBNBShared, act_bind, act_modify, asInt_of h', act_lift_ok]
      · simp only [dumpBNBShared, ofU32_toU32 h']
    · have h' : ¬ InInt32 r.r := by unfold InInt32 int32Min int32Max; omega
      simp [loadBNBShared, act_bind, act_modify, asInt_not h', act_lift_fail]
  · intro r old
    simp [loadNICHShared, dumpNICHShared, act_bind, act_modify]

/-- **C79, scalar hyperparameters through messages.** Whatever the message held before,
`protobuf_load` restores what `protobuf_dump` wrote; for Beta-Negative-Binomial when `r` is
below `2^31`. -/
theorem C79_shared_message :
    MessageRoundTrips (pbLoadBBShared c) (pbDumpBBShared c) (fun _ => True) ∧
    MessageRoundTrips (pbLoadGPShared c) (pbDumpGPShared c) (fun _ => True) ∧
    MessageRoundTrips (pbLoadBNBShared c) (pbDumpBNBShared c) (fun s => s.r.toNat < 2 ^ 31) ∧
    MessageRoundTrips (pbLoadNICHShared c) (pbDumpNICHShared c) (fun _ => True) := by
  refine ⟨?_, ?_, ?_, ?_⟩
  · intro s old m _
    exact ⟨_, rfl, by simp [pbLoadBBShared, act_bind, act_modify, c.narrow_widen]⟩
  · intro s old m _
    exact ⟨_, rfl, by simp [pbLoadGPShared, act_bind, act_modify, c.narrow_widen]⟩
  · intro s old m h
    have e : ofU32 s.r = (s.r.toNat : Int) := by
      unfold ofU32; rw [Int.bmod_def]; omega
    have hf : asField 64 (ofU32 s.r) = .ok s.r.toNat := by
      unfold asField
      rw [if_pos (by rw [e]; constructor <;> [omega; (have := s.r.toNat_lt; norm_num; omega)]), e]
      simp
    refine ⟨⟨s.alpha, s.beta, UInt64.ofNat s.r.toNat⟩, ?_, ?_⟩
    · simp [pbDumpBNBShared, hf, c.narrow_widen]
    · have h2 : (UInt64.ofNat s.r.toNat).toNat = s.r.toNat := by
        rw [UInt64.toNat_ofNat']
        exact Nat.mod_eq_of_lt (by have := s.r.toNat_lt; omega)
      have h3 : InInt32 (s.r.toNat : Int) := by
        unfold InInt32 int32Min int32Max; omega
      have h4 : toU32 (s.r.toNat : Int) = s.r := by rw [← e, toU32_ofU32]
      simp only [pbLoadBNBShared, act_bind, act_modify, h2, asInt_of h3, act_lift_ok, h4,
        c.narrow_widen]
  · intro s old m _
    exact ⟨_, rfl, by simp [pbLoadNICHShared, act_bind, act_modify, c.narrow_widen]⟩

/-- **C79, finding.** `r` is a `uint32_t` declared `int` in the bindings: the C++ accepts
every `r` below `2^32`, but from `2^31` on the dictionary holds a negative number and
`protobuf_dump` raises `ValueError`. -/
theorem C79_bnb_large_r (s : BNB.Shared F) (m : Proto.BNBSharedMsg F) (h : 2 ^ 31 ≤ s.r.toNat) :
    (dumpBNBShared c s).r = (s.r.toNat : Int) - 2 ^ 32 ∧ (dumpBNBShared c s).r < 0 ∧
    pbDumpBNBShared c s m = .fail := by
  have hl := s.r.toNat_lt
  have e : ofU32 s.r = (s.r.toNat : Int) - 4294967296 := by
    unfold ofU32; rw [Int.bmod_def]; omega
  have hn : ofU32 s.r < 0 := by omega
  have hd : (dumpBNBShared c s).r = ofU32 s.r := by unfold dumpBNBShared; dsimp only
  refine ⟨by rw [hd, e]; norm_num, by rw [hd]; exact hn, ?_⟩
  have : asField 64 (ofU32 s.r) = .fail := by
    unfold asField; rw [if_neg (by omega)]
  simp [pbDumpBNBShared, this]

/-! ## Groups -/

/-- **C79, groups.** Loading a dumped group restores it, also when a Gamma-Poisson or
Beta-Negative-Binomial count is above `2^31`; a dictionary loads when its counts fit a C
`int`, and comes back with the floats rounded. -/
theorem C79_group :
    RoundTrips loadBBGroup dumpBBGroup (fun g => InInt32 g.heads ∧ InInt32 g.tails) ∧
    RoundTrips (loadGPGroup c) (dumpGPGroup c) (fun _ => True) ∧
    RoundTrips loadBNBGroup dumpBNBGroup (fun _ => True) ∧
    RoundTrips (loadNICHGroup c) (dumpNICHGroup c) (fun g => InInt32 g.count) ∧
    LoadsAs loadBBGroup dumpBBGroup id (fun r => InInt32 r.heads ∧ InInt32 r.tails) ∧
    LoadsAs (loadGPGroup c) (dumpGPGroup c)
      (fun r => ⟨r.count, r.sum, c.widen (c.narrow r.logProd)⟩)
      (fun r => InInt32 r.count ∧ InInt32 r.sum) ∧
    LoadsAs loadBNBGroup dumpBNBGroup id (fun r => InInt32 r.count ∧ InInt32 r.sum) ∧
    LoadsAs (loadNICHGroup c) (dumpNICHGroup c)
      (fun r => ⟨r.count, c.widen (c.narrow r.mean), c.widen (c.narrow r.countTimesVariance)⟩)
      (fun r => InInt32 r.count) := by
  refine ⟨?_, ?_, ?_, ?_, ?_, ?_, ?_, ?_⟩
  · rintro s old ⟨h1, h2⟩
    simp [loadBBGroup, dumpBBGroup, act_bind, act_modify, asInt_of h1, asInt_of h2, act_lift_ok]
  · intro s old _
    rw [dumpGPGroup, loadGPGroup_ok c _ _ (inInt32_ofU32 _) (inInt32_ofU32 _), toU32_ofU32,
      toU32_ofU32, c.narrow_widen]
  · intro s old _
    rw [dumpBNBGroup, loadBNBGroup_ok _ (inInt32_ofU32 _) (inInt32_ofU32 _), toU32_ofU32,
      toU32_ofU32]
  · intro s old h
    simp [loadNICHGroup, dumpNICHGroup, act_bind, act_modify, asInt_of h, act_lift_ok,
      c.narrow_widen]
  · intro r old
    refine ⟨fun h => ?_, fun h => ?_⟩
    · simp [loadBBGroup, dumpBBGroup, act_bind, act_modify, asInt_of h.1, asInt_of h.2, act_lift_ok]
    · by_cases h1 : InInt32 r.heads
      · have h2 : ¬ InInt32 r.tails := fun h2 => h ⟨h1, h2⟩
        simp [loadBBGroup, act_bind, act_modify, asInt_of h1, asInt_not h2, act_lift_ok,
          act_lift_fail]
      · simp [loadBBGroup, act_bind, asInt_not h1, act_lift_fail]
  · intro r old
    refine ⟨fun h => ?_, fun h => ?_⟩
    · refine ⟨⟨toU32 r.count, toU32 r.sum, c.narrow r.logProd⟩, ?_, ?_⟩
      · simp only [loadGPGroup, act_bind, act_modify, asInt_of h.1, asInt_of h.2, act_lift_ok]
      · simp only [dumpGPGroup, ofU32_toU32 h.1, ofU32_toU32 h.2]
    · by_cases h1 : InInt32 r.count
      · have h2 : ¬ InInt32 r.sum := fun h2 => h ⟨h1, h2⟩
        simp [loadGPGroup, act_bind, act_modify, asInt_of h1, asInt_not h2, act_lift_ok,
          act_lift_fail]
      · simp [loadGPGroup, act_bind, asInt_not h1, act_lift_fail]
  · intro r old
    refine ⟨fun h => ?_, fun h => ?_⟩
    · refine ⟨⟨toU32 r.count, toU32 r.sum⟩, ?_, ?_⟩
      · simp only [loadBNBGroup, act_bind, act_modify, asInt_of h.1, asInt_of h.2, act_lift_ok]
      · simp only [dumpBNBGroup, ofU32_toU32 h.1, ofU32_toU32 h.2, id]
    · by_cases h1 : InInt32 r.count
      · have h2 : ¬ InInt32 r.sum := fun h2 => h ⟨h1, h2⟩
        simp [loadBNBGroup, act_bind, act_modify, asInt_of h1, asInt_not h2, act_lift_ok,
          act_lift_fail]
      · simp [loadBNBGroup, act_bind, asInt_not h1, act_lift_fail]
  · intro r old
    refine ⟨fun h => ?_, fun h => ?_⟩
    · have h' : InInt32 r.count := h
      simp [loadNICHGroup, dumpNICHGroup, act_bind, act_modify, asInt_of h', act_lift_ok]
    · have h' : ¬ InInt32 r.count := h
      simp [loadNICHGroup, act_bind, asInt_not h', act_lift_fail]

/-- **C79, finding.** A Gamma-Poisson group whose sum has reached `2^31` dumps a negative
sum. -/
theorem C79_gp_large_sum (g : GP.Group F) (h : 2 ^ 31 ≤ g.sum.toNat) :
    (dumpGPGroup c g).sum = (g.sum.toNat : Int) - 2 ^ 32 ∧ (dumpGPGroup c g).sum < 0 := by
  have hl := g.sum.toNat_lt
  have e : ofU32 g.sum = (g.sum.toNat : Int) - 4294967296 := by
    unfold ofU32; rw [Int.bmod_def]; omega
  have hd : (dumpGPGroup c g).sum = ofU32 g.sum := by unfold dumpGPGroup; dsimp only
  exact ⟨by rw [hd, e]; norm_num, by rw [hd]; omega⟩

/-- **C79, finding.** A load that raises leaves the object half assigned: here the heads
are the new ones, the tails the old ones. -/
theorem C79_partial_assignment (raw : BBGroupRaw) (old : BB.Group) (h : InInt32 raw.heads)
    (ht : ¬ InInt32 raw.tails) : loadBBGroup raw old = .fail ⟨raw.heads, old.tails⟩ := by
  simp [loadBBGroup, act_bind, act_modify, asInt_of h, asInt_not ht, act_lift_ok, act_lift_fail]

/-! ## Normal-Inverse-Wishart -/

theorem flatten_rows {α : Type} (d : Nat) (l : List (List α)) (h : ∀ r ∈ l, r.length = d) :
    rows d l.length l.flatten = l := by
  induction l with
  | nil => rfl
  | cons r l ih =>
    have hr := h r (by simp)
    simp only [List.length_cons, List.flatten_cons, rows]
    rw [List.take_left' hr, List.drop_left' hr, ih fun x hx => h x (by simp [hx])]

theorem length_flatten {α : Type} (d : Nat) (l : List (List α)) (h : ∀ r ∈ l, r.length = d) :
    l.flatten.length = l.length * d := by
  induction l with
  | nil => simp
  | cons r l ih =>
    simp only [List.flatten_cons, List.length_append, List.length_cons, h r (by simp),
      ih fun x hx => h x (by simp [hx])]
    ring

/-- **C79 (Normal-Inverse-Wishart).** Dictionaries restore every object, of any shape;
messages restore every object whose `psi` is square with the length of `mu`.  When the
number of entries differs `protobuf_load` raises, with `mu` and `kappa` already replaced. -/
theorem C79_niw :
    RoundTrips (loadNIWShared c) (dumpNIWShared c) (fun _ => True) ∧
    MessageRoundTrips (pbLoadNIWShared c) (pbDumpNIWShared c)
      (fun s => s.psi.length = s.mu.length ∧ ∀ r ∈ s.psi, r.length = s.mu.length) ∧
    ∀ (msg : NIWMsg F) (old : NIWShared F), msg.psi.length ≠ msg.mu.length * msg.mu.length →
      pbLoadNIWShared c msg old = .fail { old with mu := msg.mu, kappa := msg.kappa } := by
  have hmm : ∀ l : List F, (l.map c.widen).map c.narrow = l := by
    intro l; simp [List.map_map, Function.comp_def, c.narrow_widen]
  have hmmm : ∀ l : List (List F), (l.map fun r => r.map c.widen).map (fun r => r.map c.narrow) =
      l := by
    intro l; simp [List.map_map, Function.comp_def, c.narrow_widen]
  refine ⟨?_, ?_, ?_⟩
  · intro s old _
    simp only [loadNIWShared, dumpNIWShared, act_bind, act_modify, hmm, hmmm, c.narrow_widen]
  · rintro s old m ⟨h1, h2⟩
    refine ⟨⟨s.mu, s.kappa, s.psi.flatten, s.nu⟩, ?_, ?_⟩
    · simp only [pbDumpNIWShared, hmm, c.narrow_widen, ← List.map_flatten]
    · have hl : s.psi.flatten.length = s.mu.length * s.mu.length := by
        rw [length_flatten _ _ h2, h1]
      have hr : (rows s.mu.length s.mu.length (s.psi.flatten.map c.widen)).map
          (fun r => r.map c.narrow) = s.psi := by
        rw [List.map_flatten]
        have := flatten_rows s.mu.length (s.psi.map fun r => r.map c.widen) (by
          intro r hr
          obtain ⟨x, hx, rfl⟩ := List.mem_map.mp hr
          simp [h2 x hx])
        rw [List.length_map, h1] at this
        rw [this, hmmm]
      simp only [pbLoadNIWShared, act_bind, act_modify, hmm, c.narrow_widen, if_pos hl,
        act_lift_ok, hr]
  · intro msg old h
    simp only [pbLoadNIWShared, act_bind, act_modify, hmm, c.narrow_widen, if_neg h, act_lift_fail]

/-! ## Clusterings -/

/-- The parameters `PitmanYor.load` accepts. -/
def PitmanYorValid [FloatOps F] (s : PitmanYor F) : Prop :=
  lt (ofInt 0) s.alpha = true ∧ le (ofInt 0) s.d = true ∧ lt s.d (lit 1 1) = true

/-- A load of either kind. -/
inductive PitmanYorLoad (D F : Type) where
  | dict (raw : Proto.PitmanYorMsg D)
  | message (msg : Proto.PitmanYorMsg F)

/-- The object after a load, caught if it raises. -/
def PitmanYorLoad.step [FloatOps F] (s : PitmanYor F) (l : PitmanYorLoad D F) : PitmanYor F :=
  match (match l with
    | .dict raw => loadPitmanYor c raw s
    | .message msg => pbLoadPitmanYor c msg s) with
  | .ok s _ => s
  | .fail s => s
  | .ub => s

theorem loadPitmanYor_eq [FloatOps F] (raw : Proto.PitmanYorMsg D) (s : PitmanYor F) :
    (PitmanYorValid (⟨c.narrow raw.alpha, c.narrow raw.d⟩ : PitmanYor F) →
      loadPitmanYor c raw s = .ok ⟨c.narrow raw.alpha, c.narrow raw.d⟩ ()) ∧
    (¬ PitmanYorValid (⟨c.narrow raw.alpha, c.narrow raw.d⟩ : PitmanYor F) →
      loadPitmanYor c raw s = .fail s) := by
  constructor
  · rintro ⟨h1, h2, h3⟩
    simp only at h1 h2 h3
    simp only [loadPitmanYor, act_bind, h1, h2, h3, and_self, if_true, act_lift_ok, act_modify]
  · intro h
    unfold PitmanYorValid at h
    simp only at h
    by_cases h1 : lt (ofInt 0) (c.narrow raw.alpha) = true
    · have h2 : ¬ (le (ofInt 0) (c.narrow raw.d) = true ∧ lt (c.narrow raw.d) (lit 1 1) = true) :=
        fun h2 => h ⟨h1, h2⟩
      simp only [loadPitmanYor, act_bind, h1, if_true, if_neg h2, act_lift_ok, act_lift_fail]
    · simp only [loadPitmanYor, act_bind, if_neg h1, act_lift_fail]

/-- **C79 (Pitman-Yor).** Both round trips hold for valid parameters; a refused load changes
nothing; and after any sequence of loads, refused or not, the parameters are valid if they
were to begin with. -/
theorem C79_pitman_yor [FloatOps F] :
    RoundTrips (loadPitmanYor c) (dumpPitmanYor c) PitmanYorValid ∧
    MessageRoundTrips (pbLoadPitmanYor c) (pbDumpPitmanYor c) PitmanYorValid ∧
    (∀ raw (old : PitmanYor F), ¬ PitmanYorValid (⟨c.narrow raw.alpha, c.narrow raw.d⟩ : PitmanYor F) →
      loadPitmanYor c raw old = .fail old) ∧
    ∀ (s : PitmanYor F) (ls : List (PitmanYorLoad D F)), PitmanYorValid s →
      PitmanYorValid (ls.foldl (PitmanYorLoad.step c) s) := by
  have hrt : ∀ s old : PitmanYor F, PitmanYorValid s →
      loadPitmanYor c ⟨c.widen s.alpha, c.widen s.d⟩ old = .ok s () := by
    intro s old h
    have := (loadPitmanYor_eq c ⟨c.widen s.alpha, c.widen s.d⟩ old).1
    simp only [c.narrow_widen] at this
    exact this h
  refine ⟨fun s old h => hrt s old h, fun s old m h => ⟨_, rfl, ?_⟩,
    fun raw old h => (loadPitmanYor_eq c raw old).2 h, fun s ls h => ?_⟩
  · simp only [dumpPitmanYor, c.narrow_widen, pbLoadPitmanYor]
    exact hrt s old h
  · have hstep : ∀ raw (s : PitmanYor F), PitmanYorValid s → PitmanYorValid
        (match loadPitmanYor c raw s with | .ok s _ => s | .fail s => s | .ub => s) := by
      intro raw s h
      by_cases hv : PitmanYorValid (⟨c.narrow raw.alpha, c.narrow raw.d⟩ : PitmanYor F)
      · rw [(loadPitmanYor_eq c raw s).1 hv]; exact hv
      · rw [(loadPitmanYor_eq c raw s).2 hv]; exact h
    induction ls generalizing s with
    | nil => exact h
    | cons l ls ih =>
      refine ih _ ?_
      cases l with
      | dict raw => exact hstep raw s h
      | message msg => exact hstep _ s h

/-- The object made without arguments is valid in exact arithmetic. -/
example : PitmanYorValid (initPitmanYor : PitmanYor XR) := by
  refine ⟨?_, ?_, ?_⟩ <;> simp [initPitmanYor, lit, ofInt, lt, le, XR.cmp]

/-- **C79 (low entropy).** The dictionary round trip and `protobuf_load` work for every size
that fits a C `int`, and negative sizes are refused without effect; but `protobuf_dump`
raises `AttributeError` on every object, because of a misspelt field name. -/
theorem C79_low_entropy :
    RoundTrips loadLowEntropy dumpLowEntropy
      (fun s => 0 ≤ s.datasetSize ∧ s.datasetSize ≤ 2147483647) ∧
    (∀ n old, n < 0 → loadLowEntropy n old = .fail old) ∧
    (∀ (msg : Proto.LowEntropyMsg) old, msg.datasetSize.toNat < 2 ^ 31 →
      pbLoadLowEntropy msg old = .ok ⟨msg.datasetSize.toNat⟩ ()) ∧
    ∀ s msg, pbDumpLowEntropy s msg = .fail := by
  have hok : ∀ (n : Int) (old : LowEntropy), 0 ≤ n → n ≤ 2147483647 →
      loadLowEntropy n old = .ok ⟨n⟩ () := by
    intro n old h1 h2
    have h3 : InInt32 n := by unfold InInt32 int32Min int32Max; omega
    simp only [loadLowEntropy, act_bind, asInt_of h3, act_lift_ok, if_pos h1, act_modify]
  refine ⟨fun s old h => hok _ _ h.1 h.2, ?_, ?_, ?_⟩
  · intro n old h
    by_cases h3 : InInt32 n
    · simp only [loadLowEntropy, act_bind, asInt_of h3, act_lift_ok,
        if_neg (show ¬ 0 ≤ n by omega), act_lift_fail]
    · simp only [loadLowEntropy, act_bind, asInt_not h3, act_lift_fail]
  · intro msg old h
    exact hok _ _ (by omega) (by omega)
  · intro s msg
    rfl

end Dist.Py
