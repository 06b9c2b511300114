import Verif.Spec.DbgIo
import Verif.Lemmas.DbgDPD
import Verif.Props.PyIoArrays

/-! # C96: input and output of the reference classes -/

namespace Dist

open FloatOps FloatNotation Spec
open Dist.Py (Conv asField asInt)

namespace DbgIo

theorem bind_eq {σ α β : Type} (x : Act σ α) (f : α → Act σ β) (s : σ) :
    (x >>= f) s = match x s with
      | .ok s a => f a s
      | .fail s => .fail s
      | .ub => .ub := (rfl)

theorem lift_ok {σ α : Type} (a : α) (s : σ) : Act.lift (.ok a) s = .ok s a := (rfl)
theorem lift_fail {σ α : Type} (s : σ) : (Act.lift .fail : Act σ α) s = .fail s := (rfl)
theorem modify_eq {σ : Type} (f : σ → σ) (s : σ) : Act.modify f s = .ok (f s) () := (rfl)
theorem pure_eq {σ α : Type} (a : α) (s : σ) : (pure a : Act σ α) s = .ok s a := (rfl)

theorem setU64_ok {M : Type} {z : Int} (h : FitsU64 z) (put : UInt64 → M → M) (m : M) :
    setU64 z put m = .ok (put (UInt64.ofNat z.toNat) m) () := by
  rw [setU64, bind_eq, asField, if_pos ⟨h.1, by have := h.2; norm_num; omega⟩]
  rfl

theorem setU64_fail {M : Type} {z : Int} (h : ¬ FitsU64 z) (put : UInt64 → M → M) (m : M) :
    setU64 z put m = .fail m := by
  rw [setU64, bind_eq, asField, if_neg]
  · rfl
  · rintro ⟨h1, h2⟩
    exact h ⟨h1, by norm_num at h2; omega⟩

theorem toNat_of {z : Int} (h : FitsU64 z) : ((UInt64.ofNat z.toNat).toNat : Int) = z :=
  DbgDPD.toNat_u64 h.1 (by have := h.2; norm_num; omega)

theorem require_eq {σ : Type} (b : Bool) (s : σ) :
    require b s = if b then Out.ok s () else .fail s := by
  cases b <;> rfl

theorem pbDumpDDSharedLoop_eq {D G : Type} (c : Conv D G) (l : List D) (m : Proto.DDSharedMsg G) :
    pbDumpDDSharedLoop c l m = .ok ⟨m.alphas ++ l.map c.narrow⟩ () := by
  induction l generalizing m with
  | nil => simp [pbDumpDDSharedLoop, pure_eq]
  | cons a l ih => simp [pbDumpDDSharedLoop, bind_eq, modify_eq, ih]

theorem pbDumpDDGroupLoop_ok (l : List Int) (h : ∀ z ∈ l, FitsU64 z) (m : Proto.DDGroupMsg) :
    pbDumpDDGroupLoop l m = .ok ⟨m.counts ++ l.map fun z => UInt64.ofNat z.toNat⟩ () := by
  induction l generalizing m with
  | nil => simp [pbDumpDDGroupLoop, pure_eq]
  | cons z l ih =>
    obtain ⟨h1, h2⟩ := List.forall_mem_cons.mp h
    simp [pbDumpDDGroupLoop, bind_eq, setU64_ok h1, ih h2]

theorem pbDumpDDGroupLoop_fail (l₁ : List Int) (z : Int) (l₂ : List Int) (h : ∀ z ∈ l₁, FitsU64 z)
    (hz : ¬ FitsU64 z) (m : Proto.DDGroupMsg) :
    pbDumpDDGroupLoop (l₁ ++ z :: l₂) m =
      .fail ⟨m.counts ++ l₁.map fun z => UInt64.ofNat z.toNat⟩ := by
  induction l₁ generalizing m with
  | nil => simp [pbDumpDDGroupLoop, bind_eq, setU64_fail hz]
  | cons a l ih =>
    obtain ⟨h1, h2⟩ := List.forall_mem_cons.mp h
    simp [pbDumpDDGroupLoop, bind_eq, setU64_ok h1, ih h2]

end DbgIo

open DbgIo

variable {D G : Type} (c : Conv D G)

/-! ## Dictionaries -/

/-- **C96, dictionaries.** Parameters and groups of the Beta-Bernoulli, Beta-Negative-Binomial,
Gamma-Poisson, Normal-Inverse-ChiSq and Dirichlet-Discrete reference classes are read back from
their dictionary as they were, whatever object reads it (Dirichlet-Discrete groups: counts of 64
bits, which is all the class can hold). -/
theorem C96_dictionaries :
    RoundTrips (loadBBShared (D := D)) dumpBBShared (fun _ => True) ∧
    RoundTrips loadBBGroup dumpBBGroup (fun _ => True) ∧
    RoundTrips (loadBNBShared (D := D)) dumpBNBShared (fun _ => True) ∧
    RoundTrips loadBNBGroup dumpBNBGroup (fun _ => True) ∧
    RoundTrips (loadGPShared (D := D)) dumpGPShared (fun _ => True) ∧
    RoundTrips (loadGPGroup (D := D)) dumpGPGroup (fun _ => True) ∧
    RoundTrips (loadNICHShared (D := D)) dumpNICHShared (fun _ => True) ∧
    RoundTrips (loadNICHGroup (D := D)) dumpNICHGroup (fun _ => True) ∧
    RoundTrips (loadDDShared (D := D)) dumpDDShared (fun _ => True) ∧
    RoundTrips loadDDGroup dumpDDGroup (fun g => ∀ z ∈ g, -2 ^ 63 ≤ z ∧ z < 2 ^ 63) := by
  refine ⟨fun s old _ => rfl, fun s old _ => rfl, fun s old _ => rfl, fun s old _ => rfl,
    fun s old _ => rfl, fun s old _ => rfl, fun s old _ => rfl, fun s old _ => rfl,
    fun s old _ => rfl, fun s old h => ?_⟩
  rw [loadDDGroup, bind_eq, intArray, dumpDDGroup, if_pos h]
  rfl

/-! ## Messages -/

/-- **C96, parameter messages.** Parameters can be written to any message, and are read back with
their floats rounded to single precision; `r` must be a number of 64 bits. -/
theorem C96_shared_messages (cleared : Proto.BNBSharedMsg G) :
    WritesAs (pbLoadBBShared c) (pbDumpBBShared c)
      (fun s => ⟨single c s.alpha, single c s.beta⟩) (fun _ => True) ∧
    WritesAs (pbLoadBNBShared c) (pbDumpBNBShared c cleared)
      (fun s => ⟨single c s.alpha, single c s.beta, s.r⟩) (fun s => FitsU64 s.r) ∧
    WritesAs (pbLoadGPShared c) (pbDumpGPShared c)
      (fun s => ⟨single c s.alpha, single c s.invBeta⟩) (fun _ => True) ∧
    WritesAs (pbLoadNICHShared c) (pbDumpNICHShared c)
      (fun s => ⟨single c s.mu, single c s.kappa, single c s.sigmasq, single c s.nu⟩)
      (fun _ => True) ∧
    WritesAs (pbLoadDDShared c) (pbDumpDDShared c) (fun s => s.map (single c)) (fun _ => True) := by
  refine ⟨fun s m old _ => ⟨_, rfl, rfl⟩, fun s m old h => ?_, fun s m old _ => ⟨_, rfl, rfl⟩,
    fun s m old _ => ⟨_, rfl, rfl⟩, fun s m old _ => ?_⟩
  · simp only [pbDumpBNBShared, bind_eq, modify_eq, setU64_ok h]
    refine ⟨_, rfl, ?_⟩
    simp only [pbLoadBNBShared, bind_eq, modify_eq, toNat_of h, single]
  · simp only [pbDumpDDShared, bind_eq, modify_eq, pbDumpDDSharedLoop_eq]
    refine ⟨_, rfl, ?_⟩
    simp only [pbLoadDDShared, modify_eq, List.nil_append, List.map_map]
    rfl

/-- **C96, group messages.** Groups whose integers fit 64 bits without sign can be written to any
message, and are read back with their floats rounded to single precision (Dirichlet-Discrete: the
counts must fit 63 bits to be read). -/
theorem C96_group_messages :
    WritesAs pbLoadBBGroup pbDumpBBGroup id (fun g => FitsU64 g.heads ∧ FitsU64 g.tails) ∧
    WritesAs pbLoadBNBGroup pbDumpBNBGroup id (fun g => FitsU64 g.count ∧ FitsU64 g.sum) ∧
    WritesAs (pbLoadGPGroup c) (pbDumpGPGroup c) (fun g => ⟨g.count, g.sum, single c g.logProd⟩)
      (fun g => FitsU64 g.count ∧ FitsU64 g.sum) ∧
    WritesAs (pbLoadNICHGroup c) (pbDumpNICHGroup c)
      (fun g => ⟨g.count, single c g.mean, single c g.countTimesVariance⟩)
      (fun g => FitsU64 g.count) ∧
    WritesAs pbLoadDDGroup pbDumpDDGroup id (fun g => ∀ z ∈ g, 0 ≤ z ∧ z < 2 ^ 63) := by
  refine ⟨fun s m old ⟨h, h'⟩ => ?_, fun s m old ⟨h, h'⟩ => ?_, fun s m old ⟨h, h'⟩ => ?_,
    fun s m old h => ?_, fun s m old h => ?_⟩
  · simp only [pbDumpBBGroup, bind_eq, setU64_ok h, setU64_ok h']
    refine ⟨_, rfl, ?_⟩
    simp only [pbLoadBBGroup, bind_eq, modify_eq, toNat_of h, toNat_of h', id]
  · simp only [pbDumpBNBGroup, bind_eq, setU64_ok h, setU64_ok h']
    refine ⟨_, rfl, ?_⟩
    simp only [pbLoadBNBGroup, bind_eq, modify_eq, toNat_of h, toNat_of h', id]
  · simp only [pbDumpGPGroup, bind_eq, modify_eq, setU64_ok h, setU64_ok h']
    refine ⟨_, rfl, ?_⟩
    simp only [pbLoadGPGroup, bind_eq, modify_eq, toNat_of h, toNat_of h', single]
  · simp only [pbDumpNICHGroup, bind_eq, modify_eq, setU64_ok h]
    refine ⟨_, rfl, ?_⟩
    simp only [pbLoadNICHGroup, bind_eq, modify_eq, toNat_of h, single]
  · have hf : ∀ z ∈ s, FitsU64 z := fun z hz => ⟨(h z hz).1, by have := (h z hz).2; omega⟩
    simp only [pbDumpDDGroup, bind_eq, modify_eq, pbDumpDDGroupLoop_ok s hf]
    refine ⟨_, rfl, ?_⟩
    have e : (s.map fun z => UInt64.ofNat z.toNat).map (fun n => (n.toNat : Int)) = s := by
      rw [List.map_map]
      conv_rhs => rw [← List.map_id s]
      exact List.map_congr_left fun z hz => toNat_of (hf z hz)
    simp only [pbLoadDDGroup, bind_eq, List.nil_append, e, intArray]
    rw [if_pos fun z hz => ⟨by have := (h z hz).1; omega, (h z hz).2⟩]
    rfl

/-- Groups meeting the hypotheses. -/
example : FitsU64 5 ∧ FitsU64 (2 ^ 64 - 1) ∧ ¬ FitsU64 (-1) ∧ ¬ FitsU64 (2 ^ 64) := by
  unfold FitsU64; norm_num

/-- **C96, refused groups.** Writing a group with an integer that does not fit, such as a negative
count left by removing more than was added, raises; what comes before it in the message has then
been written already, the rest is as before. -/
theorem C96_group_refused :
    (∀ (g : Dbg.BB.Group) m, ¬ FitsU64 g.heads → pbDumpBBGroup g m = .fail m) ∧
    (∀ (g : Dbg.BB.Group) m, FitsU64 g.heads → ¬ FitsU64 g.tails →
      ∃ n : UInt64, (n.toNat : Int) = g.heads ∧ pbDumpBBGroup g m = .fail ⟨n, m.tails⟩) ∧
    (∀ (g : Dbg.BNB.Group) m, ¬ FitsU64 g.count → pbDumpBNBGroup g m = .fail m) ∧
    (∀ (g : Dbg.BNB.Group) m, FitsU64 g.count → ¬ FitsU64 g.sum →
      ∃ n : UInt64, (n.toNat : Int) = g.count ∧ pbDumpBNBGroup g m = .fail ⟨n, m.sum⟩) ∧
    (∀ (g : Dbg.GP.Group D) m, ¬ FitsU64 g.count → pbDumpGPGroup c g m = .fail m) ∧
    (∀ (g : Dbg.GP.Group D) m, FitsU64 g.count → ¬ FitsU64 g.sum →
      ∃ n : UInt64, (n.toNat : Int) = g.count ∧
        pbDumpGPGroup c g m = .fail ⟨n, m.sum, m.logProd⟩) ∧
    (∀ (g : NICH.Group D) m, ¬ FitsU64 g.count → pbDumpNICHGroup c g m = .fail m) ∧
    (∀ (l₁ : List Int) z l₂ m, (∀ z ∈ l₁, FitsU64 z) → ¬ FitsU64 z →
      ∃ ns : List UInt64, ns.map (fun n => (n.toNat : Int)) = l₁ ∧
        pbDumpDDGroup (l₁ ++ z :: l₂) m = .fail ⟨ns⟩) := by
  refine ⟨fun g m h => ?_, fun g m h h' => ⟨_, toNat_of h, ?_⟩, fun g m h => ?_,
    fun g m h h' => ⟨_, toNat_of h, ?_⟩, fun g m h => ?_, fun g m h h' => ⟨_, toNat_of h, ?_⟩,
    fun g m h => ?_, fun l₁ z l₂ m h h' => ⟨l₁.map fun z => UInt64.ofNat z.toNat, ?_, ?_⟩⟩
  · simp only [pbDumpBBGroup, bind_eq, setU64_fail h]
  · simp only [pbDumpBBGroup, bind_eq, setU64_ok h, setU64_fail h']
  · simp only [pbDumpBNBGroup, bind_eq, setU64_fail h]
  · simp only [pbDumpBNBGroup, bind_eq, setU64_ok h, setU64_fail h']
  · simp only [pbDumpGPGroup, bind_eq, setU64_fail h]
  · simp only [pbDumpGPGroup, bind_eq, setU64_ok h, setU64_fail h']
  · simp only [pbDumpNICHGroup, bind_eq, setU64_fail h]
  · rw [List.map_map]
    conv_rhs => rw [← List.map_id l₁]
    exact List.map_congr_left fun z hz => toNat_of (h z hz)
  · simp only [pbDumpDDGroup, bind_eq, modify_eq, pbDumpDDGroupLoop_fail l₁ z l₂ h h', List.nil_append]

/-- A group in debt: the heads are written, the tails of the message stay. -/
example : ∃ n : UInt64, (n.toNat : Int) = 3 ∧
    pbDumpBBGroup ⟨3, -1⟩ ⟨7, 8⟩ = .fail ⟨n, 8⟩ :=
  (C96_group_refused (⟨id, id, 1, (· - ·), fun _ => rfl⟩ : Conv Int Int)).2.1 ⟨3, -1⟩ ⟨7, 8⟩
    (by unfold FitsU64; norm_num) (by unfold FitsU64; norm_num)

/-- **C96, finding.** A Dirichlet-Discrete message with a count of `2^63` or more, which the
message can hold, is refused by the reference group. -/
theorem C96_dd_message_large (ns : List UInt64) (n : UInt64) (hn : n ∈ ns) (h : 2 ^ 63 ≤ n.toNat)
    (old : List Int) : pbLoadDDGroup ⟨ns⟩ old = .fail old := by
  simp only [pbLoadDDGroup, bind_eq, intArray]
  rw [if_neg]
  · rfl
  · intro hall
    have := (hall n.toNat (List.mem_map.mpr ⟨n, hn, rfl⟩)).2
    omega

example : pbLoadDDGroup ⟨[1, 9223372036854775808]⟩ [4] = .fail [4] :=
  C96_dd_message_large _ 9223372036854775808 (by simp) (by decide) _

/-- **C96, exchange with the compiled classes.** Parameters written by the reference classes are
read by the compiled ones as their single-precision roundings, and parameters written by the
compiled classes are read by the reference ones exactly. -/
theorem C96_exchange :
    (∀ (s : BB.Shared D) m old, ∃ msg, pbDumpBBShared c s m = .ok msg () ∧
      Py.pbLoadBBShared c msg old = .ok ⟨c.narrow s.alpha, c.narrow s.beta⟩ ()) ∧
    (∀ (s : BB.Shared G) m old, ∃ msg, Py.pbDumpBBShared c s m = .ok msg ∧
      pbLoadBBShared c msg old = .ok ⟨c.widen s.alpha, c.widen s.beta⟩ ()) ∧
    (∀ (s : GP.Shared D) m old, ∃ msg, pbDumpGPShared c s m = .ok msg () ∧
      Py.pbLoadGPShared c msg old = .ok ⟨c.narrow s.alpha, c.narrow s.invBeta⟩ ()) ∧
    (∀ (s : GP.Shared G) m old, ∃ msg, Py.pbDumpGPShared c s m = .ok msg ∧
      pbLoadGPShared c msg old = .ok ⟨c.widen s.alpha, c.widen s.invBeta⟩ ()) ∧
    (∀ (s : NICH.Shared D) m old, ∃ msg, pbDumpNICHShared c s m = .ok msg () ∧
      Py.pbLoadNICHShared c msg old =
        .ok ⟨c.narrow s.mu, c.narrow s.kappa, c.narrow s.sigmasq, c.narrow s.nu⟩ ()) ∧
    (∀ (s : NICH.Shared G) m old, ∃ msg, Py.pbDumpNICHShared c s m = .ok msg ∧
      pbLoadNICHShared c msg old =
        .ok ⟨c.widen s.mu, c.widen s.kappa, c.widen s.sigmasq, c.widen s.nu⟩ ()) ∧
    (∀ (alphas rest : List G) m old, ∃ msg,
      Py.pbDumpDDShared c ⟨alphas.length, alphas ++ rest⟩ m = .ok msg ∧
      pbLoadDDShared c msg old = .ok (alphas.map c.widen) ()) := by
  refine ⟨fun s m old => ⟨_, rfl, ?_⟩, fun s m old => ⟨_, rfl, ?_⟩, fun s m old => ⟨_, rfl, ?_⟩,
    fun s m old => ⟨_, rfl, ?_⟩, fun s m old => ⟨_, rfl, ?_⟩, fun s m old => ⟨_, rfl, ?_⟩, ?_⟩
  · simp only [Py.pbLoadBBShared, bind_eq, modify_eq, c.narrow_widen]
  · simp only [pbLoadBBShared, bind_eq, modify_eq, c.narrow_widen]
  · simp only [Py.pbLoadGPShared, bind_eq, modify_eq, c.narrow_widen]
  · simp only [pbLoadGPShared, bind_eq, modify_eq, c.narrow_widen]
  · simp only [Py.pbLoadNICHShared, bind_eq, modify_eq, c.narrow_widen]
  · simp only [pbLoadNICHShared, bind_eq, modify_eq, c.narrow_widen]
  · intro alphas rest m old
    have e := Py.collect_eq (alphas ++ rest) 0 alphas.length (by simp)
    simp only [Nat.cast_zero] at e
    refine ⟨⟨(alphas.map c.widen).map c.narrow⟩, ?_, ?_⟩
    · simp only [Py.pbDumpDDShared, Py.dumpDDShared, Int.toNat_natCast, e]
      simp [Res.pure_eq, Res.ok_bind]
    · simp [pbLoadDDShared, modify_eq, List.map_map, Function.comp_def, c.narrow_widen]

/-- **C96, exchange of groups.** The compiled classes accept the dictionary of a reference group exactly
if its integers are of 32 bits, and their dictionary of it is read by the reference class as the same
group, with floats rounded. -/
theorem C96_group_exchange :
    (∀ (g : Dbg.BB.Group) old old',
      (InInt32 g.heads ∧ InInt32 g.tails → ∃ h, Py.loadBBGroup (dumpBBGroup g) old = .ok h () ∧
        loadBBGroup (Py.dumpBBGroup h) old' = .ok g ()) ∧
      (¬ (InInt32 g.heads ∧ InInt32 g.tails) → ∃ h, Py.loadBBGroup (dumpBBGroup g) old = .fail h)) ∧
    (∀ (g : Dbg.BNB.Group) old old',
      (InInt32 g.count ∧ InInt32 g.sum → ∃ h, Py.loadBNBGroup (dumpBNBGroup g) old = .ok h () ∧
        loadBNBGroup (Py.dumpBNBGroup h) old' = .ok g ()) ∧
      (¬ (InInt32 g.count ∧ InInt32 g.sum) → ∃ h, Py.loadBNBGroup (dumpBNBGroup g) old = .fail h)) ∧
    (∀ (g : Dbg.GP.Group D) old old',
      (InInt32 g.count ∧ InInt32 g.sum → ∃ h, Py.loadGPGroup c (dumpGPGroup g) old = .ok h () ∧
        loadGPGroup (Py.dumpGPGroup c h) old' = .ok ⟨g.count, g.sum, single c g.logProd⟩ ()) ∧
      (¬ (InInt32 g.count ∧ InInt32 g.sum) → ∃ h, Py.loadGPGroup c (dumpGPGroup g) old = .fail h)) ∧
    (∀ (g : NICH.Group D) old old',
      (InInt32 g.count → ∃ h, Py.loadNICHGroup c (dumpNICHGroup g) old = .ok h () ∧
        loadNICHGroup (Py.dumpNICHGroup c h) old' =
          .ok ⟨g.count, single c g.mean, single c g.countTimesVariance⟩ ()) ∧
      (¬ InInt32 g.count → ∃ h, Py.loadNICHGroup c (dumpNICHGroup g) old = .fail h)) := by
  obtain ⟨-, -, -, -, h1, h2, h3, h4⟩ := Py.C79_group c
  refine ⟨fun g old old' => ⟨fun h => ?_, fun h => (h1 _ old).2 h⟩,
    fun g old old' => ⟨fun h => ?_, fun h => (h3 _ old).2 h⟩,
    fun g old old' => ⟨fun h => ?_, fun h => (h2 _ old).2 h⟩,
    fun g old old' => ⟨fun h => ?_, fun h => (h4 _ old).2 h⟩⟩
  · obtain ⟨s, k1, k2⟩ := (h1 (dumpBBGroup g) old).1 h
    exact ⟨s, k1, by rw [k2]; rfl⟩
  · obtain ⟨s, k1, k2⟩ := (h3 (dumpBNBGroup g) old).1 h
    exact ⟨s, k1, by rw [k2]; rfl⟩
  · obtain ⟨s, k1, k2⟩ := (h2 (dumpGPGroup g) old).1 h
    exact ⟨s, k1, by rw [k2]; rfl⟩
  · obtain ⟨s, k1, k2⟩ := (h4 (dumpNICHGroup g) old).1 h
    exact ⟨s, k1, by rw [k2]; rfl⟩

example (old old') : ∃ h, Py.loadBBGroup (dumpBBGroup ⟨3, 4⟩) old = .ok h () ∧
    loadBBGroup (Py.dumpBBGroup h) old' = .ok ⟨3, 4⟩ () :=
  ((C96_group_exchange c).1 ⟨3, 4⟩ old old').1
    ⟨by simp [InInt32, int32Min, int32Max], by simp [InInt32, int32Min, int32Max]⟩

example (old) : ∃ h, Py.loadBBGroup (dumpBBGroup ⟨2147483648, 4⟩) old = .fail h :=
  ((C96_group_exchange c).1 ⟨2147483648, 4⟩ old ⟨0, 0⟩).2 fun h => by
    simp [InInt32, int32Min, int32Max] at h

/-- **C96, exchange of groups, Dirichlet-Discrete.** The dictionary of a reference group with at most
256 non-negative counts of a total of 32 bits is read by the compiled class, and comes back as the same
group. -/
theorem C96_dd_group_exchange (g old' : List Int) (old : Py.DDGroup) (ho : old.counts.length = 256)
    (h : g.length ≤ 256) (hz : ∀ z ∈ g, 0 ≤ z) (hs : g.sum ≤ 2147483647) :
    ∃ k raw, Py.loadDDGroup (dumpDDGroup g) old = .ok k () ∧ Py.dumpDDGroup k = .ok raw ∧
      k.countSum = g.sum ∧ loadDDGroup raw old' = .ok g () := by
  obtain ⟨k, h1, h2, -, -, h3⟩ := Py.C79_dd_group g old ho h hz hs
  refine ⟨k, g, h1, h3, h2, ?_⟩
  have hb : ∀ z ∈ g, -2 ^ 63 ≤ z ∧ z < 2 ^ 63 := fun z hm => by
    have := hz z hm
    have := List.single_le_sum hz z hm
    omega
  simp only [loadDDGroup, bind_eq, intArray, if_pos hb]
  rfl

example (old : Py.DDGroup) (ho : old.counts.length = 256) :
    ∃ k raw, Py.loadDDGroup (dumpDDGroup [2, 0, 5]) old = .ok k () ∧ Py.dumpDDGroup k = .ok raw ∧
      k.countSum = 7 ∧ loadDDGroup raw [1] = .ok [2, 0, 5] () :=
  C96_dd_group_exchange [2, 0, 5] [1] old ho (by simp) (by simp) (by simp)

/-! ## Normal-Inverse-Wishart -/

section NIW

variable [FloatOps D]

/-- **C96, what Normal-Inverse-Wishart parameters are accepted.** A dictionary is accepted exactly
when the mean is a vector, `kappa` is positive, the first two axes of `psi` are as long as the mean
and `nu` is at least that length; the object is then the dictionary. -/
theorem C96_niw_load (raw old s : NIWShared D) :
    loadNIWShared raw old = .ok s () ↔
      s = raw ∧ lt (lit 0 1) raw.kappa = true ∧
      ∃ d : Nat, ∃ more, raw.mu.shape = [d] ∧ raw.psi.shape = d :: d :: more ∧
        le (ofInt d) raw.nu = true := by
  obtain ⟨⟨ms, md⟩, k, ⟨ps, pd⟩, nu⟩ := raw
  simp only [loadNIWShared, bind_eq, modify_eq, require_eq]
  rcases ms with _ | ⟨d, _ | ⟨d', ms⟩⟩
  · simp
  · rcases hk : lt (lit 0 1) k with _ | _
    · simp
    · rcases ps with _ | ⟨p, _ | ⟨q, more⟩⟩
      · simp [Arr.axis, lift_ok, lift_fail]
      · by_cases h : d = p <;> simp [Arr.axis, lift_ok, lift_fail, h]
      · by_cases h : d = p
        · by_cases h' : p = q
          · subst h h'
            rcases hn : le (ofInt (d : Int)) nu with _ | _
            · simp [Arr.axis, lift_ok, hn]
            · simp [Arr.axis, lift_ok, hn]
              exact eq_comm
          · subst h
            simp [Arr.axis, lift_ok, h']
            try (intros; omega)
        · simp [Arr.axis, lift_ok, h]
          try (intros; omega)
  · simp

/-- **C96, what Normal-Inverse-Wishart messages are accepted.** Exactly those whose `psi` has the
square of the length of the mean and whose `nu` is at least that length; `kappa` is not looked at. -/
theorem C96_niw_message (msg : Proto.NIWSharedMsg G) (old s : NIWShared D) :
    pbLoadNIWShared c msg old = .ok s () ↔
      msg.psi.length = msg.mu.length * msg.mu.length ∧
      le (ofInt msg.mu.length) (c.widen msg.nu) = true ∧
      s = ⟨⟨[msg.mu.length], msg.mu.map c.widen⟩, c.widen msg.kappa,
        ⟨[msg.mu.length, msg.mu.length], msg.psi.map c.widen⟩, c.widen msg.nu⟩ := by
  simp only [pbLoadNIWShared, bind_eq, modify_eq, require_eq]
  by_cases h : msg.psi.length = msg.mu.length * msg.mu.length
  · rcases hn : le (ofInt (msg.mu.length : Int)) (c.widen msg.nu) with _ | _
    · simp [h, Arr.square, floatArray, lift_ok, hn]
    · simp [h, Arr.square, floatArray, lift_ok, hn, eq_comm]
  · simp [h]

/-- **C96, Normal-Inverse-Wishart round trips.** Accepted parameters are read back from their
dictionary as they were.  With a square `psi` they can be written to any message, and are read back
rounded, provided the rounded `nu` is not below the dimension. -/
theorem C96_niw_round_trip (cleared : Proto.NIWSharedMsg G) :
    RoundTrips (loadNIWShared (D := D)) dumpNIWShared
      (fun s => ∃ raw old, loadNIWShared raw old = .ok s ()) ∧
    WritesAs (pbLoadNIWShared c) (pbDumpNIWShared c cleared)
      (fun s => ⟨⟨s.mu.shape, s.mu.data.map (single c)⟩, single c s.kappa,
        ⟨s.psi.shape, s.psi.data.map (single c)⟩, single c s.nu⟩)
      (fun s => ∃ d : Nat, s.mu.shape = [d] ∧ s.psi.shape = [d, d] ∧ s.mu.Ok ∧ s.psi.Ok ∧
        le (ofInt d) (single c s.nu) = true) := by
  constructor
  · rintro s old ⟨raw, old', h⟩
    have h' := (C96_niw_load raw old' s).mp h
    have e := h'.1
    subst e
    exact (C96_niw_load _ _ _).mpr ⟨rfl, h'.2⟩
  · rintro ⟨⟨ms, md⟩, k, ⟨ps, pd⟩, nu⟩ m old ⟨d, rfl, rfl, hm, hp, hn⟩
    simp only [Arr.Ok, List.prod_cons, List.prod_nil, mul_one] at hm hp
    refine ⟨⟨md.map c.narrow, c.narrow k, pd.map c.narrow, c.narrow nu⟩, ?_, ?_⟩
    · simp [pbDumpNIWShared, bind_eq, modify_eq, Arr.items, Arr.items2, lift_ok]
    · refine (C96_niw_message c _ _ _).mpr ⟨by simp [hm, hp], by simpa [hm, single] using hn, ?_⟩
      simp [hm, single, Function.comp_def]

/-- **C96, finding.** A message with a `kappa` that is not positive is read, and the dictionary the
object then gives is refused by the same class. -/
theorem C96_niw_message_kappa (msg : Proto.NIWSharedMsg G) (old s : NIWShared D)
    (h : pbLoadNIWShared c msg old = .ok s ()) (hk : lt (lit 0 1) (c.widen msg.kappa) = false)
    (old' : NIWShared D) : ∀ t, loadNIWShared (dumpNIWShared s) old' ≠ .ok t () := by
  intro t ht
  have h1 := ((C96_niw_load _ _ _).mp ht).2.1
  rw [((C96_niw_message c _ _ _).mp h).2.2] at h1
  simp [dumpNIWShared, hk] at h1

omit [FloatOps D] in
/-- **C96, finding.** A dictionary whose `psi` has a third axis is accepted; writing the parameters to
a message then raises (dimension at least one), and the message has lost what it held. -/
theorem C96_niw_third_axis (cleared : Proto.NIWSharedMsg G) (s : NIWShared D) (d k : Nat)
    (more : List Nat) (m : Proto.NIWSharedMsg G) (hm : s.mu.shape = [d + 1])
    (hp : s.psi.shape = (d + 1) :: (d + 1) :: k :: more) :
    pbDumpNIWShared c cleared s m =
      .fail { cleared with mu := s.mu.data.map c.narrow, kappa := c.narrow s.kappa, psi := [] } := by
  simp [pbDumpNIWShared, bind_eq, modify_eq, Arr.items, Arr.items2, hm, hp, lift_ok, lift_fail]

omit [FloatOps D] in
/-- **C96, Normal-Inverse-Wishart groups.** A dictionary is accepted exactly when its count is not
negative and the second sum is a square matrix as wide as the first axis of the first sum. -/
theorem C96_niw_group_load (raw old g : NIWGroup D) :
    loadNIWGroup raw old = .ok g () ↔
      g = raw ∧ 0 ≤ raw.count ∧
      ∃ d more, raw.sumX.shape = d :: more ∧ raw.sumXXT.shape = [d, d] := by
  obtain ⟨n, ⟨xs, xd⟩, ⟨ss, sd⟩⟩ := raw
  simp only [loadNIWGroup, bind_eq, modify_eq, require_eq]
  by_cases h : 0 ≤ n
  · rcases xs with _ | ⟨d, more⟩
    · simp [h, Arr.axis, lift_fail]
    · by_cases h' : ss = [d, d]
      · simp [h, h', Arr.axis, lift_ok, eq_comm]
      · simp [h, h', Arr.axis, lift_ok]
  · simp [h]

omit [FloatOps D] in
/-- **C96, Normal-Inverse-Wishart group messages.** A group with vector and square sums and a count
of 32 bits, negative ones included, can be written to any message and is read back rounded. -/
theorem C96_niw_group_message (cleared : Proto.NIWGroupMsg G) :
    WritesAs (pbLoadNIWGroup c) (pbDumpNIWGroup c cleared)
      (fun g => ⟨g.count, ⟨g.sumX.shape, g.sumX.data.map (single c)⟩,
        ⟨g.sumXXT.shape, g.sumXXT.data.map (single c)⟩⟩)
      (fun g => InInt32 g.count ∧ ∃ d, g.sumX.shape = [d] ∧ g.sumXXT.shape = [d, d] ∧
        g.sumX.Ok ∧ g.sumXXT.Ok) := by
  rintro ⟨n, ⟨xs, xd⟩, ⟨ss, sd⟩⟩ m old ⟨hn, d, rfl, rfl, hx, hs⟩
  simp only [Arr.Ok, List.prod_cons, List.prod_nil, mul_one] at hx hs
  refine ⟨⟨n, xd.map c.narrow, sd.map c.narrow⟩, ?_, ?_⟩
  · simp [pbDumpNIWGroup, bind_eq, modify_eq, Arr.items, Arr.items2, lift_ok, Py.asInt, hn]
  · simp [pbLoadNIWGroup, bind_eq, modify_eq, floatArray, Arr.square, lift_ok, hx, hs, single,
      Function.comp_def]

omit [FloatOps D] in
/-- **C96, finding.** A group from which more was removed than was added goes through messages, but
its dictionary is refused by its own class, after the count has been taken over. -/
theorem C96_niw_group_debt (g old : NIWGroup D) (h : g.count < 0) :
    loadNIWGroup (dumpNIWGroup g) old = .fail { old with count := g.count } := by
  have h' : ¬ 0 ≤ g.count := by omega
  simp [loadNIWGroup, dumpNIWGroup, bind_eq, modify_eq, require_eq, h']

/-- A message with `kappa = -1` that is read. -/
example (old : NIWShared XR) :
    let c : Conv XR XR := ⟨id, id, .fin 1, (· - ·), fun _ => rfl⟩
    pbLoadNIWShared c ⟨[.fin 0], .fin (-1), [.fin 2], .fin 1⟩ old =
      .ok ⟨⟨[1], [.fin 0]⟩, .fin (-1), ⟨[1, 1], [.fin 2]⟩, .fin 1⟩ () :=
  (C96_niw_message _ _ _ _).mpr ⟨rfl, by simp, rfl⟩

/-- Parameters in one dimension whose `psi` has a third axis, and which are accepted. -/
example (old : NIWShared XR) :
    let s : NIWShared XR := ⟨⟨[1], [.fin 0]⟩, .fin 1, ⟨[1, 1, 2], [.fin 2, .fin 3]⟩, .fin 1⟩
    loadNIWShared s old = .ok s () :=
  (C96_niw_load _ _ _).mpr ⟨rfl, by simp, 1, [2], rfl, rfl, by simp⟩

/-- A group in debt goes through a message. -/
example : InInt32 (-2) ∧ (⟨[1], [5]⟩ : Arr Int).Ok ∧ (⟨[1, 1], [25]⟩ : Arr Int).Ok := by
  refine ⟨by unfold InInt32 int32Min int32Max; omega, rfl, rfl⟩

end NIW

end Dist
