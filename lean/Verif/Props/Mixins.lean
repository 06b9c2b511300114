import Verif.Props.PyIo
import Verif.Props.PyIoArrays
import Verif.Props.NICH
import Verif.Spec.Mixins

/-! # C91: class methods of the Python wrappers -/

namespace Dist.Py

open FloatOps FloatNotation Spec

variable {D F : Type} (c : Conv D F)

section

variable {S R M V : Type}

theorem toProtobuf_ok {new s : S} {load : R → Act S Unit} {pbDump : S → M → Res M} {raw : R} {before msg : M}
    (h1 : load raw new = .ok s ()) (h2 : pbDump s before = .ok msg) :
    toProtobuf new load pbDump raw before = .ok msg := by
  simp only [toProtobuf, onNew, h1, Out.res, Res.ok_bind, h2]

theorem toProtobuf_ub {new : S} {load : R → Act S Unit} {pbDump : S → M → Res M} {raw : R} {before : M}
    (h1 : load raw new = .ub) : toProtobuf new load pbDump raw before = .ub := by
  simp only [toProtobuf, onNew, h1, Out.res]
  rfl

theorem fromProtobuf_ok {new s : S} {pbLoad : M → Act S Unit} {dump : S → Res R} {raw : R} {msg : M}
    (h1 : pbLoad msg new = .ok s ()) (h2 : dump s = .ok raw) :
    fromProtobuf new pbLoad dump msg = .ok raw := by
  simp only [fromProtobuf, onNew, h1, Out.res, Res.ok_bind, h2]

theorem addValues_nil (add : V → Act S Unit) (g : S) : addValues add [] g = .ok g () := rfl

theorem addValues_cons {add : V → Act S Unit} {v : V} {g g' : S} (h : add v g = .ok g' ()) (vs : List V) :
    addValues add (v :: vs) g = addValues add vs g' := by
  simp only [addValues, act_bind, h]

theorem addBy_ok {add : S → V → Res S} {v : V} {g g' : S} (h : add g v = .ok g') :
    addBy add v g = .ok g' () := by
  simp only [addBy, act_bind, act_get, h, act_lift_ok, act_modify]

end

/-- From the round trips of the methods to those of the class methods. -/
theorem passesThrough {S R M : Type} {load : R → Act S Unit} {dump : S → R} {pbLoad : M → Act S Unit}
    {pbDump : S → M → Res M} {norm : R → R} {accepts accepts' : R → Prop} {valid : S → Prop}
    (h1 : LoadsAs load dump norm accepts) (h2 : MessageRoundTrips pbLoad pbDump valid)
    (hv : ∀ raw old s, accepts raw → load raw old = .ok s () → (accepts' raw → valid s) ∧
      (¬ accepts' raw → ∀ before, pbDump s before = .fail))
    (hi : ∀ raw, accepts' raw → accepts raw) :
    PassesThrough load (fun s => .ok (dump s)) pbLoad pbDump norm accepts' fun _ => True := by
  intro a b _ _ raw before
  refine ⟨fun h => ?_, fun h => ?_⟩
  · obtain ⟨s, e1, e2⟩ := (h1 raw a).1 (hi raw h)
    obtain ⟨msg, e3, e4⟩ := h2 s b before ((hv raw a s (hi raw h) e1).1 h)
    refine ⟨msg, ?_, ?_⟩
    · simp only [toProtobuf, onNew, e1, Out.res, Res.ok_bind, e3]
    · simp only [fromProtobuf, onNew, e4, Out.res, Res.ok_bind, e2]
  · by_cases h' : accepts raw
    · obtain ⟨s, e1, -⟩ := (h1 raw a).1 h'
      simp only [toProtobuf, onNew, e1, Out.res, Res.ok_bind, (hv raw a s h' e1).2 h before]
    · obtain ⟨s, e1⟩ := (h1 raw a).2 h'
      simp only [toProtobuf, onNew, e1, Out.res]
      rfl

/-- **C91 (hyperparameters through messages).** For Beta-Bernoulli, Gamma-Poisson, Beta-Negative-Binomial
and Normal-Inverse-ChiSq, `Shared.from_protobuf` reads from a message what `Shared.to_protobuf` wrote,
rounded to single precision.  Beta-Negative-Binomial accepts exactly the dictionaries with `0 ≤ r < 2^31`. -/
theorem C91_shared :
    PassesThrough (loadBBShared c) (fun s => .ok (dumpBBShared c s)) (pbLoadBBShared c) (pbDumpBBShared c)
      (fun r => ⟨c.widen (c.narrow r.alpha), c.widen (c.narrow r.beta)⟩) (fun _ => True) (fun _ => True) ∧
    PassesThrough (loadGPShared c) (fun s => .ok (dumpGPShared c s)) (pbLoadGPShared c) (pbDumpGPShared c)
      (fun r => ⟨c.widen (c.narrow r.alpha), c.widen (c.narrow r.invBeta)⟩) (fun _ => True) (fun _ => True) ∧
    PassesThrough (loadBNBShared c) (fun s => .ok (dumpBNBShared c s)) (pbLoadBNBShared c)
      (pbDumpBNBShared c) (fun r => ⟨c.widen (c.narrow r.alpha), c.widen (c.narrow r.beta), r.r⟩)
      (fun r => 0 ≤ r.r ∧ r.r ≤ 2147483647) (fun _ => True) ∧
    PassesThrough (loadNICHShared c) (fun s => .ok (dumpNICHShared c s)) (pbLoadNICHShared c)
      (pbDumpNICHShared c) (fun r => ⟨c.widen (c.narrow r.mu), c.widen (c.narrow r.kappa),
        c.widen (c.narrow r.sigmasq), c.widen (c.narrow r.nu)⟩) (fun _ => True) (fun _ => True) := by
  obtain ⟨-, -, -, -, l1, l2, l3, l4⟩ := C79_shared c
  obtain ⟨m1, m2, m3, m4⟩ := C79_shared_message c
  refine ⟨passesThrough l1 m1 (fun _ _ _ _ _ => ⟨fun _ => trivial, fun h => absurd trivial h⟩) (fun _ h => h),
    passesThrough l2 m2 (fun _ _ _ _ _ => ⟨fun _ => trivial, fun h => absurd trivial h⟩) (fun _ h => h),
    passesThrough l3 m3 (fun raw old s h e => ?_) (fun _ h => ⟨by omega, h.2⟩),
    passesThrough l4 m4 (fun _ _ _ _ _ => ⟨fun _ => trivial, fun h => absurd trivial h⟩) (fun _ h => h)⟩
  have h' : InInt32 raw.r := by unfold InInt32 int32Min int32Max; omega
  have e' := loadBNBShared_ok c raw.alpha raw.beta old h'
  rw [show (⟨raw.alpha, raw.beta, raw.r⟩ : BNBSharedRaw D) = raw from rfl, e] at e'
  injection e' with e' _
  subst e'
  have hr : ((toU32 raw.r).toNat : Int) = raw.r % 4294967296 := by
    unfold toU32 UInt32.ofInt
    rw [UInt32.toNat_ofNat']
    norm_num
    omega
  refine ⟨fun h2 => ?_, fun h2 before => (C79_bnb_large_r c _ before ?_).2.2⟩
  · simp only; omega
  · simp only; omega

/-- **C91 (Dirichlet-Discrete through messages).** Up to 256 alphas pass; `to_protobuf` of more is undefined
behaviour. -/
theorem C91_dd_shared (a b : DDShared F) (ha : a.alphas.length = 256) (hb : b.alphas.length = 256)
    (alphas : List D) (before : Proto.DDSharedMsg F) :
    (alphas.length ≤ 256 → ∃ msg, toProtobuf a (loadDDShared c) (pbDumpDDShared c) alphas before = .ok msg ∧
      fromProtobuf b (pbLoadDDShared c) (dumpDDShared c) msg =
        .ok (alphas.map fun x => c.widen (c.narrow x))) ∧
    (256 < alphas.length → alphas.length < 2 ^ 31 →
      toProtobuf a (loadDDShared c) (pbDumpDDShared c) alphas before = .ub) := by
  refine ⟨fun h => ?_, fun h h' => ?_⟩
  · have hmm : ∀ l : List F, (l.map c.widen).map c.narrow = l := by
      intro l; simp [List.map_map, Function.comp_def, c.narrow_widen]
    have e := loadDDShared_eq c alphas a (by omega) ha
    have hdump : ∀ o : List F, dumpDDShared c ⟨(alphas.length : Int), alphas.map c.narrow ++ o⟩ =
        .ok (alphas.map fun x => c.widen (c.narrow x)) := by
      intro o
      have := collect_eq (alphas.map c.narrow ++ o) 0 alphas.length (by simp)
      simp only [Nat.cast_zero, List.drop_zero] at this
      simp only [dumpDDShared, Int.toNat_natCast, this, Res.ok_bind, Res.pure_eq]
      rw [List.take_left' (by simp), List.map_map]
      rfl
    have e2 := loadDDShared_eq c ((alphas.map c.narrow).map c.widen) b (by rw [List.length_map, List.length_map]; omega) hb
    rw [hmm, List.length_map, List.length_map] at e2
    have e3 : pbLoadDDShared c ⟨alphas.map c.narrow⟩ b = .ok ⟨(alphas.length : Int),
        alphas.map c.narrow ++ b.alphas.drop alphas.length⟩ () := by
      rw [pbLoadDDShared]; exact e2
    have e4 : pbDumpDDShared c ⟨(alphas.length : Int), alphas.map c.narrow ++ a.alphas.drop alphas.length⟩
        before = .ok ⟨alphas.map c.narrow⟩ := by
      simp only [pbDumpDDShared, hdump, Res.ok_bind, Res.pure_eq, List.map_map, Function.comp_def,
        c.narrow_widen]
    exact ⟨⟨alphas.map c.narrow⟩, toProtobuf_ok e e4, fromProtobuf_ok e3 (hdump _)⟩
  · exact toProtobuf_ub ((C79_dd_overrun c a ha).1 alphas h h')

/-- **C91 (clusterings through messages).** Pitman-Yor passes exactly the dictionaries whose rounded
parameters are valid; `LowEntropy.to_protobuf` raises on every dictionary. -/
theorem C91_clusterings [FloatOps F] :
    PassesThrough (loadPitmanYor c) (fun s => .ok (dumpPitmanYor c s)) (pbLoadPitmanYor c)
      (pbDumpPitmanYor c) (fun r => ⟨c.widen (c.narrow r.alpha), c.widen (c.narrow r.d)⟩)
      (fun r => PitmanYorValid (⟨c.narrow r.alpha, c.narrow r.d⟩ : PitmanYor F)) (fun _ => True) ∧
    ∀ new n before, toProtobuf new loadLowEntropy pbDumpLowEntropy n before = .fail := by
  refine ⟨passesThrough (accepts := fun r => PitmanYorValid (⟨c.narrow r.alpha, c.narrow r.d⟩ : PitmanYor F))
    ?_ (C79_pitman_yor c).2.1 (fun raw old s h e => ?_) (fun _ h => h), fun new n before => ?_⟩
  · intro raw old
    exact ⟨fun h => ⟨_, (loadPitmanYor_eq c raw old).1 h, rfl⟩, fun h => ⟨_, (loadPitmanYor_eq c raw old).2 h⟩⟩
  · rw [(loadPitmanYor_eq c raw old).1 h] at e
    injection e with e _
    subst e
    exact ⟨fun h => h, fun h' => absurd h h'⟩
  · unfold toProtobuf onNew
    by_cases h : InInt32 n
    · by_cases h0 : 0 ≤ n
      · simp only [loadLowEntropy, act_bind, asInt_of h, act_lift_ok, if_pos h0, act_modify, Out.res,
          Res.ok_bind]
        rfl
      · simp only [loadLowEntropy, act_bind, asInt_of h, act_lift_ok, if_neg h0, act_lift_fail, Out.res]
        rfl
    · simp only [loadLowEntropy, act_bind, asInt_not h, act_lift_fail, Out.res]
      rfl

/-- **C91 (groups from dictionaries).** `Group.from_dict` followed by `dump` returns the dictionary, with
reals rounded to single precision, and raises exactly when a number does not fit a C `int`. -/
theorem C91_from_dict (b : BB.Group) (g : GP.Group F) (n : BNB.Group) (x : NICH.Group F) :
    (∀ raw : BBGroupRaw, (InInt32 raw.heads ∧ InInt32 raw.tails →
        ∃ s, fromDict b loadBBGroup raw = .ok s ∧ dumpBBGroup s = raw) ∧
      (¬ (InInt32 raw.heads ∧ InInt32 raw.tails) → fromDict b loadBBGroup raw = .fail)) ∧
    (∀ raw : GPGroupRaw D, (InInt32 raw.count ∧ InInt32 raw.sum →
        ∃ s, fromDict g (loadGPGroup c) raw = .ok s ∧
          dumpGPGroup c s = ⟨raw.count, raw.sum, c.widen (c.narrow raw.logProd)⟩) ∧
      (¬ (InInt32 raw.count ∧ InInt32 raw.sum) → fromDict g (loadGPGroup c) raw = .fail)) ∧
    (∀ raw : BNBGroupRaw, (InInt32 raw.count ∧ InInt32 raw.sum →
        ∃ s, fromDict n loadBNBGroup raw = .ok s ∧ dumpBNBGroup s = raw) ∧
      (¬ (InInt32 raw.count ∧ InInt32 raw.sum) → fromDict n loadBNBGroup raw = .fail)) ∧
    (∀ raw : NICHGroupRaw D, (InInt32 raw.count →
        ∃ s, fromDict x (loadNICHGroup c) raw = .ok s ∧ dumpNICHGroup c s =
          ⟨raw.count, c.widen (c.narrow raw.mean), c.widen (c.narrow raw.countTimesVariance)⟩) ∧
      (¬ InInt32 raw.count → fromDict x (loadNICHGroup c) raw = .fail)) := by
  have key : ∀ {S R : Type} {load : R → Act S Unit} {dump : S → R} {norm : R → R} {accepts : R → Prop},
      LoadsAs load dump norm accepts → ∀ (new : S) raw,
      (accepts raw → ∃ s, fromDict new load raw = .ok s ∧ dump s = norm raw) ∧
      (¬ accepts raw → fromDict new load raw = .fail) := by
    intro S R load dump norm accepts h new raw
    refine ⟨fun ha => ?_, fun ha => ?_⟩
    · obtain ⟨s, e1, e2⟩ := (h raw new).1 ha
      exact ⟨s, by simp only [fromDict, onNew, e1, Out.res], e2⟩
    · obtain ⟨s, e1⟩ := (h raw new).2 ha
      simp only [fromDict, onNew, e1, Out.res]
  obtain ⟨-, -, -, -, l1, l2, l3, l4⟩ := C79_group c
  exact ⟨key l1 b, key l2 g, key l3 n, key l4 x⟩

/-! ## Groups from values -/

theorem fromValues_eq {S V : Type} (new : S) (init : Act S Unit) (add : V → Act S Unit) (values : List V)
    {g : S} (h : init new = .ok g ()) :
    fromValues new init add values = (addValues add values g).res fun s _ => s := by
  simp only [fromValues, onNew, act_bind, h]

/-- **C91 (groups from values, Beta-Bernoulli).** `Group.from_values` counts the values. -/
theorem C91_bb_values (new : BB.Group) (vs : List Bool) (h : vs.length ≤ 2147483647) :
    fromValues new (initTo BB.Group.init) (addBy BB.Group.addValue) vs =
      .ok ⟨vs.count true, vs.count false⟩ := by
  rw [fromValues_eq _ _ _ _ (g := BB.Group.init) rfl]
  have gen : ∀ (vs : List Bool) (a b : Nat), a + b + vs.length ≤ 2147483647 →
      addValues (addBy BB.Group.addValue) vs ⟨a, b⟩ =
        .ok ⟨((a + vs.count true : Nat) : Int), ((b + vs.count false : Nat) : Int)⟩ () := by
    intro vs
    induction vs with
    | nil => intro a b _; rfl
    | cons v vs ih =>
      intro a b hl
      simp only [List.length_cons] at hl
      cases v
      · have hi : InInt32 ((b : Int) + 1) := by unfold InInt32 int32Min int32Max; omega
        have e : BB.Group.addValue ⟨a, b⟩ false = .ok ⟨(a : Int), ((b + 1 : Nat) : Int)⟩ := by
          simp only [BB.Group.addValue, Bool.false_eq_true, if_false, i32_of hi, Res.ok_bind, Res.pure_eq]
          push_cast
          rfl
        rw [addValues_cons (addBy_ok e), ih a (b + 1) (by omega), List.count_cons_self,
          List.count_cons_of_ne (by decide), Nat.add_right_comm, Nat.add_assoc]
      · have hi : InInt32 ((a : Int) + 1) := by unfold InInt32 int32Min int32Max; omega
        have e : BB.Group.addValue ⟨a, b⟩ true = .ok ⟨((a + 1 : Nat) : Int), (b : Int)⟩ := by
          simp only [BB.Group.addValue, if_true, i32_of hi, Res.ok_bind, Res.pure_eq]
          push_cast
          rfl
        rw [addValues_cons (addBy_ok e), ih (a + 1) b (by omega), List.count_cons_self,
          List.count_cons_of_ne (by decide), Nat.add_right_comm, Nat.add_assoc]
  have := gen vs 0 0 (by omega)
  simp only [Nat.cast_zero, Nat.zero_add] at this
  rw [show BB.Group.init = ⟨0, 0⟩ from rfl, this, Out.res]

theorem toU32_add (a b : Int) : toU32 (a + b) = toU32 a + toU32 b := by
  apply UInt32.toNat_inj.mp
  rw [UInt32.toNat_add]
  unfold toU32 UInt32.ofInt
  simp only [UInt32.toNat_ofNat']
  norm_num
  omega

/-- **C91 (groups from values, counts).** Gamma-Poisson and Beta-Negative-Binomial take every list of C
`int`s, negative ones included: the dump holds their number and their sum as long as these fit a C `int`,
so that a negative value is as good as any other. -/
theorem C91_count_values [FloatOps F] (g : GP.Group F) (n : BNB.Group) (vs : List Int)
    (hv : ∀ v ∈ vs, InInt32 v) (hl : vs.length ≤ 2147483647) (hs : InInt32 vs.sum) :
    (∃ s, fromValues g (initTo GP.Group.init) (addCount GP.Group.addValue) vs = .ok s ∧
      (dumpGPGroup c s).count = vs.length ∧ (dumpGPGroup c s).sum = vs.sum) ∧
    ∃ s, fromValues n (initTo BNB.Group.init) (addCount BNB.Group.addValue) vs = .ok s ∧
      dumpBNBGroup s = ⟨vs.length, vs.sum⟩ := by
  have hl' : InInt32 (vs.length : Int) := by unfold InInt32 int32Min int32Max; omega
  constructor
  · rw [fromValues_eq _ _ _ _ (g := GP.Group.init) rfl]
    have gen : ∀ (vs : List Int), (∀ v ∈ vs, InInt32 v) → ∀ (a b : Int) (l : F),
        ∃ l', addValues (addCount GP.Group.addValue) vs ⟨toU32 a, toU32 b, l⟩ =
          .ok ⟨toU32 (a + vs.length), toU32 (b + vs.sum), l'⟩ () := by
      intro vs
      induction vs with
      | nil => intro _ a b l; exact ⟨l, by simp [addValues]; rfl⟩
      | cons v vs ih =>
        intro hv a b l
        obtain ⟨l', e⟩ := ih (fun x hx => hv x (by simp [hx])) (a + 1) (b + v) (l + GP.logFact (toU32 v))
        refine ⟨l', ?_⟩
        rw [toU32_add a 1, toU32_add b v] at e
        simp only [addValues, addCount, intArg, act_bind, asInt_of (hv v (by simp)), act_lift_ok, act_modify,
          GP.Group.addValue]
        refine Eq.trans e ?_
        rw [List.length_cons, List.sum_cons]
        push_cast
        rw [add_assoc a, add_comm 1, add_assoc b]
    obtain ⟨l', e⟩ := gen vs hv 0 0 (lit 0 1)
    refine ⟨⟨toU32 vs.length, toU32 vs.sum, l'⟩, ?_, ?_, ?_⟩
    · rw [zero_add, zero_add] at e
      exact congrArg (Out.res fun s _ => s) e
    · simp only [dumpGPGroup, ofU32_toU32 hl']
    · simp only [dumpGPGroup, ofU32_toU32 hs]
  · rw [fromValues_eq _ _ _ _ (g := BNB.Group.init) rfl]
    have gen : ∀ (vs : List Int), (∀ v ∈ vs, InInt32 v) → ∀ (a b : Int),
        addValues (addCount BNB.Group.addValue) vs ⟨toU32 a, toU32 b⟩ =
          .ok ⟨toU32 (a + vs.length), toU32 (b + vs.sum)⟩ () := by
      intro vs
      induction vs with
      | nil => intro _ a b; simp [addValues]; rfl
      | cons v vs ih =>
        intro hv a b
        have e := ih (fun x hx => hv x (by simp [hx])) (a + 1) (b + v)
        rw [toU32_add a 1, toU32_add b v] at e
        simp only [addValues, addCount, intArg, act_bind, asInt_of (hv v (by simp)), act_lift_ok, act_modify,
          BNB.Group.addValue]
        refine Eq.trans e ?_
        rw [List.length_cons, List.sum_cons]
        push_cast
        rw [add_assoc a, add_comm 1, add_assoc b]
    have e := gen vs hv 0 0
    refine ⟨⟨toU32 vs.length, toU32 vs.sum⟩, ?_, ?_⟩
    · rw [zero_add, zero_add] at e
      exact congrArg (Out.res fun s _ => s) e
    · simp only [dumpBNBGroup, ofU32_toU32 hl', ofU32_toU32 hs]

/-- **C91 (groups from values, Dirichlet-Discrete).** Values below the dimension are counted, and unlike a
group made from a dictionary (`C79_dd_group_dim`) this one scores its counts. -/
theorem C91_dd_values [FloatOps F] (lvl : Nat) (sh : DDShared F) (new : DDGroup) {d : Nat} (hd : sh.dim = d)
    (hd' : d ≤ 256) (hsh : sh.alphas.length = 256) (hnew : new.counts.length = 256) (vs : List Nat)
    (hv : ∀ v ∈ vs, v < d) (hl : vs.length ≤ 2147483647) :
    ∃ g, fromValues new (initDDGroup sh) (intArg (addValueDD lvl)) (vs.map fun v : Nat => (v : Int)) = .ok g ∧
      dumpDDGroup g = .ok ((List.range d).map fun v => (vs.count v : Int)) ∧
      scoreDataDD sh g = DD.Group.scoreData ⟨sh.alphas.take d⟩
        ⟨vs.length, (List.range d).map fun v => (vs.count v : Int)⟩ := by
  have hf := fill_eq (List.replicate d 0) new.counts 0 (by simp; omega)
  simp only [Nat.cast_zero, List.take_zero, List.nil_append, Nat.zero_add, List.length_replicate] at hf
  have hi : initDDGroup sh new = .ok ⟨d, d, 0, List.replicate d 0 ++ new.counts.drop d⟩ () := by
    simp only [initDDGroup, act_bind, act_modify, act_get, hd, Int.toNat_natCast, hf, act_lift_ok]
  rw [fromValues_eq _ _ _ _ hi]
  have gen : ∀ (ws us : List Nat) (g : DDGroup), (∀ v ∈ us, v < d) → us.length + ws.length ≤ 2147483647 →
      g.dim = d → g.pyDim = d → g.countSum = ws.length → g.counts.length = 256 →
      (∀ i < d, g.counts[i]? = some (ws.count i : Int)) →
      ∃ g', addValues (intArg (addValueDD lvl)) (us.map fun v : Nat => (v : Int)) g = .ok g' () ∧
        g'.dim = d ∧ g'.pyDim = d ∧ g'.countSum = ((us.length + ws.length : Nat) : Int) ∧
        g'.counts.length = 256 ∧ ∀ i < d, g'.counts[i]? = some ((us.count i + ws.count i : Nat) : Int) := by
    intro ws us
    induction us generalizing ws with
    | nil =>
      intro g _ _ h1 h2 h3 h4 h5
      exact ⟨g, rfl, h1, h2, by simpa using h3, h4, by simpa using h5⟩
    | cons u us ih =>
      intro g hu hlen h1 h2 h3 h4 h5
      simp only [List.length_cons] at hlen
      have hud : u < d := hu u (by simp)
      have hc : ws.count u ≤ ws.length := List.count_le_length
      obtain ⟨g1, e1, e2, e3, e4, e5, e6⟩ := C79_dd_add_value lvl g u (ws.count u) (by rw [h1]; exact_mod_cast hud)
        (h5 u hud) (by unfold InInt32 int32Min int32Max; omega)
        (by rw [h3]; unfold InInt32 int32Min int32Max; omega)
      have hlen1 : g1.counts.length = 256 := by
        by_contra hne
        rcases Nat.lt_or_gt_of_ne hne with hlt | hgt
        · have := e4 g1.counts.length
          by_cases hq : g1.counts.length = u
          · rw [← hq] at e3; simp at e3
          · have := this hq
            rw [List.getElem?_eq_none (le_refl _), eq_comm, List.getElem?_eq_none_iff] at this
            omega
        · have := e4 256 (by omega)
          rw [List.getElem?_eq_none (l := g.counts) (by omega), List.getElem?_eq_none_iff] at this
          omega
      obtain ⟨g', q1, q2, q3, q4, q5, q6⟩ := ih (u :: ws) g1 (fun v hv => hu v (by simp [hv]))
        (by simp only [List.length_cons]; omega) (e5.trans h1) (e6.trans h2)
        (by rw [e2, h3]; simp) hlen1 (by
          intro i hi'
          by_cases hiu : i = u
          · subst hiu; rw [e3]; simp
          · rw [e4 i hiu, h5 i hi', List.count_cons_of_ne (Ne.symm hiu)])
      refine ⟨g', ?_, q2, q3, ?_, q5, ?_⟩
      · have hin : InInt32 (u : Int) := by unfold InInt32 int32Min int32Max; omega
        simp only [List.map_cons, addValues, intArg, act_bind, asInt_of hin, act_lift_ok, e1]
        exact q1
      · rw [q4]; simp only [List.length_cons]; push_cast; ring
      · intro i hi'
        rw [q6 i hi']
        congr 2
        simp only [List.count_cons]
        omega
  obtain ⟨g, e1, e2, e3, e4, e5, e6⟩ := gen [] vs ⟨d, d, 0, List.replicate d 0 ++ new.counts.drop d⟩ hv
    (by simpa using hl) rfl rfl rfl (by simp; omega) (by
      intro i hi'
      rw [List.getElem?_append_left (by simpa using hi')]
      simp [hi'])
  simp only [List.length_nil, Nat.add_zero, List.count_nil] at e4 e6
  have ht : g.counts.take d = (List.range d).map fun v => (vs.count v : Int) := by
    apply List.ext_getElem?
    intro i
    rw [List.getElem?_take]
    split_ifs with hi'
    · rw [e6 i hi']; simp [hi']
    · rw [eq_comm, List.getElem?_eq_none_iff]; simp; omega
  refine ⟨g, by rw [e1]; rfl, ?_, ?_⟩
  · have := collect_eq g.counts 0 d (by omega)
    simp only [Nat.cast_zero, List.drop_zero] at this
    rw [dumpDDGroup, e3, Int.toNat_natCast, this, ht]
  · have hsc := fun a b => scoreDataDDLoop_eq sh g 0 d (by omega) (by omega) a b
    simp only [Nat.cast_zero, List.drop_zero, ht] at hsc
    simp only [scoreDataDD, e2, Int.toNat_natCast, hsc, DD.Group.scoreData, e4]

/-- **C91 (groups from values, normal).** In exact arithmetic `Group.from_values` holds the number of
values, their mean and their summed squared deviations. -/
theorem C91_nich_values (new : NICH.Group XR) (vs : List ℝ) (h : vs.length ≤ 2147483647) :
    fromValues new (initTo NICH.Group.init) (addBy NICH.Group.addValue) (vs.map XR.fin) =
      .ok ⟨vs.length, .fin (vs.sum / vs.length),
        .fin ((vs.map fun x => (x - vs.sum / vs.length) ^ 2).sum)⟩ := by
  rw [fromValues_eq _ _ _ _ (g := NICH.Group.init) rfl]
  have gen : ∀ (vs : List ℝ) (M : Multiset ℝ), M.card + vs.length ≤ 2147483647 →
      addValues (addBy NICH.Group.addValue) (vs.map XR.fin) (NICH.stats M) = .ok (NICH.stats (M + vs)) () := by
    intro vs
    induction vs with
    | nil => intro M _; simp [addValues]; rfl
    | cons v vs ih =>
      intro M hM
      simp only [List.length_cons] at hM
      rw [List.map_cons, addValues_cons (addBy_ok (NICH.stats_cons M v (by omega))), ih _ (by rw [Multiset.card_cons]; omega)]
      congr 2
      rw [← Multiset.cons_coe, Multiset.cons_add, Multiset.add_cons]
  have h0 : (NICH.Group.init : NICH.Group XR) = NICH.stats 0 := by
    simp [NICH.Group.init, NICH.stats, NICH.mk]
  rw [h0, gen vs 0 (by simpa using h), zero_add, NICH.stats_eq]
  simp only [Out.res, NICH.mk, Multiset.coe_card]
  simp [meanOf, sqDev]

/-! ## Examples -/

/-- Two heads and a tail. -/
example (new : BB.Group) : fromValues new (initTo BB.Group.init) (addBy BB.Group.addValue)
    [true, false, true] = .ok ⟨2, 1⟩ := C91_bb_values new _ (by simp)

/-- The values 3 and -1: two observations of sum 2. -/
example (new : BNB.Group) : ∃ s, fromValues new (initTo BNB.Group.init) (addCount BNB.Group.addValue)
    [3, -1] = .ok s ∧ dumpBNBGroup s = ⟨2, 2⟩ :=
  (C91_count_values (⟨id, id, .fin 1, (· - ·), fun _ => rfl⟩ : Conv XR XR) GP.Group.init new [3, -1]
    (by simp [InInt32, int32Min, int32Max]) (by simp) (by simp [InInt32, int32Min, int32Max])).2

/-- Three categories, the values 0, 2, 2. -/
example [FloatOps F] (sh : DDShared F) (h : sh.dim = 3) (h' : sh.alphas.length = 256) :
    ∃ g, fromValues newDDGroup (initDDGroup sh) (intArg (addValueDD 1)) [0, 2, 2] = .ok g ∧
      dumpDDGroup g = .ok [1, 0, 2] := by
  obtain ⟨g, h1, h2, -⟩ := C91_dd_values 1 sh newDDGroup (d := 3) h (by omega) h' length_newDDGroup
    [0, 2, 2] (by simp) (by simp)
  exact ⟨g, h1, h2⟩

/-- The values 1, 2 and 6: mean 3, squared deviations 4 + 1 + 9. -/
example (new : NICH.Group XR) : fromValues new (initTo NICH.Group.init) (addBy NICH.Group.addValue)
    ([1, 2, 6].map XR.fin) = .ok ⟨3, .fin 3, .fin 14⟩ := by
  rw [C91_nich_values new [1, 2, 6] (by simp)]
  norm_num

/-- `r = 5` passes, `r = -1` does not. -/
example (a b : BNB.Shared F) (alpha beta : D) (before : Proto.BNBSharedMsg F) :
    (∃ msg, toProtobuf a (loadBNBShared c) (pbDumpBNBShared c) ⟨alpha, beta, 5⟩ before = .ok msg ∧
      fromProtobuf b (pbLoadBNBShared c) (fun s => .ok (dumpBNBShared c s)) msg =
        .ok ⟨c.widen (c.narrow alpha), c.widen (c.narrow beta), 5⟩) ∧
    toProtobuf a (loadBNBShared c) (pbDumpBNBShared c) ⟨alpha, beta, -1⟩ before = .fail :=
  ⟨((C91_shared c).2.2.1 a b trivial trivial ⟨alpha, beta, 5⟩ before).1 (by simp),
    ((C91_shared c).2.2.1 a b trivial trivial ⟨alpha, beta, -1⟩ before).2 (by simp)⟩

end Dist.Py
