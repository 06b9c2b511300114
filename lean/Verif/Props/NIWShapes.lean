import Verif.Lemmas.NIWShapes
import Verif.Base.XR

/-! # C93: sizes of vectors and matrices of the normal-inverse-Wishart model -/

namespace Dist.NIW.Dyn

open FloatOps FloatNotation

variable {F : Type} [FloatOps F] {d : Nat} (checks : Bool) (lvl : Nat)

/-- With parameters, statistics and values of one dimension, the methods do what the methods of that fixed
dimension do; no size check fires. -/
theorem C93_plus_group (sh : NIW.Shared F d) (g : NIW.Group F d) :
    (Shared.of sh).plusGroup checks lvl (.of g) = Shared.of <$> sh.plusGroup lvl g := by
  have hx : (if (Group.of g).count ≠ 0 then (Group.of g).sumX.map (fun x => x / ofInt (Group.of g).count)
      else DVec.zero (Shared.of sh).dim) =
      DVec.of (if g.count ≠ 0 then fun i => g.sumX i / ofInt g.count else fun _ => ofInt 0) := by
    by_cases h : g.count = 0
    · simp [Group.of, h]; rfl
    · simp [Group.of, h]; rfl
  unfold Shared.plusGroup NIW.Shared.plusGroup
  rw [show (Shared.of sh).dim = d from rfl] at *
  cases hd : distAssert lvl 3 (0 < d) with
  | ub => rfl
  | fail => rfl
  | ok u =>
    simp only [Res.ok_bind]
    rw [hx]
    simp only [Shared.of, Group.of, map_of, zip_of, outer_of, mzip_of, mmap_of, Res.ok_bind, Res.pure_eq,
      Res.map_ok]
    rfl

theorem C93_updates (sh : NIW.Shared F d) (g g' : NIW.Group F d) (v : Vec F d) (n : Int) :
    (Group.init lvl (.of sh) : Res (Group F)) = Group.of <$> (NIW.Group.init lvl : Res (NIW.Group F d)) ∧
    (Group.of g).update checks lvl (.of sh) (.add (.of v)) = Group.of <$> g.addValue v ∧
    (Group.of g).update checks lvl (.of sh) (.addRepeated (.of v) n) = Group.of <$> g.addRepeatedValue v n ∧
    (Group.of g).update checks lvl (.of sh) (.remove (.of v)) = Group.of <$> g.removeValue v ∧
    (Group.of g).update checks lvl (.of sh) (.merge (.of g')) = Group.of <$> g.merge g' := by
  have hd : (Shared.of sh).dim = d := rfl
  have hv : (DVec.of v).size = d := rfl
  refine ⟨?_, ?_, ?_, ?_, ?_⟩
  · unfold Group.init NIW.Group.init
    rw [hd]
    cases distAssert lvl 3 (0 < d) <;> rfl
  all_goals
    simp only [Group.update, Group.addValue, Group.addRepeatedValue, Group.removeValue, Group.merge,
      NIW.Group.addValue, NIW.Group.addRepeatedValue, NIW.Group.removeValue, NIW.Group.merge, hd, hv,
      distAssert_of, Res.ok_bind, Group.of, outer_of, map_of, mmap_of, zip_of, mzip_of, Res.pure_eq]
    first
      | (cases i32 (g.count + 1) <;> rfl)
      | (cases i32 (g.count + n) <;> rfl)
      | (cases i32 (g.count - 1) <;> rfl)
      | (cases i32 (g.count + g'.count) <;> rfl)

theorem C93_scores (la : LinAlg F) (sh : NIW.Shared F d) (g : NIW.Group F d) (v : Vec F d) :
    (Group.of g).scoreData checks lvl la (.of sh) = g.scoreData lvl la sh ∧
    (Group.of g).scoreValue checks lvl la (.of sh) (.of v) = g.scoreValue lvl la sh v := by
  unfold Group.scoreData Group.scoreValue NIW.Group.scoreData NIW.Group.scoreValue
  rw [C93_plus_group]
  cases sh.plusGroup lvl g with
  | ub => exact ⟨rfl, rfl⟩
  | fail => exact ⟨rfl, rfl⟩
  | ok post =>
    simp only [Res.map_ok, Res.ok_bind]
    constructor
    · simp only [Shared.of, Group.of, square_of, Res.ok_bind]
      rfl
    · simp only [Scorer.eval, Shared.of, mmap_of, scoreMvStudentT_of]
      rfl

theorem C93_sample_value {σ : Type} (e : Eigen F) (rng : Rng F σ) (s : σ) (sh : NIW.Shared F d)
    (g : NIW.Group F d) :
    (Group.of g).sampleValue checks lvl e rng s (.of sh) =
      (fun p => (DVec.of p.1, p.2)) <$> g.sampleValue lvl e rng s sh := by
  unfold Group.sampleValue NIW.Group.sampleValue NIW.Sampler.init NIW.sampleNormalInverseWishart
  rw [C93_plus_group]
  cases sh.plusGroup lvl g with
  | ub => rfl
  | fail => rfl
  | ok post =>
    simp only [Res.map_ok, Res.ok_bind, Shared.of, square_of]
    change (NIW.sampleInverseWishart e rng s post.nu post.psi >>= _) = _ <$> ((NIW.sampleInverseWishart e rng s post.nu post.psi >>= _) >>= _)
    cases NIW.sampleInverseWishart e rng s post.nu post.psi with
    | ub => rfl
    | fail => rfl
    | ok w =>
      obtain ⟨w, s⟩ := w
      simp only [Res.ok_bind]
      change (sampleMvNormal e rng s (.of post.mu) (.of fun i j => lit 1 1 / post.kappa * w i j) >>= _) = _
      rw [sampleMvNormal_of]
      cases NIW.sampleMvNormal e rng s post.mu (fun i j => lit 1 1 / post.kappa * w i j) with
      | ub => rfl
      | fail => rfl
      | ok mu => exact sampleMvNormal_of e rng mu.2 mu.1 _

/-- Whatever calls are made on a new group, in whatever build, when they return the statistics have the
dimension of the parameters. -/
theorem C93_sizes (sh : Shared F) (us : List (Update F)) {g g' : Group F} (h0 : Group.init lvl sh = .ok g)
    (h : g.updates checks lvl sh us = .ok g') : g'.HasDim sh.dim := by
  have hg : g.HasDim sh.dim := by
    unfold Group.init at h0
    obtain ⟨_, -, h0⟩ := Res.bind_eq_ok.mp h0
    cases h0
    exact ⟨rfl, rfl, rfl⟩
  clear h0
  induction us generalizing g with
  | nil => cases h; exact hg
  | cons u us ih =>
    obtain ⟨g1, h1, h2⟩ := Res.bind_eq_ok.mp h
    refine ih h2 ?_
    have key : ∀ {f : F → F → F} {f' : F → F → F} {w : DVec F} {m : DMat F} {c : Int}
        (h : (do
          let sumX ← DVec.zip checks f g.sumX w
          let sumXXT ← DMat.zip checks f' g.sumXXT m
          return ⟨c, sumX, sumXXT⟩ : Res (Group F)) = .ok g1), g1.HasDim sh.dim := by
      intro f f' w m c h
      obtain ⟨a, ha, h⟩ := Res.bind_eq_ok.mp h
      obtain ⟨b, hb, h⟩ := Res.bind_eq_ok.mp h
      cases h
      exact ⟨(zip_ok ha).2.trans hg.1, (mzip_ok hb).2.2.1.trans hg.2.1, (mzip_ok hb).2.2.2.trans hg.2.2⟩
    cases u with
    | add v =>
      obtain ⟨_, -, h1⟩ := Res.bind_eq_ok.mp h1
      obtain ⟨_, -, h1⟩ := Res.bind_eq_ok.mp h1
      exact key h1
    | addRepeated v n =>
      obtain ⟨_, -, h1⟩ := Res.bind_eq_ok.mp h1
      obtain ⟨_, -, h1⟩ := Res.bind_eq_ok.mp h1
      exact key h1
    | remove v =>
      obtain ⟨_, -, h1⟩ := Res.bind_eq_ok.mp h1
      obtain ⟨_, -, h1⟩ := Res.bind_eq_ok.mp h1
      exact key h1
    | merge v =>
      obtain ⟨_, -, h1⟩ := Res.bind_eq_ok.mp h1
      exact key h1

/-- What a call with an argument of another dimension does: the assertions of debug level 3 fail for values,
but a group of another dimension is left to Eigen, whose own check aborts or, compiled out, lets the call read
and write outside of the arrays. -/
theorem C93_wrong_argument (sh : Shared F) (g : Group F) (u : Update F) (hg : g.HasDim sh.dim)
    (hu : ¬ u.HasDim sh.dim) (hc : InInt32 (u.countAfter g.count)) :
    g.update checks lvl sh u =
      if checks = true ∨ (3 ≤ lvl ∧ u.takesValue = true) then .fail else .ub := by
  have zipne : ∀ (f : F → F → F) (w : DVec F), w.size ≠ sh.dim →
      DVec.zip checks f g.sumX w = (mismatch checks : Res (DVec F)) := fun f w hw => by
    unfold DVec.zip
    rw [dif_neg]
    rw [hg.1]
    exact fun h => hw h.symm
  have val : ∀ (f : F → F → F) (w : DVec F) (v : DVec F) (c : Int) (k : Int → DVec F → Res (Group F)),
      v.size ≠ sh.dim → w.size = v.size → InInt32 c →
      (do distAssert lvl 3 (sh.dim = v.size)
          let count ← i32 c
          let x ← DVec.zip checks f g.sumX w
          k count x) = if checks = true ∨ 3 ≤ lvl then .fail else .ub := by
    intro f w v c k hv hw hc
    rw [zipne f w (hw ▸ hv)]
    by_cases hl : 3 ≤ lvl
    · rw [distAssert_of_not hl (fun h => hv h.symm)]
      simp [hl]
    · rw [distAssert_of_lt (by omega)]
      cases checks <;> simp [hl, hc, mismatch]
  cases u with
  | add v =>
    simp only [Update.takesValue, and_true]
    exact val _ v v (g.count + 1) _ hu rfl hc
  | addRepeated v n =>
    simp only [Update.takesValue, and_true]
    exact val _ (v.map fun x => ofInt n * x) v (g.count + n) _ hu rfl hc
  | remove v =>
    simp only [Update.takesValue, and_true]
    exact val _ v v (g.count - 1) _ hu rfl hc
  | merge s =>
    simp only [Update.takesValue, Bool.false_eq_true, and_false, or_false]
    simp only [Group.update, Group.merge]
    rw [i32_of (x := g.count + s.count) hc]
    simp only [Res.ok_bind]
    by_cases h1 : s.sumX.size = sh.dim
    · have h2 : ¬ (g.sumXXT.rows = s.sumXXT.rows ∧ g.sumXXT.cols = s.sumXXT.cols) := by
        rw [hg.2.1, hg.2.2]
        exact fun h => hu ⟨h1, h.1.symm, h.2.symm⟩
      unfold DVec.zip
      rw [dif_pos (hg.1.trans h1.symm)]
      simp only [Res.ok_bind]
      unfold DMat.zip
      rw [dif_neg h2]
      cases checks <;> simp [mismatch]
    · rw [zipne _ _ h1]
      cases checks <;> simp [mismatch]

/-- Scoring a value of another dimension is never caught by an assertion of the library. -/
theorem C93_wrong_value_score (la : LinAlg F) (sh : Shared F) (g : Group F) (v : DVec F) (h0 : 0 < sh.dim)
    (hs : sh.Square) (hg : g.HasDim sh.dim) (hv : v.size ≠ sh.dim) :
    g.scoreValue checks lvl la sh v = if checks = true then .fail else .ub := by
  obtain ⟨n, sh', g', rfl, rfl⟩ : ∃ (n : Nat) (sh' : NIW.Shared F n) (g' : NIW.Group F n),
      sh = .of sh' ∧ g = .of g' := by
    obtain ⟨sh', h1⟩ := Shared.exists_of hs
    obtain ⟨g', h2⟩ := Group.exists_of hg
    exact ⟨_, sh', g', h1, h2⟩
  unfold Group.scoreValue
  rw [C93_plus_group]
  unfold NIW.Shared.plusGroup
  rw [distAssert_of (show 0 < n from h0)]
  simp only [Res.ok_bind, Res.pure_eq, Res.map_ok, Scorer.eval, Shared.of, mmap_of]
  exact scoreMvStudentT_ne _ _ _ _ _ _ hv

/-- The functions behind scoring and sampling, called on their own with sizes that do not fit: the score
of a vector is never caught by an assertion of the library, drawing a vector always is. -/
theorem C93_wrong_call {σ : Type} (e : Eigen F) (rng : Rng F σ) (s : σ) (v mu : DVec F) (nu : F)
    (sigma : DMat F) :
    (¬ (sigma.rows = sigma.cols ∧ v.size = mu.size ∧ mu.size = sigma.rows) →
      scoreMvStudentT checks e.toLinAlg v nu mu sigma = if checks = true then .fail else .ub) ∧
    (¬ (sigma.rows = sigma.cols ∧ mu.size = sigma.rows) →
      sampleMvNormal e rng s mu sigma = .fail) := by
  refine ⟨fun h => ?_, fun h => ?_⟩
  · unfold scoreMvStudentT DMat.square DVec.zip DVec.sized
    by_cases h1 : sigma.rows = sigma.cols
    · by_cases h2 : v.size = mu.size
      · have h3 : ¬ sigma.rows = v.size := fun h3 => h ⟨h1, h2, by omega⟩
        rw [dif_pos h1, dif_pos h2]
        simp only [Res.ok_bind]
        rw [dif_neg h3]
        cases checks <;> simp [mismatch]
      · rw [dif_pos h1, dif_neg h2]
        cases checks <;> simp [mismatch]
    · rw [dif_neg h1]
      cases checks <;> simp [mismatch]
  · unfold sampleMvNormal DMat.square DVec.sized
    by_cases h1 : sigma.rows = sigma.cols
    · have h3 : ¬ sigma.rows = mu.size := fun h3 => h ⟨h1, by omega⟩
      rw [dif_pos h1]
      simp only [Res.ok_bind]
      rw [dif_neg h3]
      simp [mismatch]
    · rw [dif_neg h1]
      simp [mismatch]

example (e : Eigen XR) (rng : Rng XR Nat) : sampleMvNormal e rng 0 ⟨2, fun _ => .fin 0⟩
    ⟨1, 1, fun _ _ => .fin 1⟩ = .fail :=
  (C93_wrong_call true e rng 0 ⟨1, fun _ => .fin 0⟩ ⟨2, fun _ => .fin 0⟩ (.fin 1)
    ⟨1, 1, fun _ _ => .fin 1⟩).2 (by simp)

/-- With Eigen's checks no call is undefined, whatever the sizes are, unless the count overflows. -/
theorem C93_checked_safe {σ : Type} (e : Eigen F) (rng : Rng F σ) (s : σ) (sh : Shared F) (g : Group F)
    (v : DVec F) (u : Update F) :
    (g.scoreData true lvl e.toLinAlg sh).Safe ∧ (g.scoreValue true lvl e.toLinAlg sh v).Safe ∧
    (g.sampleValue true lvl e rng s sh).Safe ∧
    (InInt32 (u.countAfter g.count) → (g.update true lvl sh u).Safe) := by
  have lm : ∀ (k : Nat) (a : F), (lmultigamma lvl k a).Safe := fun k a =>
    Res.safe_bind distAssert_safe fun _ _ => by simp
  have pg : (sh.plusGroup true lvl g).Safe := by
    unfold Shared.plusGroup
    exact Res.safe_bind distAssert_safe fun _ _ => Res.safe_bind (zip_safe _ _ _) fun _ _ =>
      Res.safe_bind (zip_safe _ _ _) fun _ _ => Res.safe_bind (mzip_safe _ _ _) fun _ _ =>
      Res.safe_bind (mzip_safe _ _ _) fun _ _ => Res.safe_bind (mzip_safe _ _ _) fun _ _ =>
      Res.safe_bind (mzip_safe _ _ _) fun _ _ => Res.safe_bind (mzip_safe _ _ _) fun _ _ => by simp
  have mvn' : ∀ {n : Nat} (s : σ) (mu : Vec F n) (m : Mat F n), (NIW.sampleMvNormal e rng s mu m).Safe := by
    intro n s mu m
    unfold NIW.sampleMvNormal
    cases e.llt m <;> simp
  have mvn : ∀ (s : σ) (mu : DVec F) (m : DMat F), (sampleMvNormal e rng s mu m).Safe := fun s mu m =>
    Res.safe_bind (square_safe _) fun _ _ => Res.safe_bind (sized_safe _ _) fun _ _ =>
      Res.safe_bind (mvn' _ _ _) fun _ _ => by simp
  have iw : ∀ {n : Nat} (s : σ) (nu : F) (m : Mat F n), (NIW.sampleInverseWishart e rng s nu m).Safe := by
    intro n s nu m
    refine Res.safe_bind ?_ fun _ _ => by simp
    unfold NIW.sampleWishart
    cases e.llt (e.inv m) <;> simp
  have si : ∀ {x : Int}, InInt32 x → (i32 x).Safe := fun h => by rw [i32_of h]; simp
  refine ⟨?_, ?_, ?_, fun h => ?_⟩
  · exact Res.safe_bind pg fun _ _ => Res.safe_bind (lm _ _) fun _ _ => Res.safe_bind (square_safe _) fun _ _ =>
      Res.safe_bind (lm _ _) fun _ _ => Res.safe_bind (square_safe _) fun _ _ => by simp
  · exact Res.safe_bind pg fun _ _ => Res.safe_bind (square_safe _) fun _ _ =>
      Res.safe_bind (zip_safe _ _ _) fun _ _ => Res.safe_bind (sized_safe _ _) fun _ _ => by simp
  · exact Res.safe_bind pg fun _ _ => Res.safe_bind (square_safe _) fun _ _ =>
      Res.safe_bind (iw _ _ _) fun _ _ => Res.safe_bind (mvn _ _ _) fun _ _ => mvn _ _ _
  · cases u with
    | merge s =>
      exact Res.safe_bind (si h) fun _ _ => Res.safe_bind (zip_safe _ _ _) fun _ _ =>
        Res.safe_bind (mzip_safe _ _ _) fun _ _ => by simp
    | _ =>
      exact Res.safe_bind distAssert_safe fun _ _ => Res.safe_bind (si h) fun _ _ =>
        Res.safe_bind (zip_safe _ _ _) fun _ _ => Res.safe_bind (mzip_safe _ _ _) fun _ _ => by simp

section

variable {D : Type} (c : Py.Conv D F)

/-- Dumped parameters and groups load as they were. -/
theorem C93_round_trip (sh : Shared F) (g : Group F) (h : InInt32 g.count) :
    loadShared c (dumpShared c sh) = .ok sh ∧ loadGroup c (dumpGroup c g) = .ok g := by
  constructor
  · simp [loadShared, dumpShared, toEigenVecf, toNp1, toEigenMatf, toNp2, c.narrow_widen]
  · simp [loadGroup, dumpGroup, toEigenVecf, toNp1, toEigenMatf, toNp2, c.narrow_widen, h]

/-- `load` accepts a matrix of any shape beside a vector of any size; then every score and every sample of a
new group stops at Eigen's check, or is undefined without it. -/
theorem C93_load_unvalidated {σ : Type} (e : Eigen F) (rng : Rng F σ) (s : σ) (mu : DVec D) (psi : DMat D)
    (kappa nu : D) (h0 : 0 < mu.size) (hp : ¬ (psi.rows = mu.size ∧ psi.cols = mu.size)) :
    ∃ (sh : Shared F) (g : Group F), loadShared c ⟨.vec mu, kappa, .mat psi, nu⟩ = .ok sh ∧
      Group.init lvl sh = .ok g ∧
      g.scoreData checks lvl e.toLinAlg sh = (if checks = true then .fail else .ub) ∧
      (∀ v, g.scoreValue checks lvl e.toLinAlg sh v = if checks = true then .fail else .ub) ∧
      g.sampleValue checks lvl e rng s sh = if checks = true then .fail else .ub := by
  set sh : Shared F := ⟨⟨mu.size, fun i => c.narrow (mu.coeff i)⟩, c.narrow kappa,
    ⟨psi.rows, psi.cols, fun i j => c.narrow (psi.coeff i j)⟩, c.narrow nu⟩ with hsh
  have hd : 0 < sh.dim := h0
  set g : Group F := ⟨0, DVec.zero sh.dim, ⟨sh.dim, sh.dim, fun _ _ => ofInt 0⟩⟩ with hgdef
  have pg : sh.plusGroup checks lvl g = mismatch checks := by
    unfold Shared.plusGroup
    rw [distAssert_of hd]
    have hx : (if g.count ≠ 0 then g.sumX.map (fun x => x / ofInt g.count) else DVec.zero sh.dim) =
      DVec.of (d := sh.dim) fun _ => ofInt 0 := rfl
    have hs : g.sumX = DVec.of (d := sh.dim) fun _ => ofInt 0 := rfl
    have hm : sh.mu = DVec.of (d := sh.dim) fun i => c.narrow (mu.coeff i) := rfl
    have hss : g.sumXXT = DMat.of (d := sh.dim) fun _ _ => ofInt 0 := rfl
    simp only [Res.ok_bind]
    rw [hx, hs, hm, hss]
    simp only [map_of, zip_of, outer_of, mzip_of, mmap_of, Res.ok_bind]
    rw [mzip_ne]
    · exact mismatch_bind _ _
    · exact hp
  refine ⟨sh, g, rfl, ?_, ?_, ?_, ?_⟩
  · unfold Group.init
    rw [distAssert_of hd]
    rfl
  · unfold Group.scoreData
    rw [pg]
    cases checks <;> rfl
  · intro v
    unfold Group.scoreValue
    rw [pg]
    cases checks <;> rfl
  · unfold Group.sampleValue
    rw [pg]
    cases checks <;> rfl

/-- A flat array for the matrix is not rejected: the conversion reads beyond the shape of the array. -/
theorem C93_load_flat (mu : DVec D) (psi : DVec D) (kappa nu : D) :
    (loadShared c ⟨.vec mu, kappa, .vec psi, nu⟩ : Res (Shared F)) = .ub := rfl

end

/-! ## Examples -/

/-- Parameters of dimension 2. -/
noncomputable def exampleShared : NIW.Shared XR 2 :=
  ⟨fun _ => XR.fin 0, XR.fin 1, fun i j => if i = j then XR.fin 1 else XR.fin 0, XR.fin 3⟩

/-- A group of dimension `n` with one value of ones. -/
noncomputable def exampleGroup (n : Nat) : Group XR := ⟨1, ⟨n, fun _ => XR.fin 1⟩, ⟨n, n, fun _ _ => XR.fin 1⟩⟩

-- two calls on a new group of dimension 2
example (g g' : Group XR) (v w : Vec XR 2) (h0 : Group.init 3 (.of exampleShared) = .ok g)
    (h : g.updates false 3 (.of exampleShared) [.add (.of v), .remove (.of w)] = .ok g') :
    g'.sumX.size = 2 :=
  (C93_sizes false 3 (.of exampleShared) _ h0 h).1

-- and such calls return
example (v w : Vec XR 2) : ∃ g g', Group.init 3 (.of exampleShared) = .ok g ∧
    g.updates false 3 (.of exampleShared) [.add (.of v), .remove (.of w)] = .ok g' := by
  obtain ⟨h1, -⟩ := C93_updates false 3 exampleShared ⟨0, v, fun _ _ => XR.fin 0⟩
    ⟨0, v, fun _ _ => XR.fin 0⟩ v 0
  refine ⟨_, Group.of ⟨0 + 1 - 1, fun i => ofInt 0 + v i - w i,
    fun i j => ofInt 0 + v i * v j - w i * w j⟩, h1, ?_⟩
  simp only [Group.updates]
  rw [(C93_updates false 3 exampleShared _ ⟨0, v, fun _ _ => XR.fin 0⟩ v 0).2.1]
  simp only [NIW.Group.addValue, i32_of (show InInt32 (0 + 1) by decide), Res.ok_bind, Res.pure_eq, Res.map_ok]
  rw [(C93_updates false 3 exampleShared _ ⟨0, v, fun _ _ => XR.fin 0⟩ w 0).2.2.2.1]
  simp only [NIW.Group.removeValue, i32_of (show InInt32 (0 + 1 - 1) by decide), Res.ok_bind, Res.pure_eq,
    Res.map_ok]

-- a value of dimension 3: caught in debug builds, undefined in the release build
example : (exampleGroup 2).update false 3 (.of exampleShared) (.add ⟨3, fun _ => XR.fin 1⟩) = .fail :=
  C93_wrong_argument false 3 _ _ (.add ⟨3, fun _ => XR.fin 1⟩) ⟨rfl, rfl, rfl⟩
    (by simp [Update.HasDim, Shared.dim, Shared.of, DVec.of])
    (show InInt32 (1 + 1) by decide)

example : (exampleGroup 2).update false 0 (.of exampleShared) (.add ⟨3, fun _ => XR.fin 1⟩) = .ub :=
  C93_wrong_argument false 0 _ _ (.add ⟨3, fun _ => XR.fin 1⟩) ⟨rfl, rfl, rfl⟩
    (by simp [Update.HasDim, Shared.dim, Shared.of, DVec.of])
    (show InInt32 (1 + 1) by decide)

-- merging a group of dimension 3 is not caught by the assertions of the library
example : (exampleGroup 2).update false 3 (.of exampleShared) (.merge (exampleGroup 3)) = .ub :=
  C93_wrong_argument false 3 _ _ (.merge (exampleGroup 3)) ⟨rfl, rfl, rfl⟩
    (by simp [Update.HasDim, Group.HasDim, exampleGroup, Shared.dim, Shared.of, DVec.of])
    (show InInt32 (1 + 1) by decide)

-- a 2 × 3 matrix beside a vector of dimension 2 loads
example (c : Py.Conv ℚ XR) (la : Eigen XR) (rng : Rng XR Unit) : ∃ (sh : Shared XR) (g : Group XR),
    loadShared c ⟨.vec ⟨2, fun _ => 0⟩, 1, .mat ⟨2, 3, fun _ _ => 1⟩, 3⟩ = .ok sh ∧
      Group.init 3 sh = .ok g ∧ g.scoreData false 3 la.toLinAlg sh = .ub := by
  obtain ⟨sh, g, h1, h2, h3, -⟩ := C93_load_unvalidated false 3 c la rng () ⟨2, fun _ => 0⟩
    ⟨2, 3, fun _ _ => 1⟩ 1 3 (by simp) (by simp)
  exact ⟨sh, g, h1, h2, h3⟩

end Dist.NIW.Dyn
