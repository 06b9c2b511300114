import Verif.Spec.NIWShapes

/-! # Eigen's operations on vectors and matrices with sizes -/

namespace Dist.NIW.Dyn

open FloatOps FloatNotation

section

variable {F : Type} {d : Nat}

theorem zip_of (checks : Bool) (f : F → F → F) (v w : Vec F d) :
    DVec.zip checks f (.of v) (.of w) = .ok (.of fun i => f (v i) (w i)) := by
  simp [DVec.zip, DVec.of]

theorem mzip_of (checks : Bool) (f : F → F → F) (v w : Mat F d) :
    DMat.zip checks f (.of v) (.of w) = .ok (.of fun i j => f (v i j) (w i j)) := by
  simp [DMat.zip, DMat.of]

theorem map_of (f : F → F) (v : Vec F d) : (DVec.of v).map f = .of fun i => f (v i) := rfl

theorem mmap_of (f : F → F) (v : Mat F d) : (DMat.of v).map f = .of fun i j => f (v i j) := rfl

theorem square_of (checks : Bool) (m : Mat F d) : (DMat.of m).square checks = .ok m := by
  simp [DMat.square, DMat.of]

theorem sized_of (checks : Bool) (v : Vec F d) : (DVec.of v).sized checks d = .ok v := by
  simp [DVec.sized, DVec.of]

theorem zip_ne {checks : Bool} {f : F → F → F} {v w : DVec F} (h : v.size ≠ w.size) :
    DVec.zip checks f v w = mismatch checks := dif_neg h

theorem mzip_ne {checks : Bool} {f : F → F → F} {v w : DMat F} (h : ¬ (v.rows = w.rows ∧ v.cols = w.cols)) :
    DMat.zip checks f v w = mismatch checks := dif_neg h

theorem mismatch_bind {α β : Type} (checks : Bool) (f : α → Res β) :
    (mismatch checks >>= f) = mismatch checks := by
  cases checks <;> rfl

theorem zip_ok {checks : Bool} {f : F → F → F} {v w u : DVec F} (h : DVec.zip checks f v w = .ok u) :
    v.size = w.size ∧ u.size = v.size := by
  unfold DVec.zip mismatch at h
  split_ifs at h with h1
  cases h
  exact ⟨h1, rfl⟩

theorem mzip_ok {checks : Bool} {f : F → F → F} {v w u : DMat F} (h : DMat.zip checks f v w = .ok u) :
    v.rows = w.rows ∧ v.cols = w.cols ∧ u.rows = v.rows ∧ u.cols = v.cols := by
  unfold DMat.zip mismatch at h
  split_ifs at h with h1
  cases h
  exact ⟨h1.1, h1.2, rfl, rfl⟩

theorem mismatch_safe {α : Type} : (mismatch true : Res α).Safe := by simp [mismatch]

theorem zip_safe (f : F → F → F) (v w : DVec F) : (DVec.zip true f v w).Safe := by
  unfold DVec.zip
  split_ifs
  · simp
  · exact mismatch_safe

theorem mzip_safe (f : F → F → F) (v w : DMat F) : (DMat.zip true f v w).Safe := by
  unfold DMat.zip
  split_ifs
  · simp
  · exact mismatch_safe

theorem square_safe (m : DMat F) : (m.square true).Safe := by
  unfold DMat.square
  split_ifs
  · simp
  · exact mismatch_safe

theorem sized_safe (n : Nat) (m : DVec F) : (m.sized true n).Safe := by
  unfold DVec.sized
  split_ifs
  · simp
  · exact mismatch_safe

variable [FloatOps F]

theorem outer_of (v w : Vec F d) : outer (.of v) (.of w) = .of (NIW.outer v w) := rfl

theorem scoreMvStudentT_of (checks : Bool) (la : LinAlg F) (v : Vec F d) (nu : F) (mu : Vec F d)
    (sigma : Mat F d) :
    scoreMvStudentT checks la (.of v) nu (.of mu) (.of sigma) = .ok (NIW.scoreMvStudentT la v nu mu sigma) := by
  unfold scoreMvStudentT
  rw [square_of, zip_of]
  exact congrArg (fun r : Res (Vec F d) => r >>= fun w => (Res.ok (
    lgamma (nu / lit 2 1 + ofInt d / lit 2 1) - lgamma (nu / lit 2 1) +
    (lit (-1) 2 * log (la.det sigma) - ofInt d / lit 2 1 * (log nu + logPi)) +
    lit (-1) 2 * (nu + ofInt d) *
      log (lit 1 1 + lit 1 1 / nu * dot w (mulVec (la.inv sigma) w))) : Res F)) (sized_of checks _)

theorem scoreMvStudentT_ne (checks : Bool) (la : LinAlg F) (v : DVec F) (nu : F) (mu : Vec F d)
    (sigma : Mat F d) (h : v.size ≠ d) :
    scoreMvStudentT checks la v nu (.of mu) (.of sigma) = mismatch checks := by
  unfold scoreMvStudentT
  rw [square_of, zip_ne (show v.size ≠ (DVec.of mu).size from h)]
  exact mismatch_bind _ _

theorem sampleMvNormal_of {σ : Type} (e : Eigen F) (rng : Rng F σ) (s : σ) (mu : Vec F d) (sigma : Mat F d) :
    sampleMvNormal e rng s (.of mu) (.of sigma) =
      (fun p => (DVec.of p.1, p.2)) <$> NIW.sampleMvNormal e rng s mu sigma := by
  unfold sampleMvNormal
  rw [square_of]
  refine (congrArg (fun r : Res (Vec F d) => r >>= fun w => NIW.sampleMvNormal e rng s w sigma >>= fun p =>
    (Res.ok (DVec.of p.1, p.2) : Res (DVec F × σ))) (sized_of true mu)).trans ?_
  rw [Res.ok_bind]
  cases NIW.sampleMvNormal e rng s mu sigma <;> rfl

theorem Shared.exists_of {sh : Shared F} (h : sh.Square) : ∃ sh' : NIW.Shared F sh.dim, sh = .of sh' := by
  obtain ⟨⟨n, mu⟩, kappa, ⟨r, c, psi⟩, nu⟩ := sh
  obtain ⟨h1, h2⟩ := h
  simp only [Shared.dim] at h1 h2
  subst h1 h2
  exact ⟨⟨mu, kappa, psi, nu⟩, rfl⟩

theorem Group.exists_of {n : Nat} {g : Group F} (h : g.HasDim n) : ∃ g' : NIW.Group F n, g = .of g' := by
  obtain ⟨count, ⟨m, sumX⟩, ⟨r, c, psi⟩⟩ := g
  obtain ⟨h0, h1, h2⟩ := h
  simp only at h0 h1 h2
  subst h0 h1 h2
  exact ⟨⟨count, sumX, psi⟩, rfl⟩

end

end Dist.NIW.Dyn
