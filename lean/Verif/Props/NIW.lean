import Verif.Lemmas.NIW

/-! # Normal-Inverse-Wishart: properties C25-C29, C33, C34, C41

The statistics are floats, so statements are in exact arithmetic, with exact determinant
and inverse. -/

namespace Dist

open Spec FloatOps FloatNotation Matrix

variable {d : Nat}

/-! ## C25, C26, C27 -/

/-- **C25, C41 (order).** Histories (with debt allowed) with the same net effect give the
same group. -/
theorem C41_order (h₁ h₂ : List (ValueOp (Fin d → ℝ))) (hl₁ : h₁.length ≤ 2147483647)
    (hl₂ : h₂.length ≤ 2147483647) (hn : ∀ v, net h₁ v = net h₂ v) :
    ∃ g, runGroup NIW.opsReal (NIW.mk 0 0 0) h₁ = .ok g ∧
      runGroup NIW.opsReal (NIW.mk 0 0 0) h₂ = .ok g := by
  refine ⟨_, NIW.run_eq h₁ 0 (by simpa using hl₁) 0 0, ?_⟩
  rw [NIW.run_eq h₂ 0 (by simpa using hl₂), signedSum_congr _ hn, signedSum_congr id hn,
    signedSum_congr _ hn]

/-- **C25, C41 (contents).** The group of a data set holds its size, its sum and the sum
of its squares. -/
theorem C41_contents (lvl : Nat) (hd : 0 < d) (xs : List (Fin d → ℝ))
    (hl : xs.length ≤ 2147483647) :
    (do let g ← NIW.Group.init lvl; addAll NIW.opsReal g xs) =
      .ok ⟨xs.length, fun i => .fin ((xs.map fun x => x i).sum),
        fun i j => .fin ((xs.map fun x => x i * x j).sum)⟩ := by
  rw [NIW.init_eq lvl hd, Res.ok_bind, NIW.addAll_eq xs hl]
  have h1 : ∀ i, vecSum xs i = (xs.map fun x => x i).sum := by
    intro i
    clear hl
    induction xs with
    | nil => simp [vecSum]
    | cons x xs ih => simp only [vecSum, List.sum_cons, Pi.add_apply] at ih ⊢; simp [ih]
  have h2 : ∀ i j, outerSum xs i j = (xs.map fun x => x i * x j).sum := by
    intro i j
    clear hl h1
    induction xs with
    | nil => simp [outerSum]
    | cons x xs ih =>
      simp only [outerSum, List.map_cons, List.sum_cons, Matrix.add_apply] at ih ⊢
      simp [ih, vecMulVec_apply]
  rw [Res.ok.injEq, NIW.Group.mk.injEq]
  exact ⟨rfl, funext fun i => congrArg XR.fin (h1 i),
    funext fun i => funext fun j => congrArg XR.fin (h2 i j)⟩

/-- **C25, C41 (inverse).** `remove_value` undoes `add_value` and conversely, from every
group. -/
theorem C41_inverse (n : Int) (h1 : InInt32 n) (h2 : InInt32 (n + 1)) (h3 : InInt32 (n - 1))
    (s : Fin d → ℝ) (q : Matrix (Fin d) (Fin d) ℝ) (v : Fin d → ℝ) :
    ((NIW.mk n s q).addValue (NIW.vec v) >>= fun g => g.removeValue (NIW.vec v)) =
        .ok (NIW.mk n s q) ∧
      ((NIW.mk n s q).removeValue (NIW.vec v) >>= fun g => g.addValue (NIW.vec v)) =
        .ok (NIW.mk n s q) := by
  constructor
  · rw [NIW.add_eq n h2, Res.ok_bind, NIW.remove_eq _ (by simpa using h1)]; simp
  · rw [NIW.remove_eq n h3, Res.ok_bind, NIW.add_eq _ (by simpa using h1)]; simp

/-- **C26, C41 (repeated add).** From every group, adding a value `k` times at once is
adding it `k` times. -/
theorem C41_repeated (n : Int) (s : Fin d → ℝ) (q : Matrix (Fin d) (Fin d) ℝ) (v : Fin d → ℝ)
    (k : Nat) (hn : |n| + k ≤ 2147483647) :
    ∃ g, addTimes NIW.opsReal (NIW.mk n s q) v k = .ok g ∧
      (NIW.mk n s q).addRepeatedValue (NIW.vec v) k = .ok g := by
  have hb := abs_le.mp (show |n| ≤ 2147483647 - k by omega)
  refine ⟨_, ?_, NIW.repeat_eq n k (by unfold InInt32 int32Min int32Max; omega) s q v⟩
  rw [addTimes, addAll_eq_runGroup, NIW.run_eq _ _ (by simpa using hn),
    NIW.signedSum_adds, NIW.signedSum_adds, NIW.signedSum_adds]
  have e1 : ((k : ℝ) • v) = k • v := Nat.cast_smul_eq_nsmul ℝ k v
  have e2 : ((k : ℝ) • vecMulVec v v) = k • vecMulVec v v := Nat.cast_smul_eq_nsmul ℝ k _
  rw [Int.cast_natCast, e1, e2]
  simp only [List.map_replicate, List.sum_replicate, id]
  simp

/-- **C27, C41 (merge).** Merging the groups of two data sets gives the group of their
concatenation. -/
theorem C41_merge (xs ys : List (Fin d → ℝ)) (hl : xs.length + ys.length ≤ 2147483647) :
    ∃ gx gy g, addAll NIW.opsReal (NIW.mk 0 0 0) xs = .ok gx ∧
      addAll NIW.opsReal (NIW.mk 0 0 0) ys = .ok gy ∧
      addAll NIW.opsReal (NIW.mk 0 0 0) (xs ++ ys) = .ok g ∧ gx.merge gy = .ok g := by
  refine ⟨_, _, _, NIW.addAll_eq xs (by omega), NIW.addAll_eq ys (by omega),
    NIW.addAll_eq (xs ++ ys) (by simpa using hl), ?_⟩
  rw [NIW.merge_eq _ _ (by unfold InInt32 int32Min int32Max; omega)]
  simp [vecSum, outerSum]

/-! ## C33 -/

/-- **C33, C41 (posterior composition).** Updating the hyperparameters with the group of
one data set and then with that of another is updating once with the group of both. -/
theorem C41_posterior (lvl : Nat) (hd : 0 < d) (mu : Fin d → ℝ) (kappa : ℝ)
    (psi : Matrix (Fin d) (Fin d) ℝ) (nu : ℝ) (hk : 0 < kappa) (xs ys : List (Fin d → ℝ))
    (hl : xs.length + ys.length ≤ 2147483647) :
    ∃ gx gy g post, addAll NIW.opsReal (NIW.mk 0 0 0) xs = .ok gx ∧
      addAll NIW.opsReal (NIW.mk 0 0 0) ys = .ok gy ∧ gx.merge gy = .ok g ∧
      (NIW.real mu kappa psi nu).plusGroup lvl g = .ok post ∧
      ((NIW.real mu kappa psi nu).plusGroup lvl gx >>= fun sh => sh.plusGroup lvl gy) =
        .ok post := by
  have hz : ∀ zs : List (Fin d → ℝ), (zs.length : Int) = 0 → vecSum zs = 0 := by
    intro zs h
    have : zs = [] := List.length_eq_zero_iff.mp (by omega)
    subst this; simp [vecSum]
  refine ⟨_, _, _, _, NIW.addAll_eq xs (by omega), NIW.addAll_eq ys (by omega),
    NIW.merge_eq _ _ (by unfold InInt32 int32Min int32Max; omega) _ _ _ _,
    NIW.plusGroup_eq lvl hd _ _ _ _ _ _ _ ?_ (by push_cast; positivity), ?_⟩
  · intro h
    rw [hz xs (by omega), hz ys (by omega)]; simp
  · rw [NIW.plusGroup_eq lvl hd _ _ _ _ _ _ _ (hz xs) (by push_cast; positivity), Res.ok_bind,
      NIW.plusGroup_eq lvl hd _ _ _ _ _ _ _ (hz ys) (by push_cast; positivity),
      NIW.postPsi_postPsi _ _ _ _ _ _ _ _ _ (by push_cast; positivity)]
    have hne : kappa + ((xs.length : Int) : ℝ) ≠ 0 := by push_cast; positivity
    push_cast
    push_cast at hne
    congr 1
    simp only [NIW.real, NIW.Shared.mk.injEq, XR.fin_inj]
    refine ⟨?_, by ring, trivial, by ring⟩
    congr 1
    funext i
    simp only [Pi.smul_apply, Pi.add_apply, smul_eq_mul]
    have h2 : kappa + (xs.length : ℝ) + ys.length ≠ 0 := by positivity
    rw [← add_assoc]
    field_simp
    ring

/-! ## C28, C29, C34 -/

namespace NIW

/-- Hyperparameters in range. -/
structure InRange (mu : Fin d → ℝ) (kappa : ℝ) (psi : Matrix (Fin d) (Fin d) ℝ) (nu : ℝ) :
    Prop where
  dim : 0 < d
  kappa : 0 < kappa
  psi : psi.PosDef
  nu : (d : ℝ) - 1 < nu

end NIW

theorem NIW.predictive_stats (lvl : Nat) (la : NIW.LinAlg XR) (hla : ExactLinAlg la)
    (mu : Fin d → ℝ) (kappa : ℝ) (psi : Matrix (Fin d) (Fin d) ℝ) (nu : ℝ)
    (hr : NIW.InRange mu kappa psi nu) (xs : List (Fin d → ℝ))
    (v : Fin d → ℝ) :
    let n : ℝ := xs.length
    let mean : Fin d → ℝ := (1 / (kappa + n)) • (kappa • mu + xs.sum)
    let scale : Matrix (Fin d) (Fin d) ℝ := psi + kappa • vecMulVec mu mu +
      (xs.map fun x => vecMulVec x x).sum - (kappa + n) • vecMulVec mean mean
    let dof := nu + n - d + 1
    let density := mvStudentT dof mean (((kappa + n + 1) / ((kappa + n) * dof)) • scale) v
    scale.PosDef ∧ 0 < density ∧
    (NIW.stats xs).scoreValue lvl la (NIW.real mu kappa psi nu) (NIW.vec v) =
      .ok (.fin (Real.log density)) := by
  intro n mean scale dof density
  have hk := hr.kappa
  have hkn : 0 < kappa + n := by positivity
  have hdof : 0 < dof := by
    have h0 : (0 : ℝ) ≤ n := by positivity
    have := hr.nu
    show 0 < nu + n - d + 1
    linarith
  have hscale : scale = NIW.postPsi mu kappa psi n (vecSum xs) (outerSum xs) := by
    ext i j
    rw [NIW.postPsi_apply]
    simp only [scale, mean, Matrix.add_apply, Matrix.sub_apply, Matrix.smul_apply, vecMulVec_apply,
      Pi.smul_apply, smul_eq_mul, Pi.add_apply, vecSum, outerSum]
    field_simp
  have hpd : scale.PosDef := by
    rw [hscale]; exact NIW.post_posDef mu kappa psi hk hr.psi xs
  set c := (kappa + n + 1) / ((kappa + n) * dof) with hc
  have hcpos : 0 < c := by positivity
  have hspd : (c • scale).PosDef := hpd.smul hcpos
  have hsdet := hspd.det_pos
  have hq : 0 ≤ (v - mean) ⬝ᵥ ((c • scale)⁻¹ *ᵥ (v - mean)) := by
    have := hspd.inv.posSemidef.dotProduct_mulVec_nonneg (v - mean)
    simpa using this
  set q := (v - mean) ⬝ᵥ ((c • scale)⁻¹ *ᵥ (v - mean)) with hqd
  have hg1 : 0 < (dof + d) / 2 := by positivity
  have hg2 : 0 < dof / 2 := by positivity
  have G1 := Real.Gamma_pos_of_pos hg1
  have G2 := Real.Gamma_pos_of_pos hg2
  have hpi := Real.pi_pos
  have hbase : 0 < 1 + q / dof := by positivity
  have hden : density = Real.Gamma ((dof + d) / 2) / (Real.Gamma (dof / 2) *
    (dof * Real.pi) ^ ((d : ℝ) / 2) * (c • scale).det ^ (1 / 2 : ℝ)) *
    (1 + q / dof) ^ (-(dof + d) / 2) := rfl
  have hdenpos : 0 < density := by
    rw [hden]
    have := Real.rpow_pos_of_pos (mul_pos hdof hpi) ((d : ℝ) / 2)
    have := Real.rpow_pos_of_pos hsdet (1 / 2)
    have := Real.rpow_pos_of_pos hbase (-(dof + d) / 2)
    positivity
  refine ⟨hpd, hdenpos, ?_⟩
  have hz : (xs.length : Int) = 0 → vecSum xs = 0 := by
    intro h
    have : xs = [] := List.length_eq_zero_iff.mp (by omega)
    subst this; simp [vecSum]
  rw [NIW.Group.scoreValue, NIW.plusGroup_eq lvl hr.dim _ _ _ _ _ _ _ hz (by push_cast; positivity)]
  simp only [Res.ok_bind, Res.pure_eq, Res.ok.injEq, NIW.Scorer.eval, Int.cast_natCast]
  rw [show (kappa + (xs.length : ℝ)) = kappa + n from rfl, show nu + (xs.length : ℝ) = nu + n from rfl,
    show NIW.postPsi mu kappa psi (xs.length : ℝ) (vecSum xs) (outerSum xs) = scale from hscale.symm]
  simp only [XR.ofInt_eq, XR.lit_eq, XR.fin_sub, XR.fin_add, XR.fin_mul]
  rw [show nu + n - ((d : Int) : ℝ) + ((1 : Int) : ℝ) / ((1 : ℕ) : ℝ) = dof by simp [dof],
    show ((1 : Int) : ℝ) / ((1 : ℕ) : ℝ) = 1 by simp]
  have hsig : (fun i j => XR.fin (scale i j * (kappa + n + 1)) / XR.fin ((kappa + n) * dof)) =
      NIW.mat (c • scale) := by
    funext i j
    rw [XR.fin_div _ _ (by positivity)]
    show _ = XR.fin (c * scale i j)
    rw [XR.fin_inj, hc]; ring
  rw [show (fun i j => XR.fin (scale i j * (kappa + n + 1)) / XR.fin ((kappa + n) * dof) :
    NIW.Mat XR d) = NIW.mat (c • scale) from hsig]
  have hdiff : (fun i => NIW.vec v i - NIW.vec ((1 / (kappa + n)) • (kappa • mu + vecSum xs)) i :
      NIW.Vec XR d) = NIW.vec (v - mean) := by
    funext i; rw [XR.fin_sub]; rfl
  simp only [NIW.scoreMvStudentT]
  rw [hla.inv _ hsdet.ne', hla.det, hdiff]
  rw [show (fun i j => XR.fin ((c • scale)⁻¹ i j)) = NIW.mat (c • scale)⁻¹ from rfl,
    NIW.mulVec_eq, NIW.dot_eq, ← hqd, XR.log_fin hsdet, XR.log_fin hdof]
  simp only [XR.ofInt_eq, XR.lit_eq, XR.logPi_eq, XR.fin_add, Int.cast_natCast, Int.cast_one,
    Nat.cast_one, div_one, Int.cast_ofNat, Nat.cast_ofNat]
  rw [XR.fin_div _ _ two_ne_zero, XR.fin_div _ _ two_ne_zero, XR.fin_div _ _ hdof.ne']
  simp only [XR.fin_add, XR.fin_mul, XR.fin_sub]
  rw [XR.lgamma_fin (by positivity), XR.lgamma_fin hg2, XR.log_fin (by
    have : 1 / dof * q = q / dof := by ring
    rw [this]; exact hbase)]
  simp only [XR.fin_add, XR.fin_mul, XR.fin_sub, XR.fin_inj]
  have P1 := Real.rpow_pos_of_pos (mul_pos hdof hpi) ((d : ℝ) / 2)
  have P2 := Real.rpow_pos_of_pos hsdet (1 / 2)
  have P3 := Real.rpow_pos_of_pos hbase (-(dof + d) / 2)
  rw [hden, Real.log_mul (by positivity) P3.ne', Real.log_div G1.ne' (by positivity),
    Real.log_mul (by positivity) P2.ne', Real.log_mul G2.ne' P1.ne',
    Real.log_rpow (mul_pos hdof hpi), Real.log_rpow hsdet, Real.log_rpow hbase,
    Real.log_mul hdof.ne' hpi.ne',
    show dof / 2 + (d : ℝ) / 2 = (dof + d) / 2 by ring, show 1 / dof * q = q / dof by ring]
  push_cast
  ring

/-- **C34, C41 (predictive).** The predictive score of a value given a data set is the
log of the multivariate Student t density at the textbook posterior parameters. -/
theorem C41_predictive (lvl : Nat) (la : NIW.LinAlg XR) (hla : ExactLinAlg la)
    (mu : Fin d → ℝ) (kappa : ℝ) (psi : Matrix (Fin d) (Fin d) ℝ) (nu : ℝ)
    (hr : NIW.InRange mu kappa psi nu) (xs : List (Fin d → ℝ)) (hl : xs.length ≤ 2147483647)
    (v : Fin d → ℝ) :
    let n : ℝ := xs.length
    let mean : Fin d → ℝ := (1 / (kappa + n)) • (kappa • mu + xs.sum)
    let scale : Matrix (Fin d) (Fin d) ℝ := psi + kappa • vecMulVec mu mu +
      (xs.map fun x => vecMulVec x x).sum - (kappa + n) • vecMulVec mean mean
    let dof := nu + n - d + 1
    let density := mvStudentT dof mean (((kappa + n + 1) / ((kappa + n) * dof)) • scale) v
    scale.PosDef ∧ 0 < density ∧
    ∃ g, addAll NIW.opsReal (NIW.mk 0 0 0) xs = .ok g ∧
      g.scoreValue lvl la (NIW.real mu kappa psi nu) (NIW.vec v) =
        .ok (.fin (Real.log density)) := by
  obtain ⟨h1, h2, h3⟩ := NIW.predictive_stats lvl la hla mu kappa psi nu hr xs v
  exact ⟨h1, h2, _, NIW.addAll_eq xs hl, h3⟩

namespace NIW

/-- The data score. -/
noncomputable def logMarginal (mu : Fin d → ℝ) (kappa : ℝ) (psi : Matrix (Fin d) (Fin d) ℝ)
    (nu : ℝ) (xs : List (Fin d → ℝ)) : ℝ :=
  (∑ j ∈ Finset.range d, Real.log (Real.Gamma ((nu + xs.length) / 2 - j / 2)))
    + nu / 2 * Real.log psi.det - xs.length * d / 2 * Real.log Real.pi
    - (∑ j ∈ Finset.range d, Real.log (Real.Gamma (nu / 2 - j / 2)))
    - (nu + xs.length) / 2 *
      Real.log (postPsi mu kappa psi xs.length (vecSum xs) (outerSum xs)).det
    + d / 2 * Real.log (kappa / (kappa + xs.length))

theorem scoreData_eq (lvl : Nat) (la : LinAlg XR) (hla : ExactLinAlg la)
    (mu : Fin d → ℝ) (kappa : ℝ) (psi : Matrix (Fin d) (Fin d) ℝ) (nu : ℝ)
    (hr : InRange mu kappa psi nu) (xs : List (Fin d → ℝ)) (hl : xs.length * d < 4294967296) :
    (stats xs).scoreData lvl la (real mu kappa psi nu) =
      .ok (.fin (logMarginal mu kappa psi nu xs)) := by
  have hk := hr.kappa
  have hnu := hr.nu
  have h0 : (0 : ℝ) ≤ xs.length := by positivity
  have hz : (xs.length : Int) = 0 → vecSum xs = 0 := by
    intro h
    have : xs = [] := List.length_eq_zero_iff.mp (by omega)
    subst this; simp [vecSum]
  rw [Group.scoreData, plusGroup_eq lvl hr.dim _ _ _ _ _ _ _ hz (by push_cast; positivity)]
  simp only [Res.ok_bind, XR.lit_eq, XR.fin_mul]
  rw [lmultigamma_eq lvl hr.dim (by push_cast; linarith), Res.ok_bind,
    lmultigamma_eq lvl hr.dim (by push_cast; linarith)]
  simp only [Res.ok_bind, Res.pure_eq, Res.ok.injEq]
  have hd1 := hr.psi.det_pos
  have hd2 := (post_posDef mu kappa psi hk hr.psi xs).det_pos
  rw [hla.det, hla.det, XR.log_fin hd1, show (((xs.length : Int) : ℝ)) = (xs.length : ℝ) by simp,
    XR.log_fin hd2, XR.fin_div _ _ (by positivity), XR.log_fin (by positivity)]
  have hm : ((xs.length : Int) * (d : Int)) % 4294967296 = ((xs.length * d : ℕ) : Int) := by
    push_cast
    rw [Int.emod_eq_of_lt (by positivity) (by exact_mod_cast hl)]
  rw [hm]
  simp only [XR.ofInt_eq, XR.logPi_eq, XR.fin_mul, XR.fin_add, XR.fin_sub, XR.fin_inj]
  push_cast
  rw [show (nu + (xs.length : ℝ)) * (1 / 2) = (nu + xs.length) / 2 by ring,
    show nu * (1 / 2) = nu / 2 by ring]
  unfold logMarginal
  ring

theorem logMarginal_nil {mu : Fin d → ℝ} {kappa : ℝ} {psi : Matrix (Fin d) (Fin d) ℝ} {nu : ℝ}
    (hr : InRange mu kappa psi nu) : logMarginal mu kappa psi nu [] = 0 := by
  have : postPsi mu kappa psi 0 (vecSum []) (outerSum []) = psi := by
    ext i j
    have := hr.kappa.ne'
    simp only [postPsi_apply, vecSum, outerSum, List.sum_nil, List.map_nil, Pi.zero_apply,
      Matrix.zero_apply, add_zero]
    field_simp; ring
  simp [logMarginal, this, hr.kappa.ne']

theorem logMarginal_step {mu : Fin d → ℝ} {kappa : ℝ} {psi : Matrix (Fin d) (Fin d) ℝ} {nu : ℝ}
    (hr : InRange mu kappa psi nu) (xs : List (Fin d → ℝ)) (v : Fin d → ℝ)
    (hpd : (psi + kappa • vecMulVec mu mu + (xs.map fun x => vecMulVec x x).sum -
      (kappa + xs.length) • vecMulVec ((1 / (kappa + (xs.length : ℝ))) • (kappa • mu + xs.sum))
        ((1 / (kappa + (xs.length : ℝ))) • (kappa • mu + xs.sum))).PosDef) :
    logMarginal mu kappa psi nu (xs ++ [v]) = logMarginal mu kappa psi nu xs +
      Real.log (mvStudentT (nu + xs.length - d + 1)
        ((1 / (kappa + (xs.length : ℝ))) • (kappa • mu + xs.sum))
        (((kappa + xs.length + 1) / ((kappa + xs.length) * (nu + xs.length - d + 1))) •
          (psi + kappa • vecMulVec mu mu + (xs.map fun x => vecMulVec x x).sum -
            (kappa + xs.length) • vecMulVec
              ((1 / (kappa + (xs.length : ℝ))) • (kappa • mu + xs.sum))
              ((1 / (kappa + (xs.length : ℝ))) • (kappa • mu + xs.sum)))) v) := by
  unfold logMarginal
  have hk := hr.kappa
  have hnu := hr.nu
  have h0 : (0 : ℝ) ≤ xs.length := by positivity
  set n : ℝ := (xs.length : ℝ) with hn
  set K := kappa + n with hK
  have hKpos : 0 < K := by positivity
  set mean : Fin d → ℝ := (1 / K) • (kappa • mu + xs.sum) with hmean
  set scale := NIW.postPsi mu kappa psi n (vecSum xs) (outerSum xs) with hscale
  have hscale' : psi + kappa • vecMulVec mu mu + (xs.map fun x => vecMulVec x x).sum -
      K • vecMulVec mean mean = scale := by
    ext i j
    rw [hscale, NIW.postPsi_apply]
    simp only [hmean, Matrix.add_apply, Matrix.sub_apply, Matrix.smul_apply, vecMulVec_apply,
      Pi.smul_apply, smul_eq_mul, Pi.add_apply, vecSum, outerSum]
    field_simp
    ring
  rw [hscale'] at hpd ⊢
  set dof := nu + n - d + 1 with hdof
  have hdofpos : 0 < dof := by linarith
  set c := (K + 1) / (K * dof) with hc
  have hcpos : 0 < c := by positivity
  have hdet := hpd.det_pos
  -- the posterior of the larger data set
  have hpost : NIW.postPsi mu kappa psi ((xs ++ [v]).length : ℝ) (vecSum (xs ++ [v]))
      (outerSum (xs ++ [v])) = scale + vecMulVec ((K / (K + 1)) • (v - mean)) (v - mean) := by
    rw [← NIW.postPsi_single mean K scale v (by positivity), hscale, hmean,
      show (1 / K) • (kappa • mu + xs.sum) = (1 / (kappa + n)) • (kappa • mu + vecSum xs) from rfl,
      NIW.postPsi_postPsi _ _ _ _ _ _ _ _ _ hKpos.ne']
    simp [vecSum, outerSum, hn]
  have hq0 : 0 ≤ (v - mean) ⬝ᵥ (scale⁻¹ *ᵥ (v - mean)) := by
    simpa using hpd.inv.posSemidef.dotProduct_mulVec_nonneg (v - mean)
  set q := (v - mean) ⬝ᵥ (scale⁻¹ *ᵥ (v - mean)) with hq
  have hinv : (c • scale)⁻¹ = c⁻¹ • scale⁻¹ := by
    have := Matrix.inv_smul' scale (Units.mk0 c hcpos.ne') (isUnit_iff_ne_zero.mpr hdet.ne')
    rw [show (c • scale) = Units.mk0 c hcpos.ne' • scale from rfl, this]
    rfl
  have hqq : (v - mean) ⬝ᵥ ((c • scale)⁻¹ *ᵥ (v - mean)) = c⁻¹ * q := by
    rw [hinv, Matrix.smul_mulVec, dotProduct_smul, smul_eq_mul]
  have hdc : (c • scale).det = c ^ d * scale.det := by
    rw [Matrix.det_smul, Fintype.card_fin]
  rw [hpost, NIW.det_single _ hdet.ne', ← hq]
  have hsh := NIW.sum_shift ((nu + n) / 2) d
  have hlen : ((xs ++ [v]).length : ℝ) = n + 1 := by simp [hn]
  rw [hlen, show (nu + (n + 1)) / 2 = (nu + n) / 2 + 1 / 2 by ring, ← add_assoc]
  rw [mvStudentT, hqq, hdc]
  have G1 : 0 < Real.Gamma ((dof + d) / 2) := Real.Gamma_pos_of_pos (by positivity)
  have G2 : 0 < Real.Gamma (dof / 2) := Real.Gamma_pos_of_pos (by positivity)
  have hpi := Real.pi_pos
  have hcd : 0 < c ^ d * scale.det := by positivity
  have hbase : 0 < 1 + c⁻¹ * q / dof := by positivity
  have hbase' : 0 < 1 + K / (K + 1) * q := by positivity
  have hlogc : Real.log c = Real.log (K + 1) - (Real.log K + Real.log dof) := by
    rw [hc, Real.log_div (by positivity) (by positivity), Real.log_mul hKpos.ne' hdofpos.ne']
  have P1 := Real.rpow_pos_of_pos (mul_pos hdofpos hpi) ((d : ℝ) / 2)
  have P2 := Real.rpow_pos_of_pos hcd (1 / 2)
  have P3 := Real.rpow_pos_of_pos hbase (-(dof + d) / 2)
  rw [Real.log_mul (by positivity) P3.ne', Real.log_div G1.ne' (by positivity),
    Real.log_mul (by positivity) P2.ne', Real.log_mul G2.ne' P1.ne',
    Real.log_rpow (mul_pos hdofpos hpi), Real.log_rpow hcd, Real.log_rpow hbase,
    Real.log_mul hdofpos.ne' hpi.ne', Real.log_mul (by positivity) hdet.ne', Real.log_pow,
    Real.log_mul hdet.ne' hbase'.ne',
    show 1 + c⁻¹ * q / dof = 1 + K / (K + 1) * q by rw [hc]; field_simp, hlogc,
    Real.log_div hk.ne' hKpos.ne', Real.log_div hk.ne' (by positivity),
    show kappa + n + 1 = K + 1 from rfl]
  rw [show (nu + n) / 2 + 1 / 2 = (dof + d) / 2 by rw [hdof]; ring,
    show (dof + (d : ℝ)) / 2 - d / 2 = dof / 2 by ring] at hsh
  rw [show (nu + n) / 2 + 1 / 2 = (dof + d) / 2 by rw [hdof]; ring]
  have hnn : nu + n = dof + d - 1 := by rw [hdof]; ring
  rw [hnn] at hsh ⊢
  linear_combination hsh

end NIW

/-- **C28, C41 (chain rule).** Adding a value to a data set increases the data score by
the predictive score of the value, in every dimension, for every positive definite scale
matrix, as long as `count * dim` fits in 32 bits. -/
theorem C41_step (lvl : Nat) (la : NIW.LinAlg XR) (hla : ExactLinAlg la)
    (mu : Fin d → ℝ) (kappa : ℝ) (psi : Matrix (Fin d) (Fin d) ℝ) (nu : ℝ)
    (hr : NIW.InRange mu kappa psi nu) (xs : List (Fin d → ℝ)) (v : Fin d → ℝ)
    (hl : xs.length + 1 ≤ 2147483647) (hl' : (xs.length + 1) * d < 4294967296) :
    ∃ g g' a b, addAll NIW.opsReal (NIW.mk 0 0 0) xs = .ok g ∧ g.addValue (NIW.vec v) = .ok g' ∧
      g.scoreData lvl la (NIW.real mu kappa psi nu) = .ok (.fin a) ∧
      g.scoreValue lvl la (NIW.real mu kappa psi nu) (NIW.vec v) = .ok (.fin b) ∧
      g'.scoreData lvl la (NIW.real mu kappa psi nu) = .ok (.fin (a + b)) := by
  obtain ⟨hpd, hpos, g, hg, hv⟩ := C41_predictive lvl la hla mu kappa psi nu hr xs (by omega) v
  rw [NIW.addAll_eq xs (by omega)] at hg
  obtain rfl := Res.ok.inj hg
  have hadd : (NIW.stats xs).addValue (NIW.vec v) = .ok (NIW.stats (xs ++ [v])) := by
    rw [NIW.add_eq _ (by unfold InInt32 int32Min int32Max; omega)]
    simp [vecSum, outerSum]
  refine ⟨_, _, _, _, NIW.addAll_eq xs (by omega), hadd,
    NIW.scoreData_eq lvl la hla mu kappa psi nu hr xs 
      (lt_of_le_of_lt (Nat.mul_le_mul_right d (Nat.le_succ _)) hl'), hv, ?_⟩
  rw [NIW.scoreData_eq lvl la hla mu kappa psi nu hr (xs ++ [v]) (by
    rw [List.length_append]; exact hl'), NIW.logMarginal_step hr xs v hpd]

/-- **C28, C41.** The data score of any data set is the sum of the predictive scores of its
values, each given those before it; it starts from 0. -/
theorem C41_chain (lvl : Nat) (la : NIW.LinAlg XR) (hla : ExactLinAlg la)
    (mu : Fin d → ℝ) (kappa : ℝ) (psi : Matrix (Fin d) (Fin d) ℝ) (nu : ℝ)
    (hr : NIW.InRange mu kappa psi nu) (xs : List (Fin d → ℝ)) (hl : xs.length ≤ 2147483647)
    (hl' : xs.length * d < 4294967296) :
    ∃ g s, addAll NIW.opsReal (NIW.mk 0 0 0) xs = .ok g ∧
      g.scoreData lvl la (NIW.real mu kappa psi nu) = .ok s ∧
      sequentialScore NIW.opsReal
        (fun g v => g.scoreValue lvl la (NIW.real mu kappa psi nu) (NIW.vec v))
        (NIW.mk 0 0 0) xs (.fin 0) = .ok s := by
  have main : ∀ (ys zs : List (Fin d → ℝ)) (a : XR), zs ++ ys = xs →
      (NIW.stats zs).scoreData lvl la (NIW.real mu kappa psi nu) = .ok a →
      ∃ s, (NIW.stats xs).scoreData lvl la (NIW.real mu kappa psi nu) = .ok s ∧
        sequentialScore NIW.opsReal
          (fun g v => g.scoreValue lvl la (NIW.real mu kappa psi nu) (NIW.vec v))
          (NIW.stats zs) ys a = .ok s := by
    intro ys
    induction ys with
    | nil => intro zs a h ha; simp at h; subst h; exact ⟨a, ha, rfl⟩
    | cons v ys ih =>
      intro zs a h ha
      have hlen : zs.length + 1 ≤ xs.length := by rw [← h]; simp
      obtain ⟨g, g', x, y, e1, e2, e3, e4, e5⟩ := C41_step lvl la hla mu kappa psi nu hr zs v
        (by omega) (lt_of_le_of_lt (Nat.mul_le_mul_right d hlen) hl')
      rw [NIW.addAll_eq zs (by omega)] at e1
      obtain rfl := Res.ok.inj e1
      have hg' : g' = NIW.stats (zs ++ [v]) := by
        rw [NIW.add_eq _ (by unfold InInt32 int32Min int32Max; omega)] at e2
        rw [← Res.ok.inj e2]; simp [vecSum, outerSum]
      subst hg'
      rw [ha] at e3
      obtain rfl := Res.ok.inj e3
      obtain ⟨s, hs1, hs2⟩ := ih (zs ++ [v]) _ (by simpa using h) e5
      refine ⟨s, hs1, ?_⟩
      simp only [sequentialScore]
      rw [e4, Res.ok_bind]
      show (NIW.stats zs).addValue (NIW.vec v) >>= _ = _
      rw [e2, Res.ok_bind, XR.fin_add]
      exact hs2
  have h0 : (NIW.stats ([] : List (Fin d → ℝ))).scoreData lvl la (NIW.real mu kappa psi nu) =
      .ok (.fin 0) := by
    rw [NIW.scoreData_eq lvl la hla mu kappa psi nu hr [] (by simp)]
    rw [NIW.logMarginal_nil hr]
  obtain ⟨s, h1, h2⟩ := main xs [] _ (by simp) h0
  refine ⟨_, s, NIW.addAll_eq xs hl, h1, ?_⟩
  have e : (NIW.stats ([] : List (Fin d → ℝ))) = NIW.mk 0 0 0 := by simp [vecSum, outerSum]
  rw [← e]; exact h2

/-- **C29, C41 (exchangeability).** Adding the same values in another order gives the same
group, hence the same scores. -/
theorem C41_exchangeable (lvl : Nat) (la : NIW.LinAlg XR) (sh : NIW.Shared XR d)
    (xs ys : List (Fin d → ℝ)) (hp : xs.Perm ys) (hl : xs.length ≤ 2147483647) :
    ∃ gx gy, addAll NIW.opsReal (NIW.mk 0 0 0) xs = .ok gx ∧
      addAll NIW.opsReal (NIW.mk 0 0 0) ys = .ok gy ∧
      gx.scoreData lvl la sh = gy.scoreData lvl la sh ∧
      ∀ v, gx.scoreValue lvl la sh v = gy.scoreValue lvl la sh v := by
  obtain ⟨g, e1, e2⟩ := C41_order (xs.map .add) (ys.map .add) (by simpa using hl)
    (by simpa using hp.length_eq ▸ hl) (net_perm hp)
  rw [← addAll_eq_runGroup] at e1 e2
  exact ⟨g, g, e1, e2, rfl, fun _ => rfl⟩

/-! ## Findings -/

/-- **C41, finding.** `score_data` multiplies the signed count with the unsigned dimension:
for a group in debt (count -1, dimension 1) the coefficient is `2^32 - 1` instead of
`-1`.  Here all terms but those with the coefficient and the determinants vanish. -/
theorem C41_negative_count (lvl : Nat) (la : NIW.LinAlg XR) (hla : ExactLinAlg la) :
    ∃ a : ℝ, (NIW.mk (-1) (0 : Fin 1 → ℝ) 0).scoreData lvl la (NIW.real 0 2 1 2) =
        .ok (.fin (a - 4294967295 / 2 * Real.log Real.pi)) ∧
      a = Real.log (Real.Gamma (1 / 2)) - Real.log (Real.Gamma 1) + 1 / 2 * Real.log 2 := by
  refine ⟨_, ?_, rfl⟩
  rw [NIW.Group.scoreData, NIW.plusGroup_eq lvl one_pos _ _ _ _ _ _ _ (by simp) (by norm_num)]
  simp only [Res.ok_bind, XR.lit_eq, XR.fin_mul]
  rw [NIW.lmultigamma_eq lvl one_pos (by norm_num), Res.ok_bind,
    NIW.lmultigamma_eq lvl one_pos (by norm_num)]
  simp only [Res.ok_bind, Res.pure_eq, Res.ok.injEq]
  have e : NIW.postPsi (0 : Fin 1 → ℝ) 2 1 ((-1 : Int) : ℝ) 0 0 = 1 := by
    ext i j; simp [NIW.postPsi_apply]
  rw [e, hla.det, Matrix.det_one, XR.log_fin one_pos, XR.fin_div _ _ (by norm_num),
    XR.log_fin (by norm_num)]
  simp only [XR.ofInt_eq, XR.logPi_eq, XR.fin_mul, XR.fin_add, XR.fin_sub, XR.fin_inj]
  norm_num
  ring

/-! ## Non-vacuity -/

open Classical in
/-- An exact determinant and inverse exist. -/
theorem NIW.exists_exactLinAlg : ∃ la : NIW.LinAlg XR, ExactLinAlg la := by
  let back : {d : Nat} → NIW.Mat XR d → Matrix (Fin d) (Fin d) ℝ := fun m i j =>
    match m i j with
    | .fin r => r
    | .nan => 0
  have hb : ∀ {d : Nat} (M : Matrix (Fin d) (Fin d) ℝ),
      back (fun i j => .fin (M i j)) = M := fun M => rfl
  refine ⟨⟨fun m => .fin (back m).det, fun m i j => .fin ((back m)⁻¹ i j)⟩, ?_, ?_⟩
  · intro d M; simp only [hb]
  · intro d M _; simp only [hb]

/-- Hyperparameters in range: dimension 3, a scale matrix that is not diagonal. -/
example : NIW.InRange (![1, 2, 3] : Fin 3 → ℝ) 0.5 (1 + vecMulVec ![1, 1, 0] ![1, 1, 0]) 3 := by
  refine ⟨by norm_num, by norm_num, ?_, by norm_num⟩
  have := NIW.posDef_single (1 : Matrix (Fin 3) (Fin 3) ℝ) Matrix.PosDef.one 1 zero_le_one
    ![1, 1, 0]
  simpa using this

example : InInt32 (-7) ∧ InInt32 (-7 + 1) ∧ InInt32 (-7 - 1) := by decide

end Dist
