import Verif.Lemmas.VectorMath
import Verif.Model.Random
import Verif.Model.Mixture

/-! # Vector kernels: property C52

Buffers are written `xs ++ rest`, where `xs` are the `size` elements the kernel is asked to
work on and `rest` is whatever lies behind them. -/

namespace Dist

open FloatOps FloatNotation

section generic
variable {F : Type} [FloatOps F]

/-- **C52, in-place kernels.** For every length and every float type, each kernel applies
its scalar operation to corresponding elements, leaves everything behind `size` as it was
and does not depend on what lies behind `size` in the inputs. -/
theorem C52_elementwise (io in1 in2 rest rest1 rest2 : List F) (c : F)
    (h1 : in1.length = io.length) (h2 : in2.length = io.length) :
    VectorMath.zero io.length (io ++ rest) = .ok (io.map (fun _ => ofInt 0) ++ rest) ∧
    VectorMath.shift io.length (io ++ rest) c = .ok (io.map (fun z => z + c) ++ rest) ∧
    VectorMath.scale io.length (io ++ rest) c = .ok (io.map (fun z => z * c) ++ rest) ∧
    VectorMath.negate io.length (io ++ rest) = .ok (io.map (fun z => -z) ++ rest) ∧
    VectorMath.add io.length (io ++ rest) (in1 ++ rest1) =
      .ok (List.zipWith (fun z x => z + x) io in1 ++ rest) ∧
    VectorMath.negateAndAdd io.length (io ++ rest) (in1 ++ rest1) =
      .ok (List.zipWith (fun z x => x - z) io in1 ++ rest) ∧
    VectorMath.addAdd io.length (io ++ rest) (in1 ++ rest1) (in2 ++ rest2) =
      .ok (List.zipWith (fun z p => z + (p.1 + p.2)) io (in1.zip in2) ++ rest) ∧
    VectorMath.addSubtract io.length (io ++ rest) (in1 ++ rest1) (in2 ++ rest2) =
      .ok (List.zipWith (fun z p => z + (p.1 - p.2)) io (in1.zip in2) ++ rest) ∧
    VectorMath.addSubtractScalar io.length (io ++ rest) c (in2 ++ rest2) =
      .ok (List.zipWith (fun z y => z + (c - y)) io in2 ++ rest) ∧
    VectorMath.multiplyAdd io.length (io ++ rest) (in1 ++ rest1) (in2 ++ rest2) =
      .ok (List.zipWith (fun z p => z + p.1 * p.2) io (in1.zip in2) ++ rest) := by
  have one : ∀ (g : F → F) (body : Nat → List F → Res (List F)),
      (∀ k io z, io[k]? = some z → body k io = .ok (io.set k (g z))) →
      forLoop body 0 io.length (io ++ rest) = .ok (io.map g ++ rest) := by
    intro g body h
    rw [← zipWith_replicate_apply g io]
    refine forLoop_update0 body _ io rest (by simp) ?_
    intro k f hf io' z hz
    rw [List.getElem?_replicate] at hf
    split_ifs at hf
    simp only [Option.some.injEq] at hf
    rw [← hf]; exact h k io' z hz
  have two : ∀ {α : Type} (xs : List α) (g : α → F → F) (body : Nat → List F → Res (List F)),
      xs.length = io.length →
      (∀ k x, xs[k]? = some x → ∀ io z, io[k]? = some z → body k io = .ok (io.set k (g x z))) →
      forLoop body 0 io.length (io ++ rest) =
        .ok (List.zipWith (fun z x => g x z) io xs ++ rest) := by
    intro α xs g body hl h
    rw [← zipWith_map_apply g xs io]
    refine forLoop_update0 body _ io rest (by simpa using hl) ?_
    intro k f hf io' z hz
    rw [List.getElem?_map, Option.map_eq_some_iff] at hf
    obtain ⟨x, hx, rfl⟩ := hf
    exact h k x hx io' z hz
  have zipget : ∀ {k : Nat} {p : F × F}, (in1.zip in2)[k]? = some p →
      in1[k]? = some p.1 ∧ in2[k]? = some p.2 := by
    intro k p hp
    rw [List.getElem?_zip_eq_some] at hp
    exact hp
  refine ⟨?_, ?_, ?_, ?_, ?_, ?_, ?_, ?_, ?_, ?_⟩
  · exact one _ _ fun k io z hz => setAt_of_getElem? hz
  · exact one _ _ fun k io z hz => by
      rw [getAt_eq_ok.mpr hz, Res.ok_bind]; exact setAt_of_getElem? hz
  · exact one _ _ fun k io z hz => by
      rw [getAt_eq_ok.mpr hz, Res.ok_bind]; exact setAt_of_getElem? hz
  · exact one _ _ fun k io z hz => by
      rw [getAt_eq_ok.mpr hz, Res.ok_bind]; exact setAt_of_getElem? hz
  · exact two in1 (fun x z => z + x) _ h1 fun k x hx io z hz => by
      rw [getAt_append hx, Res.ok_bind, getAt_eq_ok.mpr hz, Res.ok_bind]
      exact setAt_of_getElem? hz
  · exact two in1 (fun x z => x - z) _ h1 fun k x hx io z hz => by
      rw [getAt_append hx, Res.ok_bind, getAt_eq_ok.mpr hz, Res.ok_bind]
      exact setAt_of_getElem? hz
  · exact two (in1.zip in2) (fun p z => z + (p.1 + p.2)) _ (by simp [h1, h2])
      fun k x hx io z hz => by
      rw [getAt_append (zipget hx).1, Res.ok_bind, getAt_append (zipget hx).2, Res.ok_bind,
        getAt_eq_ok.mpr hz, Res.ok_bind]
      exact setAt_of_getElem? hz
  · exact two (in1.zip in2) (fun p z => z + (p.1 - p.2)) _ (by simp [h1, h2])
      fun k x hx io z hz => by
      rw [getAt_append (zipget hx).1, Res.ok_bind, getAt_append (zipget hx).2, Res.ok_bind,
        getAt_eq_ok.mpr hz, Res.ok_bind]
      exact setAt_of_getElem? hz
  · exact two in2 (fun y z => z + (c - y)) _ h2 fun k x hx io z hz => by
      rw [getAt_append hx, Res.ok_bind, getAt_eq_ok.mpr hz, Res.ok_bind]
      exact setAt_of_getElem? hz
  · exact two (in1.zip in2) (fun p z => z + p.1 * p.2) _ (by simp [h1, h2])
      fun k x hx io z hz => by
      rw [getAt_append (zipget hx).1, Res.ok_bind, getAt_append (zipget hx).2, Res.ok_bind,
        getAt_eq_ok.mpr hz, Res.ok_bind]
      exact setAt_of_getElem? hz

/-- **C52, function kernels.** `exp`, `log`, `lgamma` and `lgamma_nu`, in place and between
buffers, apply the scalar function to every element. -/
theorem C52_functions (xs out rest rest' : List F) (h : out.length = xs.length) :
    VectorMath.expTo xs.length (xs ++ rest) (out ++ rest') = .ok (xs.map exp ++ rest') ∧
    VectorMath.logTo xs.length (xs ++ rest) (out ++ rest') = .ok (xs.map log ++ rest') ∧
    VectorMath.lgammaTo xs.length (xs ++ rest) (out ++ rest') = .ok (xs.map lgamma ++ rest') ∧
    VectorMath.lgammaNuTo xs.length (xs ++ rest) (out ++ rest') = .ok (xs.map lgammaNu ++ rest') ∧
    VectorMath.exp xs.length (xs ++ rest) = .ok (xs.map exp ++ rest) ∧
    VectorMath.log xs.length (xs ++ rest) = .ok (xs.map log ++ rest) ∧
    VectorMath.lgamma xs.length (xs ++ rest) = .ok (xs.map lgamma ++ rest) ∧
    VectorMath.lgammaNu xs.length (xs ++ rest) = .ok (xs.map lgammaNu ++ rest) := by
  have two : ∀ f : F → F, VectorMath.applyTo f xs.length (xs ++ rest) (out ++ rest') =
      .ok (xs.map f ++ rest') := by
    intro f
    have hz : List.zipWith (fun f z => f z) (xs.map fun x (_ : F) => f x) out = xs.map f := by
      rw [List.zipWith_map_left]
      refine List.ext_getElem (by simp [h]) ?_
      intro i h1 h2
      simp
    rw [← hz, VectorMath.applyTo, ← h]
    refine forLoop_update0 _ _ out rest' (by simp [h]) ?_
    intro k g hg io z hz
    rw [List.getElem?_map, Option.map_eq_some_iff] at hg
    obtain ⟨x, hx, rfl⟩ := hg
    rw [getAt_append hx, Res.ok_bind]
    exact setAt_of_getElem? hz
  have inplace : ∀ f : F → F, VectorMath.applyInPlace f xs.length (xs ++ rest) =
      .ok (xs.map f ++ rest) := by
    intro f
    rw [← zipWith_replicate_apply f xs]
    refine forLoop_update0 _ _ xs rest (by simp) ?_
    intro k g hg io' z hz
    rw [List.getElem?_replicate] at hg
    split_ifs at hg
    simp only [Option.some.injEq] at hg
    rw [← hg, getAt_eq_ok.mpr hz, Res.ok_bind]
    exact setAt_of_getElem? hz
  exact ⟨two _, two _, two _, two _, inplace _, inplace _, inplace _, inplace _⟩

/-- **C52, folds.** `vector_sum` and `vector_dot` accumulate from 0 in index order;
`vector_min` and `vector_max` of a nonempty vector keep the first of the extreme elements
(in the order of the hardware comparison). -/
theorem C52_folds (x : F) (xs ys rest rest' : List F) (h : ys.length = xs.length) :
    VectorMath.sum xs.length (xs ++ rest) = .ok (xs.foldl (fun acc x => acc + x) (ofInt 0)) ∧
    VectorMath.dot xs.length (xs ++ rest) (ys ++ rest') =
      .ok ((xs.zip ys).foldl (fun acc p => acc + p.1 * p.2) (ofInt 0)) ∧
    VectorMath.min (x :: xs).length (x :: xs ++ rest) =
      .ok ((x :: xs).foldl (fun acc x => if lt x acc then x else acc) x) ∧
    VectorMath.max (x :: xs).length (x :: xs ++ rest) =
      .ok ((x :: xs).foldl (fun acc x => if lt acc x then x else acc) x) := by
  refine ⟨?_, ?_, ?_, ?_⟩
  · exact forLoop_fold _ (fun acc x => acc + x) xs 0 _ fun k x hx s => by
      rw [Nat.zero_add, getAt_append hx]; rfl
  · rw [VectorMath.dot, show xs.length = (xs.zip ys).length by simp [h]]
    refine forLoop_fold _ (fun (acc : F) (p : F × F) => acc + p.1 * p.2) (xs.zip ys) 0 _
      fun k p hp s => ?_
    rw [List.getElem?_zip_eq_some] at hp
    rw [Nat.zero_add, getAt_append hp.1, Res.ok_bind, getAt_append hp.2]; rfl
  · rw [VectorMath.min, getAt_append (x := x) (by rfl), Res.ok_bind]
    exact forLoop_fold _ (fun acc x => if lt x acc then x else acc) (x :: xs) 0 _ fun k y hy s => by
      rw [Nat.zero_add, getAt_append hy]; rfl
  · rw [VectorMath.max, getAt_append (x := x) (by rfl), Res.ok_bind]
    exact forLoop_fold _ (fun acc x => if lt acc x then x else acc) (x :: xs) 0 _ fun k y hy s => by
      rw [Nat.zero_add, getAt_append hy]; rfl

/-- **C52, finding.** With `size = 0`, `vector_min` and `vector_max` still read the first
element: undefined behaviour on an empty buffer, so "never touches elements beyond size"
fails for them. -/
theorem C52_empty_min_max (x : F) (rest : List F) :
    VectorMath.min 0 ([] : List F) = .ub ∧ VectorMath.max 0 ([] : List F) = .ub ∧
    VectorMath.min 0 (x :: rest) = .ok x ∧ VectorMath.max 0 (x :: rest) = .ok x :=
  ⟨rfl, rfl, rfl, rfl⟩

/-- **C52, what holds.** All kernels are elementwise or folds for every length and never
depend on elements beyond `size`, `vector_min` and `vector_max` for nonempty vectors.

Full statement: no kernel touches elements beyond `size`.  Missing: it is false for
`vector_min` and `vector_max` of size 0 (`C52_empty_min_max`). -/
theorem C52_partial (x : F) (io in1 in2 rest rest1 rest2 rest' : List F) (c : F)
    (h1 : in1.length = io.length) (h2 : in2.length = io.length) :
    VectorMath.add io.length (io ++ rest) (in1 ++ rest1) =
      .ok (List.zipWith (fun z x => z + x) io in1 ++ rest) ∧
    VectorMath.addSubtract io.length (io ++ rest) (in1 ++ rest1) (in2 ++ rest2) =
      .ok (List.zipWith (fun z p => z + (p.1 - p.2)) io (in1.zip in2) ++ rest) ∧
    VectorMath.scale io.length (io ++ rest) c = .ok (io.map (fun z => z * c) ++ rest) ∧
    VectorMath.exp io.length (io ++ rest) = .ok (io.map exp ++ rest) ∧
    VectorMath.sum io.length (io ++ rest) = VectorMath.sum io.length (io ++ rest') ∧
    VectorMath.min (x :: io).length (x :: io ++ rest) =
      VectorMath.min (x :: io).length (x :: io ++ rest') ∧
    VectorMath.max (x :: io).length (x :: io ++ rest) =
      VectorMath.max (x :: io).length (x :: io ++ rest') := by
  obtain ⟨_, _, e3, _, e5, _, _, e8, _, _⟩ :=
    C52_elementwise io in1 in2 rest rest1 rest2 c h1 h2
  obtain ⟨s, _, mn, mx⟩ := C52_folds x io in1 rest rest1 h1
  obtain ⟨s', _, mn', mx'⟩ := C52_folds x io in1 rest' rest1 h1
  exact ⟨e5, e8, e3, (C52_functions io io rest rest rfl).2.2.2.2.1, s.trans s'.symm,
    mn.trans mn'.symm, mx.trans mx'.symm⟩

/-- **C52, bounds.** The kernels need `size` elements: on a shorter buffer the access is
undefined behaviour, so the length hypotheses above are exactly what the caller owes. -/
theorem C52_short_buffer (io in1 : List F) (n : Nat) (c : F) (h : io.length < n) :
    VectorMath.zero n io = .ub ∧ VectorMath.shift n io c = .ub ∧ VectorMath.scale n io c = .ub ∧
    VectorMath.negate n io = .ub ∧ VectorMath.sum n io = .ub ∧
    VectorMath.add n in1 io = .ub ∧ VectorMath.add n io in1 = .ub := by
  have hlen : ∀ body : Nat → List F → Res (List F),
      (∀ i io', io'.length = io.length → body i io' = .ub ∨
        ∃ io'', body i io' = .ok io'' ∧ io''.length = io.length ∧ i < io.length) →
      forLoop body 0 n io = .ub := by
    intro body hb
    refine forLoop_ub body (fun i io' => io'.length = io.length ∧ i ≤ io.length) n 0 io
      ⟨rfl, Nat.zero_le _⟩ ?_ ?_
    · rintro i s ⟨hs, _⟩
      rcases hb i s hs with h | ⟨s', h, h1, h2⟩
      · exact .inl h
      · exact .inr ⟨s', h, h1, h2⟩
    · rintro s ⟨_, h⟩; omega
  have hget : ∀ i (f : F → F) (io' : List F), io'.length = io.length →
      (do let z ← getAt io' i; setAt io' i (f z)) = Res.ub ∨
        ∃ io'', (do let z ← getAt io' i; setAt io' i (f z)) = Res.ok io'' ∧
          io''.length = io.length ∧ i < io.length := by
    intro i f io' hl
    by_cases hi : i < io'.length
    · right
      rw [getAt_of hi, Res.ok_bind, setAt_of hi]
      exact ⟨_, rfl, by simp [hl], hl ▸ hi⟩
    · left; rw [getAt_of_ge (by omega)]; rfl
  refine ⟨?_, ?_, ?_, ?_, ?_, ?_, ?_⟩
  · refine hlen _ fun i io' hl => ?_
    by_cases hi : i < io'.length
    · right; rw [setAt_of hi]; exact ⟨_, rfl, by simp [hl], hl ▸ hi⟩
    · left; exact setAt_of_ge (by omega)
  · exact hlen _ fun i io' hl => hget i (fun z => z + c) io' hl
  · exact hlen _ fun i io' hl => hget i (fun z => z * c) io' hl
  · exact hlen _ fun i io' hl => hget i (fun z => -z) io' hl
  · refine forLoop_ub _ (fun i _ => i ≤ io.length) n 0 _ (Nat.zero_le _) ?_ (by intro _ h'; omega)
    intro i s _
    by_cases hi : i < io.length
    · right; rw [getAt_of hi]; exact ⟨_, rfl, hi⟩
    · left; rw [getAt_of_ge (by omega)]; rfl
  · refine forLoop_ub _ (fun i _ => i ≤ io.length) n 0 _ (Nat.zero_le _) ?_ (by intro _ h'; omega)
    intro i s _
    by_cases hi : i < io.length
    · rw [getAt_of hi, Res.ok_bind]
      by_cases hs : i < s.length
      · right; rw [getAt_of hs, Res.ok_bind, setAt_of hs]; exact ⟨_, rfl, hi⟩
      · left; rw [getAt_of_ge (by omega)]; rfl
    · left; rw [getAt_of_ge (by omega)]; rfl
  · refine hlen _ fun i io' hl => ?_
    by_cases hi : i < in1.length
    · rw [getAt_of hi, Res.ok_bind]; exact hget i (fun z => z + in1[i]) io' hl
    · left; rw [getAt_of_ge (by omega)]; rfl

/-- **C52, callers.** The list forms used in the models of the mixtures and samplers are
these kernels. -/
theorem C52_callers (io in1 in2 : List F) (h1 : in1.length = io.length)
    (h2 : in2.length = io.length) :
    VectorMath.sum io.length io = .ok (vectorSum io) ∧
    VectorMath.add io.length io in1 = vectorAdd io in1 ∧
    VectorMath.addSubtract io.length io in1 in2 = vectorAddSubtract io in1 in2 := by
  obtain ⟨_, _, _, _, e5, _, _, e8, _, _⟩ := C52_elementwise io in1 in2 [] [] [] (ofInt 0) h1 h2
  simp only [List.append_nil] at e5 e8
  refine ⟨?_, ?_, ?_⟩
  · have := (C52_folds (ofInt 0) io in1 [] [] h1).1
    rw [List.append_nil] at this
    rw [this]; rfl
  · rw [e5, vectorAdd]
    have : ∀ (io in1 : List F) (pre : List F), in1.length = io.length →
        accumulate (fun i => getAt (pre ++ in1) i) pre.length io =
          .ok (List.zipWith (fun z x => z + x) io in1) := by
      intro io
      induction io with
      | nil => intro in1 pre h; rfl
      | cons z io ih =>
        intro in1 pre h
        obtain ⟨x, in1, rfl⟩ : ∃ x t, in1 = x :: t := by
          cases in1 with
          | nil => simp at h
          | cons x t => exact ⟨x, t, rfl⟩
        have := ih in1 (pre ++ [x]) (by simpa using h)
        simp only [List.length_append, List.length_cons, List.length_nil, Nat.zero_add,
          List.append_assoc, List.cons_append, List.nil_append] at this
        rw [accumulate, getAt_of (by simp), Res.ok_bind, this]
        simp
    have := this io in1 [] h1
    simpa using this.symm
  · rw [e8, vectorAddSubtract]
    have : ∀ (io in1 in2 : List F) (pre1 pre2 : List F), pre2.length = pre1.length →
        in1.length = io.length → in2.length = io.length →
        accumulate (fun i => do
            let x ← getAt (pre1 ++ in1) i
            let y ← getAt (pre2 ++ in2) i
            return x - y) pre1.length io =
          .ok (List.zipWith (fun z p => z + (p.1 - p.2)) io (in1.zip in2)) := by
      intro io
      induction io with
      | nil => intro in1 in2 pre1 pre2 _ _ _; rfl
      | cons z io ih =>
        intro in1 in2 pre1 pre2 hp h1 h2
        obtain ⟨x, in1, rfl⟩ : ∃ x t, in1 = x :: t := by
          cases in1 with
          | nil => simp at h1
          | cons x t => exact ⟨x, t, rfl⟩
        obtain ⟨y, in2, rfl⟩ : ∃ x t, in2 = x :: t := by
          cases in2 with
          | nil => simp at h2
          | cons x t => exact ⟨x, t, rfl⟩
        have := ih in1 in2 (pre1 ++ [x]) (pre2 ++ [y]) (by simp [hp]) (by simpa using h1)
          (by simpa using h2)
        simp only [List.length_append, List.length_cons, List.length_nil, Nat.zero_add,
          List.append_assoc, List.cons_append, List.nil_append] at this
        have g1 : getAt (pre1 ++ x :: in1) pre1.length = .ok x := getAt_eq_ok.mpr (by simp)
        have g2 : getAt (pre2 ++ y :: in2) pre1.length = .ok y :=
          getAt_eq_ok.mpr (by rw [← hp]; simp)
        rw [accumulate, g1, Res.ok_bind, g2, Res.ok_bind, Res.pure_eq, Res.ok_bind, this]
        simp
    have := this io in1 in2 [] [] rfl h1 h2
    simpa using this.symm

end generic

/-- **C52, exact extremes.** In exact arithmetic `vector_min` and `vector_max` of a nonempty
vector return its least and greatest element. -/
theorem C52_min_max (xs rest : List ℝ) (hne : xs ≠ []) :
    ∃ lo ∈ xs, ∃ hi ∈ xs, (∀ x ∈ xs, lo ≤ x ∧ x ≤ hi) ∧
      VectorMath.min xs.length ((xs ++ rest).map XR.fin) = .ok (.fin lo) ∧
      VectorMath.max xs.length ((xs ++ rest).map XR.fin) = .ok (.fin hi) := by
  obtain ⟨x, xs, rfl⟩ := List.exists_cons_of_ne_nil hne
  have h := C52_folds (XR.fin x) (xs.map .fin) (xs.map .fin) (rest.map .fin) [] rfl
  have lo : ∀ (ys : List ℝ) (a : ℝ), ∃ m, (m = a ∨ m ∈ ys) ∧ m ≤ a ∧ (∀ y ∈ ys, m ≤ y) ∧
      (ys.map XR.fin).foldl (fun acc x => if lt x acc then x else acc) (.fin a) = .fin m := by
    intro ys
    induction ys with
    | nil => intro a; exact ⟨a, .inl rfl, le_refl a, by simp, rfl⟩
    | cons y ys ih =>
      intro a
      simp only [List.map_cons, List.foldl_cons, XR.lt_fin]
      by_cases hya : y < a
      · obtain ⟨m, h1, h2, h3, h4⟩ := ih y
        refine ⟨m, ?_, by linarith, ?_, by rw [if_pos hya]; exact h4⟩
        · rcases h1 with rfl | h1
          · exact .inr (by simp)
          · exact .inr (by simp [h1])
        · intro z hz
          rcases List.mem_cons.mp hz with rfl | hz
          · exact h2
          · exact h3 z hz
      · obtain ⟨m, h1, h2, h3, h4⟩ := ih a
        refine ⟨m, h1.imp id (fun h => by simp [h]), h2, ?_, by rw [if_neg hya]; exact h4⟩
        intro z hz
        rcases List.mem_cons.mp hz with rfl | hz
        · linarith
        · exact h3 z hz
  have hi : ∀ (ys : List ℝ) (a : ℝ), ∃ m, (m = a ∨ m ∈ ys) ∧ a ≤ m ∧ (∀ y ∈ ys, y ≤ m) ∧
      (ys.map XR.fin).foldl (fun acc x => if lt acc x then x else acc) (.fin a) = .fin m := by
    intro ys
    induction ys with
    | nil => intro a; exact ⟨a, .inl rfl, le_refl a, by simp, rfl⟩
    | cons y ys ih =>
      intro a
      simp only [List.map_cons, List.foldl_cons, XR.lt_fin]
      by_cases hya : a < y
      · obtain ⟨m, h1, h2, h3, h4⟩ := ih y
        refine ⟨m, ?_, by linarith, ?_, by rw [if_pos hya]; exact h4⟩
        · rcases h1 with rfl | h1
          · exact .inr (by simp)
          · exact .inr (by simp [h1])
        · intro z hz
          rcases List.mem_cons.mp hz with rfl | hz
          · exact h2
          · exact h3 z hz
      · obtain ⟨m, h1, h2, h3, h4⟩ := ih a
        refine ⟨m, h1.imp id (fun h => by simp [h]), h2, ?_, by rw [if_neg hya]; exact h4⟩
        intro z hz
        rcases List.mem_cons.mp hz with rfl | hz
        · linarith
        · exact h3 z hz
  obtain ⟨a, a1, a2, a3, a4⟩ := lo (x :: xs) x
  obtain ⟨b, b1, b2, b3, b4⟩ := hi (x :: xs) x
  refine ⟨a, by rcases a1 with rfl | h <;> simp_all, b, by rcases b1 with rfl | h <;> simp_all,
    fun y hy => ⟨a3 y hy, b3 y hy⟩, ?_, ?_⟩
  · have := h.2.2.1
    simp only [List.length_cons, List.length_map, List.map_append, List.map_cons,
      List.cons_append] at this ⊢
    rw [this]; exact congrArg Res.ok a4
  · have := h.2.2.2
    simp only [List.length_cons, List.length_map, List.map_append, List.map_cons,
      List.cons_append] at this ⊢
    rw [this]; exact congrArg Res.ok b4

/-- Non-triviality: adding three elements of a longer buffer. -/
example (a b c d x y z w : XR) :
    VectorMath.add 3 [a, b, c, d] [x, y, z, w] = .ok [a + x, b + y, c + z, d] := rfl

end Dist
