import Verif.Spec.FileUtil
import Mathlib.Data.List.Infix

/-! # C97: working directories and temporary directories -/

namespace Dist

open FileUtil Spec.FileUtil

namespace FileUtil

theorem bind_eq {σ α β : Type} (x : Act σ α) (f : α → Act σ β) (s : σ) :
    (x >>= f) s = match x s with
      | .ok s a => f a s
      | .fail s => .fail s
      | .ub => .ub := (rfl)

theorem pure_eq {σ α : Type} (a : α) (s : σ) : (pure a : Act σ α) s = .ok s a := (rfl)
theorem get_eq {σ : Type} (s : σ) : (Act.get : Act σ σ) s = .ok s s := (rfl)

theorem getcwd_ok {w : World} (h : IsDir w w.cwd) : getcwd w = .ok w w.cwd := if_pos h

theorem osChdir_abs {w : World} {p : Path} (h : IsDir w p) :
    osChdir (.abs p) w = .ok { w with cwd := p } () := if_pos h

theorem osChdir_abs_fail {w : World} {p : Path} (h : ¬ IsDir w p) : osChdir (.abs p) w = .fail w :=
  if_neg h

theorem rmtree_ok {w : World} {p : Path} (h : IsDir w p) :
    rmtree p w = .ok { w with node := without p w } () := if_pos h

theorem rmtree_fail {w : World} {p : Path} (h : ¬ IsDir w p) : rmtree p w = .fail w := if_neg h

variable {α : Type}

/-- The world in which the body of `tempdir` starts. -/
def start (w : World) (wd : Path) : World := ⟨Function.update w.node wd (some .dir), wd⟩

theorem tempdir_eq (fresh : World → Option Path) (c : Bool) (body : Path → Act World α) (w : World)
    (wd : Path) (h : IsDir w w.cwd) (hf : fresh w = some wd) :
    tempdir fresh c body w = withFinally (body wd) (fun completed => do
      osChdir (.abs w.cwd)
      if c || completed then rmtree wd) (start w wd) := by
  rw [tempdir, bind_eq, getcwd_ok h]
  simp only [bind_eq, mkdtemp, hf]
  unfold withFinally
  have e : osChdir (.abs wd) { w with node := Function.update w.node wd (some .dir) } =
      .ok (start w wd) () := osChdir_abs (by simp [IsDir])
  simp only [bind_eq, e]

end FileUtil

variable {α : Type}

/-! ## Changing the working directory -/

/-- **C97, changing the directory.** The body runs in the directory; whether it completes or raises,
its result is passed on, the working directory is the one before, and the file system is as the body
left it, provided the directory before still exists. -/
theorem C97_chdir (t : Target) (body : Act World α) (w w' : World) (h : IsDir w w.cwd)
    (ht : IsDir w (t.resolve w.cwd)) (h' : IsDir w' w.cwd) :
    (∀ a, body { w with cwd := t.resolve w.cwd } = .ok w' a →
      chdir t body w = .ok ⟨w'.node, w.cwd⟩ a) ∧
    (body { w with cwd := t.resolve w.cwd } = .fail w' →
      chdir t body w = .fail ⟨w'.node, w.cwd⟩) := by
  have e : osChdir t w = .ok { w with cwd := t.resolve w.cwd } () := if_pos ht
  constructor
  · intro a hb
    rw [chdir, bind_eq, getcwd_ok h]
    simp only [withFinally, bind_eq, e, hb, osChdir_abs h']
  · intro hb
    rw [chdir, bind_eq, getcwd_ok h]
    simp only [withFinally, bind_eq, e, hb, osChdir_abs h']

/-- **C97, relative and absolute.** A relative path is taken from the working directory, an absolute one
from the root. -/
theorem C97_chdir_paths (p : Path) (body : Act World α) (w w' : World) (a : α) (h : IsDir w w.cwd)
    (h' : IsDir w' w.cwd) :
    (IsDir w (w.cwd ++ p) → body ⟨w.node, w.cwd ++ p⟩ = .ok w' a →
      chdir (.rel p) body w = .ok ⟨w'.node, w.cwd⟩ a) ∧
    (IsDir w p → body ⟨w.node, p⟩ = .ok w' a → chdir (.abs p) body w = .ok ⟨w'.node, w.cwd⟩ a) :=
  ⟨fun hp hb => (C97_chdir (.rel p) body w w' h hp h').1 a hb,
    fun hp hb => (C97_chdir (.abs p) body w w' h hp h').1 a hb⟩

/-- **C97, refused directory.** If the directory, or the working directory, does not exist, the body
is not run and nothing changes. -/
theorem C97_chdir_refused (t : Target) (body : Act World α) (w : World)
    (h : ¬ IsDir w w.cwd ∨ ¬ IsDir w (t.resolve w.cwd)) : chdir t body w = .fail w := by
  rw [chdir, bind_eq, getcwd]
  by_cases h1 : w.node w.cwd = some .dir
  · rw [if_pos h1]
    have h2 : ¬ w.node (t.resolve w.cwd) = some .dir := h.resolve_left (not_not_intro h1)
    have e : osChdir t w = .fail w := if_neg h2
    simp only [withFinally, bind_eq, e, osChdir_abs h1]
  · rw [if_neg h1]

/-- **C97, finding.** If the body removes the directory the process came from, the block raises even
though the body completed, and the process stays where the body left it. -/
theorem C97_chdir_old_gone (t : Target) (body : Act World α) (w w' : World) (h : IsDir w w.cwd)
    (ht : IsDir w (t.resolve w.cwd)) (h' : ¬ IsDir w' w.cwd)
    (hb : (∃ a, body { w with cwd := t.resolve w.cwd } = .ok w' a) ∨
      body { w with cwd := t.resolve w.cwd } = .fail w') :
    chdir t body w = .fail w' := by
  have e : osChdir t w = .ok { w with cwd := t.resolve w.cwd } () := if_pos ht
  rw [chdir, bind_eq, getcwd_ok h]
  rcases hb with ⟨a, hb⟩ | hb <;> simp only [withFinally, bind_eq, e, hb, osChdir_abs_fail h']

/-! ## Temporary directories -/

/-- **C97, temporary directory.** The body runs in a new directory.  As long as it keeps that directory
and the one the process came from: a body that completes gives its result, with the directory removed;
one that raises has its exception passed on, with the directory removed or, if asked, kept.  The working
directory is the one before, and the rest of the file system as the body left it. -/
theorem C97_tempdir (fresh : World → Option Path) (c : Bool) (body : Path → Act World α)
    (w w' : World) (wd : Path) (h : IsDir w w.cwd) (hf : fresh w = some wd)
    (h1 : IsDir w' w.cwd) (h2 : IsDir w' wd) :
    (∀ a, body wd ⟨Function.update w.node wd (some .dir), wd⟩ = .ok w' a →
      tempdir fresh c body w = .ok ⟨without wd w', w.cwd⟩ a) ∧
    (body wd ⟨Function.update w.node wd (some .dir), wd⟩ = .fail w' →
      tempdir fresh c body w = .fail ⟨if c then without wd w' else w'.node, w.cwd⟩) := by
  have h2' : IsDir (⟨w'.node, w.cwd⟩ : World) wd := h2
  have e := rmtree_ok h2'
  constructor
  · intro a hb
    rw [tempdir_eq fresh c body w wd h hf]
    simp only [withFinally, start, hb, bind_eq, osChdir_abs h1, Bool.or_true, if_true, e]
    rfl
  · intro hb
    rw [tempdir_eq fresh c body w wd h hf]
    simp only [withFinally, start, hb, bind_eq, osChdir_abs h1, Bool.or_false]
    cases c
    · simp [pure_eq]
    · simp only [if_true, e]
      rfl

/-- **C97, no trace.** A body that changes only what is in the temporary directory leaves no trace when
it completes, nor when it raises and the directory is to be removed: files and working directory are
exactly as before. -/
theorem C97_tempdir_no_trace (fresh : World → Option Path) (hfr : Fresh fresh) (c : Bool)
    (body : Path → Act World α) (w w' : World) (wd : Path) (h : IsDir w w.cwd)
    (hf : fresh w = some wd) (hin : ∀ q, ¬ wd <+: q → w'.node q = w.node q) (h2 : IsDir w' wd) :
    (∀ a, body wd ⟨Function.update w.node wd (some .dir), wd⟩ = .ok w' a →
      tempdir fresh c body w = .ok w a) ∧
    (body wd ⟨Function.update w.node wd (some .dir), wd⟩ = .fail w' → c = true →
      tempdir fresh c body w = .fail w) := by
  have hnew : ∀ q, wd <+: q → w.node q = none := by
    rintro q ⟨r, rfl⟩
    exact hfr w wd hf r
  have hne : ¬ wd <+: w.cwd := fun hp => by
    have := hnew _ hp
    rw [IsDir, this] at h
    cases h
  have h1 : IsDir w' w.cwd := (hin _ hne).trans h
  have e : without wd w' = w.node := by
    funext q
    unfold without
    split_ifs with hq
    · exact (hnew q hq).symm
    · exact hin q hq
  obtain ⟨k1, k2⟩ := C97_tempdir fresh c body w w' wd h hf h1 h2
  constructor
  · intro a hb
    rw [k1 a hb, e]
  · intro hb hc
    rw [k2 hb, hc, if_pos rfl, e]

/-- **C97, no directory.** If the working directory is gone or no name is found, the body is not run
and nothing changes. -/
theorem C97_tempdir_refused (fresh : World → Option Path) (c : Bool) (body : Path → Act World α)
    (w : World) (h : ¬ IsDir w w.cwd ∨ fresh w = none) : tempdir fresh c body w = .fail w := by
  rw [tempdir, bind_eq, getcwd]
  by_cases h1 : w.node w.cwd = some .dir
  · rw [if_pos h1]
    simp only [bind_eq, mkdtemp, h.resolve_left (not_not_intro h1)]
  · rw [if_neg h1]

/-- **C97, finding.** If the body removes the directory the process came from, the temporary directory
is never removed, also when the body completed and when removal after errors was asked for. -/
theorem C97_tempdir_leak (fresh : World → Option Path) (c : Bool) (body : Path → Act World α)
    (w w' : World) (wd : Path) (h : IsDir w w.cwd) (hf : fresh w = some wd) (h1 : ¬ IsDir w' w.cwd)
    (hb : (∃ a, body wd ⟨Function.update w.node wd (some .dir), wd⟩ = .ok w' a) ∨
      body wd ⟨Function.update w.node wd (some .dir), wd⟩ = .fail w') :
    tempdir fresh c body w = .fail w' := by
  rw [tempdir_eq fresh c body w wd h hf]
  rcases hb with ⟨a, hb⟩ | hb <;>
    simp only [withFinally, start, hb, bind_eq, osChdir_abs_fail h1]

/-- **C97, finding.** If the body removes the temporary directory itself, the block raises even though
the body completed. -/
theorem C97_tempdir_self_removed (fresh : World → Option Path) (c : Bool)
    (body : Path → Act World α) (w w' : World) (wd : Path) (h : IsDir w w.cwd)
    (hf : fresh w = some wd) (h1 : IsDir w' w.cwd) (h2 : ¬ IsDir w' wd) (a : α)
    (hb : body wd ⟨Function.update w.node wd (some .dir), wd⟩ = .ok w' a) :
    tempdir fresh c body w = .fail ⟨w'.node, w.cwd⟩ := by
  have h2' : ¬ IsDir (⟨w'.node, w.cwd⟩ : World) wd := h2
  rw [tempdir_eq fresh c body w wd h hf]
  simp only [withFinally, start, hb, bind_eq, osChdir_abs h1, Bool.or_true, if_true, rmtree_fail h2']

/-! ## Nesting -/

/-- What a script does to the working directory and to directories. -/
def FileUtil.Keeps (w : World) (clean : Prop) (o : Out World Unit) : Prop :=
  ∃ w', (o = .ok w' () ∨ o = .fail w') ∧ w'.cwd = w.cwd ∧ (∀ p, IsDir w p → IsDir w' p) ∧
    (clean → ∀ p, IsDir w' p → IsDir w p)

theorem FileUtil.Keeps.andThen {w : World} {c₁ c₂ : Prop} {x y : Act World Unit}
    (hx : Keeps w c₁ (x w)) (hd : IsDir w w.cwd)
    (hy : ∀ w', IsDir w' w'.cwd → Keeps w' c₂ (y w')) : Keeps w (c₁ ∧ c₂) ((x >>= fun _ => y) w) := by
  obtain ⟨w', ho, hc, h1, h2⟩ := hx
  rcases ho with ho | ho
  · obtain ⟨w'', ho', hc', h1', h2'⟩ := hy w' (by rw [hc]; exact h1 _ hd)
    refine ⟨w'', ?_, hc'.trans hc, fun p hp => h1' p (h1 p hp),
      fun ⟨k1, k2⟩ p hp => h2 k1 p (h2' k2 p hp)⟩
    rw [bind_eq, ho]
    exact ho'
  · refine ⟨w', .inr ?_, hc, h1, fun k => h2 k.1⟩
    rw [bind_eq, ho]

theorem FileUtil.Keeps.mono {w : World} {c₁ c₂ : Prop} {o : Out World Unit} (h : Keeps w c₁ o)
    (hc : c₂ → c₁) : Keeps w c₂ o := by
  obtain ⟨w', h1, h2, h3, h4⟩ := h
  exact ⟨w', h1, h2, h3, fun k => h4 (hc k)⟩

theorem FileUtil.keeps_run (fresh : World → Option Path) (hfr : Fresh fresh) (s : Script) (w : World)
    (hd : IsDir w w.cwd) : Keeps w s.Cleans (s.run fresh w) := by
  induction s generalizing w with
  | done => exact ⟨w, .inl rfl, rfl, fun _ h => h, fun _ _ h => h⟩
  | raise => exact ⟨w, .inr rfl, rfl, fun _ h => h, fun _ _ h => h⟩
  | write name content next ih =>
    have hw : Keeps w True (Spec.FileUtil.write name content w) := by
      unfold Spec.FileUtil.write
      dsimp only
      split_ifs with hc
      · refine ⟨_, .inl rfl, rfl, fun p hp => ?_, fun _ p hp => ?_⟩
        · have hne : p ≠ w.cwd ++ name := fun e => hc.2 (e ▸ hp)
          simp only [IsDir, Function.update_of_ne hne] at hp ⊢
          exact hp
        · simp only [IsDir] at hp ⊢
          by_cases e : p = w.cwd ++ name
          · simp [e] at hp
          · rwa [Function.update_of_ne e] at hp
      · exact ⟨w, .inr rfl, rfl, fun _ h => h, fun _ _ h => h⟩
    exact (hw.andThen hd fun w' h' => ih w' h').mono fun k => ⟨trivial, k⟩
  | chdir t body next ihb ihn =>
    have hw : Keeps w body.Cleans (FileUtil.chdir t (body.run fresh) w) := by
      by_cases ht : IsDir w (t.resolve w.cwd)
      · obtain ⟨w', ho, hc, h1, h2⟩ := ihb { w with cwd := t.resolve w.cwd } ht
        have h' : IsDir w' w.cwd := h1 _ hd
        obtain ⟨k1, k2⟩ := C97_chdir t (body.run fresh) w w' hd ht h'
        refine ⟨⟨w'.node, w.cwd⟩, ?_, rfl, h1, h2⟩
        rcases ho with ho | ho
        · exact .inl (k1 () ho)
        · exact .inr (k2 ho)
      · rw [C97_chdir_refused t _ w (.inr ht)]
        exact ⟨w, .inr rfl, rfl, fun _ h => h, fun _ _ h => h⟩
    exact hw.andThen hd fun w' h' => ihn w' h'
  | tempdir c body next ihb ihn =>
    have hw : Keeps w (c = true ∧ body.Cleans) (FileUtil.tempdir fresh c (fun _ => body.run fresh) w) := by
      cases hf : fresh w with
      | none =>
        rw [C97_tempdir_refused fresh c _ w (.inr hf)]
        exact ⟨w, .inr rfl, rfl, fun _ h => h, fun _ _ h => h⟩
      | some wd =>
        have hnew : ∀ q, wd <+: q → w.node q = none := by
          rintro q ⟨r, rfl⟩
          exact hfr w wd hf r
        have hnot : ∀ p, IsDir w p → ¬ wd <+: p := fun p hp hq => by
          have := hnew p hq
          rw [IsDir, this] at hp
          cases hp
        have hst : ∀ p, IsDir (start w wd) p ↔ p = wd ∨ IsDir w p := by
          intro p
          unfold IsDir start
          by_cases e : p = wd
          · simp [e]
          · simp [e]
        obtain ⟨w', ho, hc, h1, h2⟩ := ihb (start w wd) ((hst wd).mpr (.inl rfl))
        have hold : IsDir w' w.cwd := h1 _ ((hst _).mpr (.inr hd))
        have htmp : IsDir w' wd := h1 _ ((hst _).mpr (.inl rfl))
        obtain ⟨k1, k2⟩ := C97_tempdir fresh c (fun _ => body.run fresh) w w' wd hd hf hold htmp
        have keep : ∀ p, IsDir w p → without wd w' p = some .dir := fun p hp => by
          unfold without
          rw [if_neg (hnot p hp)]
          exact h1 p ((hst p).mpr (.inr hp))
        have back : body.Cleans → ∀ p, without wd w' p = some .dir → IsDir w p := fun hb p hp => by
          unfold without at hp
          split_ifs at hp with hq
          rcases (hst p).mp (h2 hb p hp) with rfl | hp'
          · exact absurd List.prefix_rfl hq
          · exact hp'
        rcases ho with ho | ho
        · exact ⟨_, .inl (k1 () ho), rfl, keep, fun k => back k.2⟩
        · refine ⟨_, .inr (k2 ho), rfl, fun p hp => ?_, fun k p hp => ?_⟩
          · cases c
            · exact h1 p ((hst p).mpr (.inr hp))
            · exact keep p hp
          · rw [k.1] at hp
            exact back k.2 p hp
    exact (hw.andThen hd fun w' h' => ihn w' h').mono fun k => ⟨⟨k.1, k.2.1⟩, k.2.2⟩

/-- **C97, nesting.** A program that writes files and uses both context managers, nested at will, ends
(with or without an exception) in the working directory it started in, and no directory is lost; if all
temporary directories are removed after errors, none is left either. -/
theorem C97_nested (fresh : World → Option Path) (hfr : Fresh fresh) (s : Script) (w : World)
    (hd : IsDir w w.cwd) :
    ∃ w', (s.run fresh w = .ok w' () ∨ s.run fresh w = .fail w') ∧ w'.cwd = w.cwd ∧
      (∀ p, IsDir w p → IsDir w' p) ∧ (s.Cleans → ∀ p, IsDir w' p ↔ IsDir w p) := by
  obtain ⟨w', h1, h2, h3, h4⟩ := keeps_run fresh hfr s w hd
  exact ⟨w', h1, h2, h3, fun k p => ⟨h4 k p, h3 p⟩⟩

/-! ## The example's directories -/

/-- **C97, finding.** The command that should remove the directories of the example never changes a
file: it completes exactly if all of them exist, and raises otherwise. -/
theorem C97_clean (ps : List Path) (w : World) :
    clean ps w = if ∀ p ∈ ps, w.node p ≠ none then .ok w () else .fail w := by
  induction ps with
  | nil => simp [clean, pure_eq]
  | cons p ps ih =>
    by_cases h : w.node p = none
    · rw [if_neg fun k => k p List.mem_cons_self h]
      have e : rmtree p w = .fail w := if_neg (by simp [h])
      simp only [clean, bind_eq, get_eq, if_pos h, e]
    · simp only [clean, bind_eq, get_eq, if_neg h, pure_eq, ih]
      simp [h]

/-- **C97, the example's directories.** At import the missing directories are made, with those on the
way; nothing else changes. -/
theorem C97_setup (ps : List Path) (w w' : World) (h : setup ps w = .ok w' ()) :
    (∀ p ∈ ps, w'.node p ≠ none) ∧ w'.cwd = w.cwd ∧
      ∀ q, w'.node q = w.node q ∨
        w.node q = none ∧ w'.node q = some .dir ∧ ∃ p ∈ ps, q <+: p := by
  induction ps generalizing w with
  | nil =>
    have h : Out.ok w () = Out.ok w' () := h
    cases h
    exact ⟨by simp, rfl, fun q => .inl rfl⟩
  | cons p ps ih =>
    simp only [setup, bind_eq, get_eq] at h
    by_cases hp : w.node p = none
    · rw [if_pos hp] at h
      by_cases hq : w.node p ≠ none ∨ ∃ q ∈ p.inits, w.node q ≠ none ∧ w.node q ≠ some .dir
      · have e : makedirs p w = .fail w := if_pos hq
        simp only [bind_eq, e] at h
        cases h
      · have e : makedirs p w =
            .ok { w with node := fun q => if q <+: p then some .dir else w.node q } () := if_neg hq
        simp only [bind_eq, e] at h
        obtain ⟨h1, h2, h3⟩ := ih _ h
        have hmade : ∀ q, q <+: p → w'.node q = some .dir := by
          intro q hqp
          rcases h3 q with k | ⟨k, -⟩
          · simpa [hqp] using k
          · simp [hqp] at k
        refine ⟨List.forall_mem_cons.mpr ⟨by simp [hmade p List.prefix_rfl], h1⟩, h2, fun q => ?_⟩
        by_cases hqp : q <+: p
        · by_cases hn : w.node q = none
          · exact .inr ⟨hn, hmade q hqp, p, List.mem_cons_self, hqp⟩
          · left
            rw [hmade q hqp]
            by_contra hc
            exact hq (.inr ⟨q, List.mem_inits q p |>.mpr hqp, hn, fun hh => hc hh.symm⟩)
        · rcases h3 q with k | ⟨k1, k2, p', hp', k3⟩
          · left; simpa [hqp] using k
          · right
            exact ⟨by simpa [hqp] using k1, k2, p', List.mem_cons_of_mem _ hp', k3⟩
    · rw [if_neg hp] at h
      obtain ⟨h1, h2, h3⟩ := ih _ h
      refine ⟨List.forall_mem_cons.mpr ⟨?_, h1⟩, h2, fun q => ?_⟩
      · rcases h3 p with k | ⟨k, -⟩
        · rw [k]; exact hp
        · exact absurd k hp
      · rcases h3 q with k | ⟨k1, k2, p', hp', k3⟩
        · exact .inl k
        · exact .inr ⟨k1, k2, p', List.mem_cons_of_mem _ hp', k3⟩

/-- **C97, finding.** Run as the example runs it, after the directories have been made at import, the
command completes and removes nothing. -/
theorem C97_clean_nothing (ps : List Path) (w w' : World) (h : setup ps w = .ok w' ()) :
    clean ps w' = .ok w' () := by
  rw [C97_clean, if_pos (C97_setup ps w w' h).1]

/-! ## A case -/

namespace FileUtil

/-- A file system with a root, a home and a directory for temporary files. -/
def home : World := ⟨fun p => if p = [] ∨ p = ["home"] ∨ p = ["tmp"] then some .dir else none, ["home"]⟩

end FileUtil

example : Fresh (fun w => open scoped Classical in
    if ∀ q, w.node (["tmp", "a"] ++ q) = none then some ["tmp", "a"] else none) := by
  intro w p h q
  dsimp only at h
  split_ifs at h with hq
  cases h
  exact hq q

example : IsDir home home.cwd := by simp [IsDir, home]

/-- Directories of the example are made, and then not removed. -/
example : ∃ w', setup [["home", "data"]] home = .ok w' () ∧ w'.node ["home", "data"] = some .dir ∧
    clean [["home", "data"]] w' = .ok w' () := by
  have h : setup [["home", "data"]] home = .ok ⟨fun q => if q <+: ["home", "data"] then some .dir
      else home.node q, ["home"]⟩ () := by
    simp [setup, bind_eq, get_eq, home, makedirs, pure_eq]
  exact ⟨_, h, by simp, C97_clean_nothing _ _ _ h⟩

end Dist
