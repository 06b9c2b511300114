import Verif.Model.Allocator
import Mathlib.Data.Nat.Bitwise
import Mathlib.Tactic.Ring

/-!
# C55: aligned allocation
-/

namespace Dist

open Alloc

/-- **C55.** For every element size and every `n` up to `max_size()` the byte count that is
requested is the mathematical `n * sizeof(T)`. -/
theorem C55_no_overflow (sizeofT n : Nat) (hs : 0 < sizeofT) (hn : n ≤ maxSize sizeofT) :
    byteCount sizeofT n = n * sizeofT := by
  unfold byteCount
  apply Nat.mod_eq_of_lt
  have h := (Nat.le_div_iff_mul_le hs).mp hn
  unfold sizeMax at h
  omega

/-- The largest allocation of floats. -/
example : byteCount 4 4611686018427387903 = 4611686018427387903 * 4 :=
  C55_no_overflow 4 _ (by decide) (by decide)

/-- **C55, beyond `max_size()`** the request wraps: the buffer is strictly shorter than the
elements need, and the allocator does not notice. -/
theorem C55_beyond (sizeofT n : Nat) (hs : 0 < sizeofT) (hn : maxSize sizeofT < n) :
    byteCount sizeofT n < n * sizeofT := by
  unfold byteCount
  have h := (Nat.div_lt_iff_lt_mul hs).mp hn
  have h' : 2 ^ 64 ≤ n * sizeofT := by unfold sizeMax at h; omega
  exact lt_of_lt_of_le (Nat.mod_lt _ (by norm_num)) h'

/-- `2^62 + 1` floats become a request for four bytes. -/
example : byteCount 4 4611686018427387905 = 4 := by decide

/-- **C55, what an allocation gives.** With a `posix_memalign` that returns multiples of the
requested alignment and blocks of the requested size, an allocation of up to `max_size()`
elements either reports failure or yields an address that is aligned, passes the debug
assertion, and has room for every element: the bytes of element `i` are inside the block. -/
theorem C55_allocate (lvl sizeofT n k : Nat) (memalign : Nat → Nat → Option Nat)
    (hs : 0 < sizeofT) (hn : n ≤ maxSize sizeofT)
    (halign : ∀ a bytes address, memalign a bytes = some address → a ∣ address) :
    allocate lvl memalign (2 ^ k) sizeofT n = .fail ∨
    ∃ address, memalign (2 ^ k) (n * sizeofT) = some address ∧
      allocate lvl memalign (2 ^ k) sizeofT n = .ok address ∧ 2 ^ k ∣ address ∧
      ∀ i < n, address + i * sizeofT + sizeofT ≤ address + n * sizeofT := by
  unfold allocate
  rw [C55_no_overflow sizeofT n hs hn]
  cases h : memalign (2 ^ k) (n * sizeofT) with
  | none => exact .inl rfl
  | some address =>
    right
    have hd := halign _ _ _ h
    refine ⟨address, rfl, ?_, hd, ?_⟩
    · have : assertAligned address (2 ^ k) = .ok () := by
        unfold assertAligned
        rw [distAssert0_of]
        rw [Nat.and_two_pow_sub_one_eq_mod]
        exact Nat.mod_eq_zero_of_dvd hd
      simp only [this, ite_self, Res.ok_bind, Res.pure_eq]
    · intro i hi
      have : (i + 1) * sizeofT ≤ n * sizeofT := Nat.mul_le_mul_right _ hi
      rw [Nat.add_mul] at this
      omega

/-- **C55, the debug check** fires exactly on misaligned addresses, for every power-of-two
alignment. -/
theorem C55_assert_aligned (address k : Nat) :
    (2 ^ k ∣ address → assertAligned address (2 ^ k) = .ok ()) ∧
    (¬ 2 ^ k ∣ address → assertAligned address (2 ^ k) = .fail) := by
  unfold assertAligned
  constructor
  · intro h
    rw [distAssert0_of]
    rw [Nat.and_two_pow_sub_one_eq_mod]
    exact Nat.mod_eq_zero_of_dvd h
  · intro h
    rw [distAssert0_of_not]
    rw [Nat.and_two_pow_sub_one_eq_mod]
    exact fun h' => h (Nat.dvd_of_mod_eq_zero h')

/-- **C55, a `posix_memalign` that breaks its promise** is noticed at debug level 3 and above,
and only there. -/
theorem C55_misaligned (lvl sizeofT n k address : Nat) (memalign : Nat → Nat → Option Nat)
    (hn : n ≤ maxSize sizeofT) (hs : 0 < sizeofT)
    (hm : memalign (2 ^ k) (n * sizeofT) = some address) (hd : ¬ 2 ^ k ∣ address) :
    allocate lvl memalign (2 ^ k) sizeofT n = if 3 ≤ lvl then .fail else .ok address := by
  unfold allocate
  rw [C55_no_overflow sizeofT n hs hn, hm]
  simp only
  split_ifs
  · rw [(C55_assert_aligned address k).2 hd]; rfl
  · rfl

/-- An address that is not a multiple of 32. -/
example : allocate 3 (fun _ _ => some 4100) (2 ^ 5) 4 10 = .fail ∧
    allocate 2 (fun _ _ => some 4100) (2 ^ 5) 4 10 = .ok 4100 := by decide

/-- An allocator that always returns address 4096, asked for 10 floats. -/
example : allocate 3 (fun _ _ => some 4096) (2 ^ 5) 4 10 = .ok 4096 := by decide

/-- **C55, views.** A view of a vector whose buffer came from the allocator, or that has no buffer yet (a null
pointer), is accepted in every build and is the vector's buffer; a view of any other address is accepted exactly if
it is a multiple of 32, and a view of any other vector is refused only in builds of level 3 or more. -/
theorem C55_view (lvl n size data : Nat) (memalign : Nat → Nat → Option Nat)
    (halign : ∀ a bytes address, memalign a bytes = some address → a ∣ address) :
    (data = 0 ∨ allocate lvl memalign defaultAlignment 4 n = .ok data →
      View.ofVector lvl data size = .ok ⟨data, size⟩) ∧
    (View.ofPointer data size = if 32 ∣ data then .ok ⟨data, size⟩ else .fail) ∧
    View.ofVector lvl data size = if 3 ≤ lvl ∧ ¬ 32 ∣ data then .fail else .ok ⟨data, size⟩ := by
  have ha := C55_assert_aligned data 5
  change (32 ∣ data → assertAligned data defaultAlignment = _) ∧
    (¬ 32 ∣ data → assertAligned data defaultAlignment = _) at ha
  refine ⟨?_, ?_, ?_⟩
  · intro h
    have hd : 32 ∣ data := by
      rcases h with rfl | h
      · simp
      · unfold allocate at h
        cases hm : memalign defaultAlignment (byteCount 4 n) with
        | none => rw [hm] at h; cases h
        | some address =>
          rw [hm] at h
          simp only at h
          have : address = data := by
            split_ifs at h
            · obtain ⟨_, -, h⟩ := Res.bind_eq_ok.mp h
              cases h; rfl
            · cases h; rfl
          subst this
          exact halign _ _ _ hm
    unfold View.ofVector
    rw [ha.1 hd, ite_self]
    rfl
  · unfold View.ofPointer
    split_ifs with h
    · rw [ha.1 h]; rfl
    · rw [ha.2 h]; rfl
  · unfold View.ofVector
    by_cases h : 32 ∣ data
    · rw [ha.1 h, ite_self, if_neg (fun h' => h'.2 h)]; rfl
    · rw [ha.2 h]
      by_cases hl : 3 ≤ lvl
      · rw [if_pos hl, if_pos ⟨hl, h⟩]; rfl
      · rw [if_neg hl, if_neg (fun h' => hl h'.1)]; rfl

/-- A view from the second float of a buffer on is refused, from the ninth it is accepted. -/
example : View.ofPointer 4100 7 = .fail ∧ View.ofPointer 4128 2 = .ok ⟨4128, 2⟩ := by decide

end Dist
