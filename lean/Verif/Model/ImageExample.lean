import Verif.Model.Gibbs
import Verif.Model.DbgRandom

/-!
# The images of the example (examples/mixture/main.py)

An image is an array of `h` rows and `w` columns.  Reading and writing files is not modelled.
The order of numpy's sums is not modelled: it is left to right here.
-/

namespace Dist.Img

open FloatOps FloatNotation

variable {F σ : Type} [FloatOps F] {h w : Nat}

/-- The entries of an array, row by row. -/
def entries {α : Type} (im : Fin h → Fin w → α) : List α := (List.ofFn fun i => List.ofFn (im i)).flatten

/-- `image.min()`: an empty array raises. -/
def minimum : List F → Res F
  | [] => .fail
  | x :: xs => .ok (xs.foldl (fun a b => if lt b a then b else a) x)

/-- `image.max()`: an empty array raises. -/
def maximum : List F → Res F
  | [] => .fail
  | x :: xs => .ok (xs.foldl (fun a b => if lt a b then b else a) x)

/-- The first lines of `sample_from_image` (examples/mixture/main.py:127-128) on an image of whole numbers. -/
def darkness (image : Fin h → Fin w → Nat) : Res (Fin h → Fin w → F) := do
  let image : Fin h → Fin w → F := fun i j => lit (-1) 1 * ofInt (image i j)
  let m ← minimum (entries image)
  return fun i j => image i j - m

/-- One row of `y_pmfs` (examples/mixture/main.py:130-132). -/
def yPmf (row : Fin w → F) : List F :=
  let total := Dbg.npSum (List.ofFn row) + lit 1 100000000
  List.ofFn fun j => row j / total

/-- `2.0 / (n - 1)` (examples/mixture/main.py:134-135, 147-148, 164-165): division by zero raises. -/
def scale (n : Nat) : Res F := if n = 1 then .fail else .ok (lit 2 1 / ofInt ((n : Int) - 1))

/-- The body of the loop of `sample_from_image` (examples/mixture/main.py:138-140). -/
def samplePoint (rng : Rng F σ) (xPmf : List F) (yPmfs : List (List F)) (xScale yScale : F) (s : σ) :
    Res ((F × F) × σ) := do
  let (x, s) ← Dbg.sampleDiscrete rng s xPmf (Dbg.npSum xPmf)
  let row ← getAt yPmfs x
  let (y, s) ← Dbg.sampleDiscrete rng s row (Dbg.npSum row)
  return ((ofInt x * xScale - lit 1 1, ofInt y * yScale - lit 1 1), s)

/-- `sample_from_image(image, sample_count)` (examples/mixture/main.py:126-140): everything it yields. -/
def sampleFromImage (rng : Rng F σ) (image : Fin h → Fin w → Nat) (sampleCount : Nat) (s : σ) :
    Res (List (F × F) × σ) := do
  let image ← darkness image
  let xPmf := List.ofFn fun i => Dbg.npSum (List.ofFn (image i))
  let yPmfs := List.ofFn fun i => yPmf (image i)
  let xScale ← scale h
  let yScale ← scale w
  sampleLoop (samplePoint rng xPmf yPmfs xScale yScale) sampleCount s

/-- Indexing an axis of length `n` with any integer: negative ones count from the end, others out of range
raise. -/
def axis (n : Nat) (i : Int) : Res (Fin n) :=
  if h : 0 ≤ i ∧ i < n then .ok ⟨i.toNat, by omega⟩
  else if h : i < 0 ∧ -(n : Int) ≤ i then .ok ⟨(n + i).toNat, by omega⟩
  else .fail

/-- The loop of `visualize_dataset` (examples/mixture/main.py:163-170), which counts the samples of every
pixel; `round` is `int(round(…))`. -/
def tally (round : F → Int) : List (F × F) → (Fin h → Fin w → Nat) → Res (Fin h → Fin w → Nat)
  | [], image => .ok image
  | (x, y) :: samples, image => do
    let xScale ← scale h
    let yScale ← scale w
    let x ← axis h (round ((x + lit 1 1) / xScale))
    let y ← axis w (round ((y + lit 1 1) / yScale))
    tally round samples fun i j => if i = x ∧ j = y then image i j + 1 else image i j

section synthesis

variable {R S G V : Type}

/-- `numpy.exp(scores).sum()` of the scores at one place (examples/mixture/main.py:152-153). -/
def density (lvl : Nat) (m : PitmanYor F) (mixture : FullMixture R S G V F) (r : R) : Res F := do
  let scores ← mixture.scoreValue lvl m r
  return Dbg.npSum (scores.map exp)

/-- `n` computations one after the other. -/
def forAll {α : Type} : (n : Nat) → (Fin n → Res α) → Res (Fin n → α)
  | 0, _ => .ok Fin.elim0
  | n + 1, f => do
    let a ← f 0
    let as ← forAll n fun i => f i.succ
    return Fin.cons a as

/-- `image /= image.max(); image -= 1.0; image *= -255` (examples/mixture/main.py:156-158). -/
def shade (image : Fin h → Fin w → F) : Res (Fin h → Fin w → F) := do
  let m ← maximum (entries image)
  return fun i j => (image i j / m - lit 1 1) * lit (-255) 1

/-- `synthesize_image(model, mixture)` (examples/mixture/main.py:143-159) before the conversion to bytes; `row`
makes a data row of two coordinates. -/
def synthesizeImage (lvl : Nat) (m : PitmanYor F) (mixture : FullMixture R S G V F) (row : F × F → R)
    (h w : Nat) : Res (Fin h → Fin w → F) := do
  let xScale ← scale h
  let yScale ← scale w
  let image ← forAll h fun x => forAll w fun y =>
    density lvl m mixture (row (ofInt x.val * xScale - lit 1 1, ofInt y.val * yScale - lit 1 1))
  shade image

end synthesis

end Dist.Img
