import Verif.Base.Act
import Mathlib.Algebra.Order.Floor.Ring
import Mathlib.Data.Rat.Floor

/-! # The histogram of the goodness-of-fit helpers (distributions/util.py:50-56)

What is printed is a list of lines; how numbers are padded and rounded for printing is left out.
Counts are Python integers, probabilities come from a linear order.  The length of a bar is computed
exactly: the quotient of doubles rounds to the same integer for counts below 2^46. -/

namespace Dist.Util

/-- A printed line: the header (distributions/util.py:53), or a probability, a count and the number of
dashes (distributions/util.py:56). -/
inductive Line (α : Type) where
  | header
  | row (prob : α) (count : Int) (dashes : Nat)

/-- Python 2's `int(round(x))`: halves go away from zero. -/
def pyRound (x : ℚ) : Int := if 0 ≤ x then ⌊x + 1 / 2⌋ else -⌊-x + 1 / 2⌋

/-- The loop of `print_histogram` (distributions/util.py:54-56).  Dividing by a `max_count` of zero
raises; `'-' * width` is empty for a negative width. -/
def histogramLoop {α : Type} (maxCount : Int) : List (α × Int) → Act (List (Line α)) Unit
  | [], out => .ok out ()
  | (prob, count) :: rest, out =>
    if maxCount = 0 then .fail out
    else
      let width := pyRound (60 * count / maxCount)
      histogramLoop maxCount rest (out ++ [.row prob count width.toNat])

/-- `print_histogram(probs, counts)` (distributions/util.py:50-56).  `max` of an empty list raises;
`zip` drops what has no partner; `sorted(…, reverse=True)` compares the probabilities first. -/
def printHistogram {α : Type} [LinearOrder α] (probs : List α) (counts : List Int) :
    Act (List (Line α)) Unit := fun out =>
  match counts with
  | [] => .fail out
  | c :: cs =>
    histogramLoop (cs.foldl max c)
      ((probs.zip (c :: cs)).mergeSort fun a b => b.1 < a.1 || (b.1 = a.1 && b.2 ≤ a.2))
      (out ++ [.header])

end Dist.Util
