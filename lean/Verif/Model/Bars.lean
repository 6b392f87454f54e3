import Mathlib.Data.List.Sort
import Verif.Model.Experiment
import Verif.Model.PlotUtils

/-!
# Model of the bars of `discs/plot_results/plot_results.py`

From the folders and `results.csv` files of a sweep to the heights of the bars.  Strings are lists of characters.
-/

namespace Discs

/-- `get_ticks_and_sorted_experiments` (`plot_results.py:324-348`): the folders in the order in which they are
plotted, each with the value it is sorted by.  `isPic` says whether a name ends in `png` or `pdf`, `val` is the value
of the swept key in a folder name (lines 332-340); values are of one type (with numbers and strings mixed
Python's `sorted` fails).  Folder names are distinct, so the dictionary is the zipped list. -/
def sortFolders {F V : Type*} [LinearOrder V] (isPic : F → Bool) (val : F → V) (folders : List F) : List (F × V) :=
  let vals := (folders.filter fun f => !isPic f).map val
  (folders.zip vals).mergeSort fun a b => decide (a.2 ≤ b.2)

/-- Zeros appended to a row until there is a value for every position (`plot_results.py:103-107`). -/
def padBars {R : Type*} [Zero R] (n : ℕ) (values : List R) : List R :=
  values ++ List.replicate (n - values.length) 0

/-- The heights of the bars of one figure (`plot_results.py:28-140`), one row per sampler, when there are several
ticks.  Positions are laid out for the first sampler's values; `none` is the failing assertion of line 102, or
matplotlib's error for a row that is too long. -/
def barHeights {R : Type*} [Zero R] (ticks : ℕ) : List (List R) → Option (List (List R))
  | [] => some []
  | r :: rows =>
    if r.length ≠ ticks then none
    else if rows.any fun r' => decide (ticks < r'.length) then none
    else some ((r :: rows).map (padBars ticks))

/-! ### Numbers in `results.csv` -/

/-- `n` spaces. -/
def spaces (n : ℕ) : List Char := List.replicate n ' '

/-- `str.strip()`, `float` of a string ignores surrounding spaces as well. -/
def stripSpaces (s : List Char) : List Char :=
  ((s.dropWhile (· == ' ')).reverse.dropWhile (· == ' ')).reverse

/-- `extract_floats` (`plot_results.py:372-377`) up to the conversion of the two words by `float`; without a space
`find` is `-1`. -/
def extractFloats (s : List Char) : List Char × List Char :=
  let s := stripSpaces (s.drop 2).dropLast.dropLast
  match s.idxOf? ' ' with
  | some gap => (stripSpaces (s.take gap), stripSpaces (s.drop (gap + 1)))
  | none => (stripSpaces s.dropLast, stripSpaces s)

/-- What `csv.DictWriter` writes for the array `[mean, std]` (`experiment_saver.py:82-83`): NumPy puts the two numbers
in brackets, padded to a common width.  With `run_parallel` the evaluator is mapped over a leading axis of length one
(`sampling.py:113-118, 296-298`) and there are two pairs of brackets. -/
def printPair (parallel : Bool) (i j k : ℕ) (mean std : List Char) : List Char :=
  let inner := spaces i ++ mean ++ spaces (j + 1) ++ std ++ spaces k
  if parallel then '[' :: '[' :: inner ++ [']', ']'] else '[' :: inner ++ [']']

/-- The height of the bar for effective samples per energy evaluation (`plot_results.py:426-433`): the number in the
file times half the chain length if the folder name has one, else times 50000. -/
noncomputable def barEE (essEE : ℝ) (chainLength : Option ℕ) : ℝ :=
  match chainLength with
  | none => essEE * 50000
  | some L => essEE * (L / 2 : ℕ)

end Discs
