import Verif.Model.TempPlot

/-!
# Model of `discs/plot_results/plot_ebm.py`

The picture of samples of an energy-based model, one row per sampler.  Strings are lists of characters, `none` a Python
exception.  Drawing itself is not modelled: a cell is the file it shows and its labels.
-/

namespace Discs

/-- What the balancing function adds to the name (`plot_ebm.py:72-79`): nothing for the square root here. -/
def ebmSuffix (v : List Char) : List Char :=
  if v = "SQRT".toList then []
  else if v = "RATIO".toList then "(r)".toList
  else if v = "MIN".toList then "(min)".toList
  else if v = "MAX".toList then "(max)".toList
  else []

/-- `process_keys` (`plot_ebm.py:39-81`). -/
def ebmKeys (d : ExpDict) : Option ExpDict :=
  (dictGet d "name".toList).map fun n =>
    let d := keyAdaptive (keySolver (dictSet d "name".toList (tempShort n)))
    match dictGet d "balancing_fn_type".toList with
    | none => d
    | some v => dictDel (nameAppend d (ebmSuffix v)) "balancing_fn_type".toList

/-- The name of a folder's sampler (`plot_ebm.py:91-93`); `get_experiment_config` is that of
`plot_ising_temp.py`. -/
def ebmName (folder : List Char) : Option (List Char) :=
  (tempConfig folder).bind fun d => (ebmKeys d).bind fun d => dictGet d "name".toList

/-- The chain that is shown (`plot_ebm.py:94-101`); `none` for a name without a branch. -/
def ebmChain (name : List Char) : Option ℕ :=
  if name ∈ ["dlmc".toList, "hb-10-1".toList] then some 1
  else if name = "bg-2".toList then some 2
  else if name ∈ ["dlmcf".toList, "dmala".toList] then some 3
  else if name ∈ ["gwg".toList, "pas".toList] then some 0
  else none

/-- The file `sample_{step}_of_chain_{chain}.jpeg` of a folder. -/
structure EbmImage where
  folder : List Char
  step : ℕ
  chain : ℕ
  deriving DecidableEq

/-- The loop over the folders (`plot_ebm.py:89-104`), on folders with their names.  A name without a branch leaves the
variable `chain` as it was; in the first folder it has no value and there is an `UnboundLocalError`. -/
def ebmImages (prev : Option ℕ) : List (List Char × List Char) → Option (List EbmImage)
  | [] => some []
  | f :: fs => do
    let c ← (ebmChain f.2).or prev
    let rest ← ebmImages (some c) fs
    return (List.range 10).map (fun i => ⟨f.1, i, c⟩) ++ rest

/-- A cell of the picture. -/
structure EbmCell where
  image : EbmImage
  xlabel : Option ℕ
  ylabel : Option (List Char)
  deriving DecidableEq

/-- The loop over the files (`plot_ebm.py:108-137`): the grid has 8 rows and 10 columns, a file beyond them is an
`IndexError`, a missing file an error of `imread`. -/
def ebmCells (onDisk : EbmImage → Bool) (names : List (List Char)) (imgs : List EbmImage) : Option (List EbmCell) :=
  if imgs.all onDisk && decide (imgs.length ≤ 8 * 10) then
    some (imgs.mapIdx fun i img => ⟨img, if 8 * 10 - 10 ≤ i then some (1 + i % 10) else none,
      if i % 10 = 0 then names[i / 10]? else none⟩)
  else none

/-- `main` (`plot_ebm.py:83-137`) on the sorted folders with their names. -/
def ebmFigure (onDisk : EbmImage → Bool) (folders : List (List Char × List Char)) : Option (List EbmCell) :=
  (ebmImages none folders).bind (ebmCells onDisk (folders.map Prod.snd))

/-- The images that `Saver.dump_samples` leaves (`experiment_saver.py:105-119`), as pairs of step and chain, for a
trajectory of `steps` entries of `chains` samples: with `visualize` the first file name refers to an undefined
`root_path`. -/
def dumpImages (visualize : Bool) (steps chains : ℕ) : Option (List (ℕ × ℕ)) :=
  if visualize && decide (0 < steps) && decide (0 < chains) then none else some []

end Discs
