import Mathlib.Data.Real.Basic
import Mathlib.Algebra.Order.Floor.Ring
import Verif.Model.Bars
import Verif.Model.Labels

/-!
# Model of `discs/plot_results/plot_ising_temp.py`

The figure of effective samples against inverse temperature.  Strings are lists of characters, dictionaries association
lists, `none` a Python exception.  `num` is `float` of a word without surrounding spaces.  The flag `key` has its default
`name`.  Colours, labels and axes are not modelled.
-/

namespace Discs

/-! ### Folders -/

/-- The loop of `get_experiment_config` (`plot_ising_temp.py:162-171`).  Here, unlike in `plot_utils.py`, a piece without
exactly one `=` repeats the item before it; at the first piece this is an `UnboundLocalError`. -/
def tempItems (last : Option (List Char × List Char)) : List (List Char) → Option (List (List Char × List Char))
  | [] => some []
  | item :: rest =>
    let cur := match item.splitOn '=' with
      | [k, v] => (parseValue v).map fun v' => (k, v')
      | _ => last
    cur.bind fun kv => (tempItems (some kv) rest).map fun r => ((kv.1.splitOn '.').getLastD [], kv.2) :: r

/-- `get_experiment_config` (`plot_ising_temp.py:157-172`). -/
def tempConfig (folder : List Char) : Option ExpDict :=
  (tempItems none ((afterFirst '_' folder).splitOn ',')).map fun items =>
    items.foldl (fun d kv => dictSet d kv.1 kv.2) []

/-- The short names (`plot_ising_temp.py:176-183`): random walk is `rmw` here. -/
def tempShort (n : List Char) : List Char :=
  if n = "hammingball".toList then "hb-10-1".toList
  else if n = "blockgibbs".toList then "bg-2".toList
  else if n = "randomwalk".toList then "rmw".toList
  else if n = "path_auxiliary".toList then "pas".toList
  else n

/-- `process_keys` (`plot_ising_temp.py:175-217`) and the deletion of `save_samples` (lines 407-408). -/
def tempKeys (d : ExpDict) : Option ExpDict :=
  (dictGet d "name".toList).map fun n =>
    dictDel (keyBalancing (keyAdaptive (keySolver (dictSet d "name".toList (tempShort n))))) "save_samples".toList

/-! ### Numbers -/

/-- The two words of a cell of `results.csv` (`plot_ising_temp.py:427-440`): `s[2:gap]` and `s[gap+1:-2]` for the first
space `gap` of the whole cell, `-1` without a space. -/
def tempWords (s : List Char) : List Char × List Char :=
  match s.idxOf? ' ' with
  | some gap => ((s.take gap).drop 2, (s.drop (gap + 1)).dropLast.dropLast)
  | none => (s.dropLast.drop 2, s.dropLast.dropLast)

/-- Half the chain length (`plot_ising_temp.py:428-437`). -/
noncomputable def tempHalf (num : List Char → Option ℝ) (d : ExpDict) : Option ℝ :=
  match dictGet d "chain_length".toList with
  | none => some 50000
  | some v => (num (stripSpaces v)).map fun c => (⌊c / 2⌋ : ℝ)

/-- The results of one row of `results.csv` (`plot_ising_temp.py:426-440`). -/
noncomputable def tempRow (num : List Char → Option ℝ) (half : ℝ) (row : List Char × List Char) :
    Option (List (List Char × ℝ)) := do
  let ee := tempWords row.1
  let clock := tempWords row.2
  let m ← num (stripSpaces ee.1)
  let s ← num (stripSpaces ee.2)
  let mt ← num (stripSpaces clock.1)
  let st ← num (stripSpaces clock.2)
  return [("ess_ee".toList, m * half), ("ess_ee_std".toList, s / 10 * half), ("ess_clock".toList, mt),
    ("ess_clock_std".toList, st)]

/-- The results of one experiment (`plot_ising_temp.py:412-442`).  `file` holds the cells `ESS_EE` and `ESS_T` of the
rows of `results.csv`, `none` if it cannot be opened. -/
noncomputable def tempResults (num : List Char → Option ℝ) (d : ExpDict)
    (file : Option (List (List Char × List Char))) : Option (List (List Char × ℝ)) :=
  match file with
  | none => some [("ess_ee".toList, 0), ("ess_clock".toList, 0)]
  | some rows => rows.foldlM (fun _ row => (tempHalf num d).bind fun half => tempRow num half row) []

/-! ### Curves -/

/-- An experiment: its processed keys and its results. -/
abbrev TempExp := ExpDict × List (List Char × ℝ)

/-- `dict_o_keys['name']`. -/
def TempExp.name (e : TempExp) : List Char := (dictGet e.1 "name".toList).getD []

/-- The title of a cluster (`plot_ising_temp.py:227-233`). -/
def saveTitle (d : ExpDict) : List Char := d.flatMap fun kv => kv.1 ++ '=' :: kv.2 ++ [',']

/-- `map_temp` (`plot_ising_temp.py:348-357`). -/
noncomputable def mapTemp (num : List Char → Option ℝ) (title : List Char) : Option ℝ :=
  (title.splitOn ',').dropLast.getLast?.bind fun piece => num (stripSpaces ((piece.splitOn '=').getLastD []))

/-- One point of the two figures. -/
structure TempPoint where
  x : ℝ
  ee : ℝ
  eeStd : ℝ
  clock : ℝ
  clockStd : ℝ

/-- `row[k][0]`. -/
def firstOf (row : List (List Char × List ℝ)) (k : String) : Option ℝ := (dictGet row k.toList).bind List.head?

/-- The four values of a point (`plot_ising_temp.py:366-369, 374-385`). -/
noncomputable def tempPoint (x : ℝ) (row : List (List Char × List ℝ)) : Option TempPoint := do
  let ee ← firstOf row "ess_ee"
  let eeStd ← firstOf row "ess_ee_std"
  let clock ← firstOf row "ess_clock"
  let clockStd ← firstOf row "ess_clock_std"
  return ⟨x, ee, eeStd, clock, clockStd⟩

/-- The curve of one sampler (`plot_ising_temp.py:365-385`), from the titles and tables of the clusters. -/
noncomputable def tempCurve (num : List Char → Option ℝ) (name : List Char) :
    List (List Char × ResTable ℝ) → Option (List TempPoint)
  | [] => none
  | c :: rest => do
    let row ← dictGet c.2 name
    let p ← tempPoint 0.1607 row
    let ps ← rest.mapM fun c => do
      let x ← mapTemp num c.1
      let row ← dictGet c.2 name
      tempPoint x row
    return p :: ps

/-- `prepare_for_ising` (`plot_ising_temp.py:360-387`): the curves of the samplers of the first cluster. -/
noncomputable def prepareIsing (num : List Char → Option ℝ) (clusters : List (List Char × ResTable ℝ)) :
    Option (List (List Char × List TempPoint)) :=
  match clusters with
  | [] => none
  | c :: _ => c.2.mapM fun e => (tempCurve num e.1 clusters).map fun ps => (e.1, ps)

/-- `organize_experiments` and `sort_based_on_samplers` (`plot_ising_temp.py:220-250, 277-322`), on the clusters of `get_clusters_key_based` (lines 51-79,
the same as in `plot_utils.py`). -/
noncomputable def tempClusters (exps : List TempExp) : Option (List (List Char × ResTable ℝ)) :=
  (clustersBy "name".toList (exps.map Prod.fst)).mapM fun c =>
    (organizeCluster (c.map fun i => ((exps.getD i ([], [])).name, (exps.getD i ([], [])).2))).map fun t =>
      (saveTitle (exps.getD (c.headD 0) ([], [])).1, sortSamplers t)

/-- From the experiments to the curves (`plot_ising_temp.py:444-454`). -/
noncomputable def tempPlot (num : List Char → Option ℝ) (exps : List TempExp) :
    Option (List (List Char × List TempPoint)) :=
  (tempClusters exps).bind (prepareIsing num)

/-- The curves that are drawn (`plot_ising_temp.py:92-94`). -/
noncomputable def tempDrawn (curves : List (List Char × List TempPoint)) : List (List Char × List TempPoint) :=
  curves.filter fun c => !decide (c.1 ∈ ["hb-10-1".toList, "bg-2".toList, "rmw".toList])

end Discs
