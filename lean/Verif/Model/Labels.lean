import Verif.Model.PlotUtils

/-!
# Model of the names under which results appear

`process_keys` of `discs/plot_results/plot_utils.py` and the sampler column of
`discs/common/experiment_saver.py`.  Strings are lists of characters, dictionaries association lists.
-/

namespace Discs

/-- `del d[k]`. -/
def dictDel (d : ExpDict) (k : List Char) : ExpDict := d.filter fun kv => decide (kv.1 ≠ k)

/-- `d['name'] = str(d['name']) + s`. -/
def nameAppend (d : ExpDict) (s : List Char) : ExpDict :=
  dictSet d "name".toList ((dictGet d "name".toList).getD [] ++ s)

/-- The short names (`plot_utils.py:24-31`). -/
def shortName (n : List Char) : List Char :=
  if n = "hammingball".toList then "hb-10-1".toList
  else if n = "blockgibbs".toList then "bg-2".toList
  else if n = "randomwalk".toList then "rwm".toList
  else if n = "path_auxiliary".toList then "pas".toList
  else n

/-- The key `solver` (`plot_utils.py:33-36`). -/
def keySolver (d : ExpDict) : ExpDict :=
  match dictGet d "solver".toList with
  | none => d
  | some v => dictDel (if v = "euler_forward".toList then nameAppend d "f".toList else d) "solver".toList

/-- A key whose value goes into the name (`plot_utils.py:45-56`). -/
def keyValue (k sep : List Char) (d : ExpDict) : ExpDict :=
  match dictGet d k with
  | none => d
  | some v => dictDel (nameAppend d (sep ++ v)) k

/-- The key `adaptive` (`plot_utils.py:41-56`). -/
def keyAdaptive (d : ExpDict) : ExpDict :=
  match dictGet d "adaptive".toList with
  | none => d
  | some v =>
    let d := dictDel (if v = "False".toList then nameAppend d "-nA".toList else d) "adaptive".toList
    keyValue "num_flips".toList "-".toList (keyValue "n".toList "-".toList (keyValue "step_size".toList [] d))

/-- What the balancing function adds to the name. -/
def balSuffix (v : List Char) : List Char :=
  if v = "SQRT".toList then "(s)".toList
  else if v = "RATIO".toList then "(r)".toList
  else if v = "MIN".toList then "(min)".toList
  else if v = "MAX".toList then "(max)".toList
  else []

/-- The key `balancing_fn_type` (`plot_utils.py:58-68`). -/
def keyBalancing (d : ExpDict) : ExpDict :=
  match dictGet d "balancing_fn_type".toList with
  | none => d
  | some v => dictDel (nameAppend d (balSuffix v)) "balancing_fn_type".toList

/-- `process_keys` (`plot_utils.py:19-69`); `none` is the `KeyError` of a missing name. -/
def processKeys (d : ExpDict) : Option ExpDict :=
  (dictGet d "name".toList).map fun n =>
    let d := dictSet d "name".toList (shortName n)
    keyBalancing (keyAdaptive (dictDel (keySolver d) "approx_with_grad".toList))

/-- The entries of the sampler configuration that `_save_ess_results` looks at; `none` is a missing key. -/
structure SaverConfig where
  name : List Char
  adaptive : Option Bool
  solver : Option (List Char)
  balancing : Option (List Char)

/-- The column `sampler` of `results.csv` (`experiment_saver.py:54-72`). -/
def saverName (c : SaverConfig) : List Char :=
  let s := if c.adaptive.isSome then "a_".toList ++ c.name else c.name
  let s := if c.solver = some "euler_forward".toList then s ++ "f".toList else s
  match c.balancing with
  | none => s
  | some v =>
    if v = "RATIO".toList then s ++ "(ratio)".toList
    else if v = "MAX".toList then s ++ "(max)".toList
    else if v = "MIN".toList then s ++ "(min)".toList
    else s ++ "(sqrt)".toList

end Discs
