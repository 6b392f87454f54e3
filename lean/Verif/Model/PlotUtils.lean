import Verif.Model.Loader

/-!
# Model of result folders and of the grouping of results

`discs/xm_launcher.py:150-166` (name of the result folder), `discs/plot_results/plot_utils.py` and
`discs/plot_results/plot_results.py:291-321` (`organize_experiments`).
Strings are lists of characters; Python dictionaries are association lists (`dictSet`, `dictGet`).
-/

namespace Discs

/-! ### Clusters -/

/-- The configuration part of an experiment's dictionary (without `'results'`). -/
abbrev ExpDict := List (List Char × List Char)

/-- `get_diff_key(key, dict1, dict2)` as a condition (`plot_utils.py:186-195`): both `None` and `False`
are false.  The entry `'results'` is skipped by the code and absent here. -/
def diffKey (key : List Char) (d1 d2 : ExpDict) : Bool :=
  d1.all fun kv => decide (kv.1 = "name".toList) ||
    match dictGet d2 kv.1 with
    | none => false
    | some v => decide (v = kv.2) || decide (kv.1 = key)

/-- The loop over the clusters in `get_clusters_key_based` (`plot_utils.py:112-119`): the index goes to the
first cluster whose first member matches, else to a new cluster. -/
def clusterInsert (key : List Char) (ds : List ExpDict) (i : ℕ) : List (List ℕ) → List (List ℕ)
  | [] => [[i]]
  | c :: cs =>
    if diffKey key (ds.getD (c.headD 0) []) (ds.getD i []) then (c ++ [i]) :: cs
    else c :: clusterInsert key ds i cs

/-- `get_clusters_key_based` (`plot_utils.py:97-121`); the separate treatment of the first cluster
(lines 108-110) does what the loop does on an empty list. -/
def clustersBy (key : List Char) (ds : List ExpDict) : List (List ℕ) :=
  (List.range ds.length).foldl (fun cs i =>
    if (dictGet (ds.getD i []) key).isNone then cs else clusterInsert key ds i cs) []

/-! ### Tables -/

/-- Rows of a table: sampler name to result key to list of values. -/
abbrev ResTable (R : Type*) := List (List Char × List (List Char × List R))

/-- Append every result of one experiment to its row (`plot_results.py:315-318`); `none` is the
`KeyError` for a result key that the row does not have. -/
def rowAppend {R : Type*} (row : List (List Char × List R)) :
    List (List Char × R) → Option (List (List Char × List R))
  | [] => some row
  | (k, v) :: rest =>
    match dictGet row k with
    | none => none
    | some l => rowAppend (dictSet row k (l ++ [v])) rest

/-- One experiment (`plot_results.py:307-318`); the columns of a row are those of the first experiment of
that name. -/
def tableAdd {R : Type*} (t : ResTable R) (name : List Char) (results : List (List Char × R)) :
    Option (ResTable R) :=
  let row := (dictGet t name).getD (results.map fun kv => (kv.1, []))
  (rowAppend row results).map fun row' => dictSet t name row'

/-- The table of one cluster (`plot_results.py:295-319`), without the entries `save_title` and `model`;
an experiment is given by its name and its results. -/
def organizeCluster {R : Type*} (cluster : List (List Char × List (List Char × R))) :
    Option (ResTable R) :=
  cluster.foldlM (fun t e => tableAdd t e.1 e.2) []

/-- `sampler_list` (`plot_utils.py:140-163`). -/
def samplerPrefixes : List (List Char) :=
  ["h", "b", "r", "gwg(s", "gwg(r", "gwg", "dmala-", "dmala(s", "dmala(r", "dmala", "pas-", "pas(s",
    "pas(r", "pas", "dlmcf-", "dlmcf(s", "dlmcf(r", "dlmcf", "dlmc-", "dlmc(s", "dlmc(r", "dlmc"].map
    String.toList

/-- Index of the first prefix of the name (`plot_utils.py:169-172`). -/
def samplerId (name : List Char) : Option ℕ := samplerPrefixes.findIdx? fun p => p.isPrefixOf name

/-- `sort_based_on_samplers` (`plot_utils.py:138-183`) on one table. -/
def sortSamplers {A : Type*} (t : List (List Char × A)) : List (List Char × A) :=
  let withId := t.filterMap fun e => (samplerId e.1).map fun i => (i, e)
  (withId.mergeSort fun a b => decide (a.1 ≤ b.1)).map Prod.snd

/-! ### Folder names -/

/-- `k` without the prefix of its section (`xm_launcher.py:152-157`). -/
def stripSection (k : List Char) : List Char :=
  let ps := ["config.experiment.".toList, "model_config.".toList, "sampler_config.".toList]
  match ps.find? fun p => p.isPrefixOf k with
  | some p => k.drop p.length
  | none => k

/-- A value of a sweep: a string or another value with its `repr`. -/
inductive SweepVal where
  | str (s : List Char)
  | other (repr : List Char)
  deriving DecidableEq

/-- `f'{v!r}'`; strings without quotes and escapes. -/
def SweepVal.repr : SweepVal → List Char
  | .str s => '\'' :: s ++ ['\'']
  | .other r => r

/-- The folder name of a job (`xm_launcher.py:150-166`), values not starting with `/gcs`. -/
def folderName (workUnit : List Char) (kwargs : List (List Char × SweepVal)) : List Char :=
  let parts := kwargs.map fun kv => stripSection kv.1 ++ '=' :: kv.2.repr
  workUnit ++ '_' :: ((",".toList).intercalate parts).map fun c => if c = '/' then '-' else c

/-- The value of one `key=value` item (`plot_utils.py:80-83`); `none` is the `IndexError` of an empty
value. -/
def parseValue (v : List Char) : Option (List Char) :=
  if v.isEmpty then none
  else if v.head? = some '\'' && v.getLast? = some '\'' then some ((v.drop 1).dropLast)
  else if decide (2 ≤ v.length) && decide (v[1]? = some '(') then some (v.drop 2)
  else some v

/-- `find` of a character, and what follows it; without an occurrence `1 + find` is 0. -/
def afterFirst (c : Char) (s : List Char) : List Char :=
  match s.idxOf? c with
  | some i => s.drop (i + 1)
  | none => s

/-- The loop of `get_experiment_config` (`plot_utils.py:76-86`). -/
def parseItems : List (List Char) → Option (List (List Char × List Char))
  | [] => some []
  | item :: rest =>
    match item.splitOn '=' with
    | [k, v] => do
      let v' ← parseValue v
      let r ← parseItems rest
      return if k = "cfg_str".toList then r else ((k.splitOn '.').getLastD [], v') :: r
    | _ => parseItems rest

/-- Position of a word in a string, `s.find(w)`. -/
def findWord (w : List Char) : List Char → Option ℕ
  | [] => if w.isEmpty then some 0 else none
  | c :: s => if w.isPrefixOf (c :: s) then some 0 else (findWord w s).map (· + 1)

/-- `get_experiment_config` (`plot_utils.py:71-94`). -/
def experimentConfig (folder : List Char) : Option (List (List Char × List Char)) := do
  let s := afterFirst '_' folder
  let items ← parseItems (s.splitOn ',')
  let all := match findWord "cfg_str".toList s with
    | none => items
    | some i => items ++ [("cfg_str".toList,
        (((s.drop (7 + i + 4)).splitOn '\'').headD []).splitOn ',' |>.headD [])]
  return all.foldl (fun d kv => dictSet d kv.1 kv.2) []

end Discs
