import Verif.Model.TempPlot

/-!
# Model of `discs/plot_results/plot_ais.py`

The figures of the annealed estimates of `log Z` against the steps.  Strings are lists of characters, dictionaries
association lists, `none` a Python exception.  The flag `key` has its default `name`.  Colours, legends and axes are
not modelled, nor that an interactive `plt.show()` (line 113) comes before `plt.savefig`.
-/

namespace Discs

/-- `process_keys` (`plot_ais.py:146-191`) and the deletion of `save_samples` (lines 341-342). -/
def logzKeys (d : ExpDict) : Option ExpDict :=
  (dictGet d "name".toList).map fun n =>
    dictDel (keyBalancing (keyAdaptive (dictDel (keySolver (dictSet d "name".toList (tempShort n)))
      "approx_with_grad".toList))) "save_samples".toList

/-- An experiment: its processed keys and the array of `logz.pkl`. -/
abbrev LogzExp := ExpDict × List ℝ

/-- `dict_o_keys['name']`. -/
def LogzExp.label (e : LogzExp) : List Char := (dictGet e.1 "name".toList).getD []

/-- One folder (`plot_ais.py:337-349`).  The keys are read by `get_experiment_config` (lines 128-143), the same as in
`plot_ising_temp.py`.  `read` is the array in the folder's `logz.pkl`, `none` if it cannot be opened. -/
def logzExp (read : List Char → Option (List ℝ)) (folder : List Char) : Option LogzExp := do
  let d ← tempConfig folder
  let k ← logzKeys d
  let l ← read folder
  return (k, l)

/-- The points of a curve, `np.arange(len(res))` against the values (`plot_ais.py:98-103`). -/
def logzPoints (res : List ℝ) : List (ℕ × ℝ) := (List.range res.length).zip res

/-- The curves of one figure (`plot_ais.py:85-103`): of the runs in a row only `[...]['logz'][0]` is drawn. -/
def logzCurves (t : ResTable (List ℝ)) : Option (List (List Char × List (ℕ × ℝ))) :=
  t.mapM fun e => do
    let runs ← dictGet e.2 "logz".toList
    let res ← runs.head?
    return (e.1, logzPoints res)

/-- The figures with the names of their files, from the experiments (`plot_ais.py:350-356`):
`get_clusters_key_based` (lines 54-71), `organize_experiments` (lines 194-224), `sort_based_on_samplers`
(lines 253-298), `plot_results` (lines 74-76). -/
def logzFigures (exps : List LogzExp) : Option (List (List Char × List (List Char × List (ℕ × ℝ)))) :=
  (clustersBy "name".toList (exps.map Prod.fst)).mapM fun c => do
    let t ← organizeCluster (c.map fun i =>
      ((exps.getD i ([], [])).label, [("logz".toList, (exps.getD i ([], [])).2)]))
    let cs ← logzCurves (sortSamplers t)
    return (saveTitle (exps.getD (c.headD 0) ([], [])).1, cs)

/-- `main` (`plot_ais.py:324-356`) from the list of folders.  `val` is the value a folder is sorted by
(`sort_based_on_key`, lines 227-250, the same as `get_ticks_and_sorted_experiments` of `plot_results.py`). -/
def logzPlot {V : Type*} [LinearOrder V] (isPic : List Char → Bool) (val : List Char → V)
    (read : List Char → Option (List ℝ)) (folders : List (List Char)) :
    Option (List (List Char × List (List Char × List (ℕ × ℝ)))) :=
  ((sortFolders isPic val folders).mapM fun f => logzExp read f.1).bind logzFigures

end Discs
