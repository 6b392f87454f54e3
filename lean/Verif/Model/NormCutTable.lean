import Verif.Model.NormCutEval
import Verif.Model.TempPlot
import Verif.Model.Experiment

/-!
# Model of `discs/common/normcut_evaluator.py:main`

The table of cut ratios and balances over the runs of a sweep.  Strings are lists of characters, `none` is a Python exception.
The printed messages are not modelled.
-/

namespace Discs

/-- The short names (`normcut_evaluator.py:129-136`). -/
def ncShort (n : List Char) : List Char :=
  if n = "hammingball".toList then "hb-10-1".toList
  else if n = "blockgibbs".toList then "bg-2".toList
  else if n = "randomwalk".toList then "rmw".toList
  else if n = "path_auxiliary".toList then "pafs".toList
  else n

/-- `process_keys` (`normcut_evaluator.py:128-168`): the treatment of `solver`, `adaptive` and `balancing_fn_type` is that of
`plot_utils.py`; `approx_with_grad` is left alone. -/
def ncKeys (d : ExpDict) : Option ExpDict :=
  (dictGet d "name".toList).map fun n =>
    keyBalancing (keyAdaptive (keySolver (dictSet d "name".toList (ncShort n))))

/-- `bincount(groups)[:, 1]` (`normcut_evaluator.py:22-25`) of a whole row. -/
def listBins (x : List ℕ) : List ℕ :=
  ((List.range (x.foldr max 0 + 1)).map fun c => x.count c).filter fun k => decide (k ≠ 0)

/-- `evaluate(x, len(g), len(g.edges()) * 2, adj_mat, ng)` (`normcut_evaluator.py:73-108, 194-195`): cut ratio and balanceness
of a saved row.  A row that is too short is an `IndexError`; the rest of a longer one is only seen by `bincount`. -/
noncomputable def ncEvaluateRow {N : ℕ} (es : List (Edge N)) (order : Fin (N + 1) → Fin (N + 1)) (x : List ℕ) (g : ℕ) :
    Option (ℝ × ℝ) :=
  if h : N + 1 ≤ x.length then
    let groups : Fin (N + 1) → ℕ := fun i => x[i.val]'(by omega)
    (ncEvaluate groups (es.length * 2) (toNumpyArray es order) g).map fun r =>
      (r.cutRatio, offDiagSum (listBins x) * g / ((g - 1 : ℝ) * ((N + 1 : ℕ) : ℝ) ^ 2))
  else none

/-- A line of the table below the header `sampler, cut ratio, balanceness`. -/
structure NCRow where
  sampler : List Char
  cutRatio : ℝ
  balance : ℝ

/-- One folder (`normcut_evaluator.py:184-203`): `ng` is three; `none` for the results is a missing `results.pkl`, an empty list
of samples a missing key `best_samples` (`experiment_saver.py:127-128`). -/
noncomputable def ncTableRow {N : ℕ} (es : List (Edge N)) (order : Fin (N + 1) → Fin (N + 1))
    (f : List Char × Option (COResults (List ℕ))) : Option NCRow := do
  let d ← tempConfig f.1
  let d ← ncKeys d
  let res ← f.2
  let x ← res.bestSamples.head?
  let s ← ncEvaluateRow es order x 3
  let name ← dictGet d "name".toList
  return ⟨name, s.1, s.2⟩

/-- The lines of `res.csv` (`normcut_evaluator.py:180-203`): one for every folder, sorted by name. -/
noncomputable def ncTable {N : ℕ} (es : List (Edge N)) (order : Fin (N + 1) → Fin (N + 1))
    (dir : List (List Char × Option (COResults (List ℕ)))) : Option (List NCRow) :=
  (dir.mergeSort fun a b => decide (a.1 ≤ b.1)).mapM (ncTableRow es order)

/-- What a run leaves in `results.pkl` (`sampling.py:652-656`, `experiment_saver.py:121-129`): samples are kept if asked for or if
the model is `normcut`. -/
def coSaved {K X S V : Type*} {M : ℕ} (saveSamples : Bool) (model : String) (idx : Fin M → ℤ) (v : COVars K X S V M) :
    COResults V :=
  ⟨v.chain, maskedBest idx v.best, if saveSamples || decide (model = "normcut") then List.ofFn v.bestSamples else []⟩

end Discs
