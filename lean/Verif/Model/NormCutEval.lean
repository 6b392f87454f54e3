import Verif.Model.Comb
import Mathlib.Data.Finset.Lattice.Fold

/-!
# Model of the offline normalised-cut evaluation, the NormCut loader and its initial samples

`discs/common/normcut_evaluator.py`, `discs/graph_loader/normcut_loader.py`,
`discs/models/normcut.py:33-43`.

A pickled networkx graph is the list of its edges (labels `0 … N`) together with the order in which
its nodes were added: `order i` is the label of the `i`-th node.  Iterating over a graph (`g.degree`,
`nx.to_numpy_array`) follows that order, while the model indexes its arrays with the labels.
-/

namespace Discs

open Finset

/-- Entry of the adjacency matrix between two labels: the `weight` attribute of the edge (`1` if
unset), `0` if there is none.  In a networkx `Graph` there is at most one edge, so the sum has at most
one term. -/
noncomputable def adjEntry {N : ℕ} (es : List (Edge N)) (a b : Fin (N + 1)) : ℝ :=
  ((es.filter fun e => decide ((e.u = a ∧ e.v = b) ∨ (e.u = b ∧ e.v = a))).map fun e => e.w).sum

/-- `nx.to_numpy_array(g)` (`normcut_evaluator.py:194`): rows and columns in node order. -/
noncomputable def toNumpyArray {N : ℕ} (es : List (Edge N)) (order : Fin (N + 1) → Fin (N + 1))
    (i j : Fin (N + 1)) : ℝ := adjEntry es (order i) (order j)

/-- `num_cut` (`normcut_evaluator.py:28-34`). -/
noncomputable def numCut {N : ℕ} (groups : Fin (N + 1) → ℕ)
    (adjacencyList : Fin (N + 1) → List (Fin (N + 1))) : ℝ :=
  (∑ i, ((adjacencyList i).map fun j => if groups i ≠ groups j then (1 : ℝ) else 0).sum) / 2

/-- `num_cut_adj_mat` (`normcut_evaluator.py:37-62`): only entries equal to one count. -/
noncomputable def numCutAdjMat {N : ℕ} (groups : Fin (N + 1) → ℕ)
    (adj : Fin (N + 1) → Fin (N + 1) → ℝ) : ℝ :=
  ∑ i, ∑ j ∈ univ.filter (fun j => adj i j = 1), if groups i ≠ groups j then (1 : ℝ) else 0

/-- `calc_volume` (`normcut_evaluator.py:65-70`): `IndexError` (`none`) if a label is not below
`num_groups`. -/
noncomputable def calcVolume {N : ℕ} (groups : Fin (N + 1) → ℕ)
    (adj : Fin (N + 1) → Fin (N + 1) → ℝ) (numGroups : ℕ) : Option (Fin numGroups → ℝ) :=
  if ∀ i, groups i < numGroups then
    some fun c => ∑ i, if groups i = c then ∑ j, adj i j else 0
  else none

/-- `bincount(groups)[:, 1]` (`normcut_evaluator.py:22-25`): the numbers of occurrences of the labels
that occur. -/
def binCounts {N : ℕ} (groups : Fin (N + 1) → ℕ) : List ℕ :=
  ((List.range (univ.sup groups + 1)).map fun c => (univ.filter fun i => groups i = c).card).filter
    fun k => decide (k ≠ 0)

/-- `np.sum(outer_prod)` after `np.fill_diagonal(outer_prod, 0)` (`normcut_evaluator.py:99-101`). -/
def offDiagSum (l : List ℕ) : ℝ :=
  (l.map fun a : ℕ => (l.map fun b : ℕ => (a : ℝ) * (b : ℝ)).sum).sum -
    (l.map fun a : ℕ => (a : ℝ) * (a : ℝ)).sum

/-- What `evaluate` computes. -/
structure NCEval (g : ℕ) where
  cuts : ℝ
  cutRatio : ℝ
  balanceness : ℝ
  errorVol : ℝ
  volumes : Fin g → ℝ

/-- `evaluate` (`normcut_evaluator.py:73-108`).  `none` is an exception: a label that is too large, or the division of a Python
float by zero if the graph has no edges. -/
noncomputable def ncEvaluate {N : ℕ} (groups : Fin (N + 1) → ℕ) (sumDegrees : ℝ)
    (adj : Fin (N + 1) → Fin (N + 1) → ℝ) (g : ℕ) : Option (NCEval g) := do
  let bins := binCounts groups
  let cuts := numCutAdjMat groups adj
  let volumes ← calcVolume groups adj g
  if sumDegrees = 0 then none else some {
    cuts := cuts
    cutRatio := cuts / sumDegrees
    balanceness := offDiagSum bins * g / ((g - 1 : ℝ) * ((N + 1 : ℕ) : ℝ) ^ 2)
    errorVol := (∑ c, |volumes c - sumDegrees / g|) / sumDegrees
    volumes := volumes }

/-- The evaluation of one result file (`normcut_evaluator.py:192-195`): the saved sample is indexed
by labels, the matrix by node order; `sum_degrees` is twice the number of edges. -/
noncomputable def ncEvaluateFile {N : ℕ} (es : List (Edge N)) (order : Fin (N + 1) → Fin (N + 1))
    (sample : Fin (N + 1) → ℕ) (g : ℕ) : Option (NCEval g) :=
  ncEvaluate sample (es.length * 2) (toNumpyArray es order) g

/-- Degree of a node as reported by networkx: a loop counts twice. -/
def nxDegree {N : ℕ} (es : List (Edge N)) (a : Fin (N + 1)) : ℕ :=
  (es.filter fun e => decide (e.u = a)).length + (es.filter fun e => decide (e.v = a)).length

/-- `params['node_degrees']` (`normcut_loader.py:29`): in node order. -/
def nodeDegrees {N : ℕ} (es : List (Edge N)) (order : Fin (N + 1) → Fin (N + 1))
    (i : Fin (N + 1)) : ℝ := nxDegree es (order i)

/-- The length of `params['node_degrees']` for a graph with `n` nodes: it is not padded. -/
def nodeDegreesLen (n : ℕ) : ℕ := n

/-- `utils.tree_stack` on the `node_degrees` of a batch (`sampling.py:493`): `jnp.stack` raises
(`none`) unless all arrays have one length. -/
def stackLens : List ℕ → Option ℕ
  | [] => none
  | n :: l => if ∀ m ∈ l, m = n then some n else none

/-- `get_dummy_sample` (`normcut_loader.py:14-18`): the number of nodes of the padding graph. -/
def ncDummyNodes (numCategories : ℕ) : ℕ := numCategories

/-- One row of `NormCut.get_init_samples` (`normcut.py:33-43`): `arange(C)` followed by `more`
uniform labels, shuffled by `σ`.  With fewer nodes than categories the shape is negative, which
`randint` rejects (`none`).  `more` has `n - C` entries. -/
def ncInitRow (n C : ℕ) (more : List ℕ) (shuffle : List ℕ → List ℕ) : Option (List ℕ) :=
  if C ≤ n then some (shuffle (List.range C ++ more.take (n - C))) else none

end Discs
