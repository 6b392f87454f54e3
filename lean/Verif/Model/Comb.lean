import Mathlib.Data.Real.Basic
import Mathlib.Algebra.BigOperators.Fin
import Mathlib.Data.Fintype.BigOperators
import Mathlib.Algebra.Order.Floor.Ring

/-!
# Model of the combinatorial energies

`discs/common/utils.py:graph2edges`, `discs/models/comb_ebm.py`, `maxcut.py`, `mis.py`,
`maxclique.py`, `normcut.py`.

Node labels are `Fin (N+1)` with `N + 1 = max_num_nodes` (so all gathers and scatters are in bounds,
which is how the loaders number the nodes).  A networkx graph is the list of its edges in
`g.edges(data=True)` order, each with its two endpoints and its `weight` attribute.
-/

namespace Discs

open Finset

/-- An edge as reported by `g.edges(data=True)`. -/
structure Edge (N : ℕ) where
  u : Fin (N + 1)
  v : Fin (N + 1)
  w : ℝ

/-- The arrays returned by `graph2edges` (`utils.py:165-180`), of length `m`. -/
structure EdgeArrays (N m : ℕ) where
  edgeFrom : Fin m → Fin (N + 1)
  edgeTo : Fin m → Fin (N + 1)
  edgeMask : Fin m → ℝ
  edgeWeight : Fin m → ℝ
  numEdges : ℕ

/-- `num_edges` after padding (`utils.py:151-153`). -/
def paddedLen (len padded : ℕ) : ℕ := if padded ≠ 0 ∧ padded > len then padded else len

/-- `graph2edges` (`utils.py:143-181`) with edge weights.  Without weights (`has_edge_weights=False`)
the same arrays are returned except `edge_weight`. -/
def graph2edges {N : ℕ} (es : List (Edge N)) (padded : ℕ) (paddedWeight : ℝ := 0) :
    EdgeArrays N (paddedLen es.length padded) where
  edgeFrom i := if h : i.val < es.length then (es[i.val]).u else 0
  edgeTo i := if h : i.val < es.length then (es[i.val]).v else 0
  edgeMask i := if i.val < es.length then 1 else 0
  edgeWeight i := if h : i.val < es.length then (es[i.val]).w else 0 + paddedWeight
  numEdges := es.length

/-- `bidir_edge_from` (`utils.py:174`). -/
def EdgeArrays.bidirFrom {N m : ℕ} (A : EdgeArrays N m) : Fin (m + m) → Fin (N + 1) :=
  Fin.append A.edgeFrom A.edgeTo

/-- `bidir_edge_to` (`utils.py:175`). -/
def EdgeArrays.bidirTo {N m : ℕ} (A : EdgeArrays N m) : Fin (m + m) → Fin (N + 1) :=
  Fin.append A.edgeTo A.edgeFrom

/-- `bidir_edge_weight` (`utils.py:177-179`). -/
def EdgeArrays.bidirWeight {N m : ℕ} (A : EdgeArrays N m) : Fin (m + m) → ℝ :=
  Fin.append A.edgeWeight A.edgeWeight

/-- Node mask of the MIS, max-clique and normcut loaders: `arange(max_num_nodes) < num_nodes`
(`mis_loader.py:30`, `maxclique_loader.py:26`). -/
def nodeMask {N : ℕ} (numNodes : ℕ) (v : Fin (N + 1)) : ℝ := if v.val < numNodes then 1 else 0

/-- `CombEBM.forward` (`comb_ebm.py:26-29`) on one sample. -/
noncomputable def combForward {X : Type*} (objective penalty : X → ℝ) (temperature : ℝ) (x : X) : ℝ :=
  (objective x - penalty x) / temperature

/-- `CombEBM.evaluate` (`comb_ebm.py:41-42`). -/
noncomputable def combEvaluate {X : Type*} (objective penalty : X → ℝ) (temperature : ℝ) (x : X) : ℝ :=
  combForward objective penalty temperature x * temperature

/-- `BinaryNodeCombEBM.get_neighbor_fn` (`comb_ebm.py:53-57`), one row. -/
def combNeighbor {N : ℕ} (x : Fin (N + 1) → ℤ) (j : Fin (N + 1)) : Fin (N + 1) → ℤ :=
  fun i => if i = j then 1 - x j else x i

/-! ### MaxCut -/

/-- `Maxcut.objective` (`maxcut.py:29-38`), one row. -/
noncomputable def maxcutObjective {N m : ℕ} (A : EdgeArrays N m) (x : Fin (N + 1) → ℝ) : ℝ :=
  let s := fun v => x v * 2 - 1
  ∑ i, (1 - s (A.edgeFrom i) * s (A.edgeTo i)) / 2 * A.edgeWeight i

/-- The default `CombEBM.penalty` (`comb_ebm.py:23-24`). -/
def noPenalty {X : Type*} (_ : X) : ℝ := 0

/-- `cut_weight` of `Maxcut.logratio_in_neighborhood` (`maxcut.py:45-50`). -/
noncomputable def maxcutCutWeight {N m : ℕ} (A : EdgeArrays N m) (temperature : ℝ)
    (x : Fin (N + 1) → ℝ) : ℝ :=
  (∑ i, (x (A.bidirFrom i) - x (A.bidirTo i)) ^ 2 * A.bidirWeight i) / 2 / temperature

/-- `logratio` of `Maxcut.logratio_in_neighborhood` (`maxcut.py:51-58`). -/
noncomputable def maxcutLogratio {N m : ℕ} (A : EdgeArrays N m) (temperature : ℝ)
    (x : Fin (N + 1) → ℝ) (v : Fin (N + 1)) : ℝ :=
  let diffArr := ∑ i, if A.bidirFrom i = v then A.bidirWeight i * (1 - 2 * x (A.bidirTo i)) else 0
  diffArr * (1 - x v * 2) / temperature

/-! ### Maximum independent set -/

/-- `MIS.penalty` (`mis.py:24-35`), one row. -/
def misPenalty {N m : ℕ} (A : EdgeArrays N m) (mask : Fin (N + 1) → ℝ) (coeff : ℝ)
    (x : Fin (N + 1) → ℝ) : ℝ :=
  let x := fun v => x v * mask v
  coeff * ∑ i, x (A.edgeFrom i) * x (A.edgeTo i) * A.edgeMask i

/-- `MIS.objective` (`mis.py:37-40`), one row; also `MaxClique.objective` (`maxclique.py:38-41`). -/
def misObjective {N : ℕ} (mask : Fin (N + 1) → ℝ) (x : Fin (N + 1) → ℝ) : ℝ := ∑ v, x v * mask v

/-- `logratio` of `MIS.logratio_in_neighborhood` (`mis.py:42-55`). -/
noncomputable def misLogratio {N m : ℕ} (A : EdgeArrays N m) (mask : Fin (N + 1) → ℝ)
    (coeff temperature : ℝ) (x : Fin (N + 1) → ℝ) (v : Fin (N + 1)) : ℝ :=
  let diffArr := ∑ i, if A.bidirFrom i = v then coeff * x (A.bidirTo i) else 0
  let sign := (1 - x v * 2) * mask v
  (sign - sign * diffArr) / temperature * mask v + -1e9 * (1 - mask v)

/-! ### Maximum clique -/

/-- `MaxClique.penalty` (`maxclique.py:24-36`), one row. -/
noncomputable def cliquePenalty {N m : ℕ} (A : EdgeArrays N m) (mask : Fin (N + 1) → ℝ) (coeff : ℝ)
    (x : Fin (N + 1) → ℝ) : ℝ :=
  let x := fun v => x v * mask v
  let cliqueSize := ∑ v, x v
  let totalEdgesNeeded := cliqueSize * (cliqueSize - 1) / 2
  let coveredEdges := ∑ i, x (A.edgeFrom i) * x (A.edgeTo i) * A.edgeMask i
  coeff * (totalEdgesNeeded - coveredEdges)

/-! ### Normalised cut -/

/-- `NormCut.get_cut_sizes` (`normcut.py:45-55`) on one one-hot encoded sample. -/
def ncCutSizes {N m C : ℕ} (A : EdgeArrays N m) (x : Fin (N + 1) → Fin C → ℝ) (c : Fin C) : ℝ :=
  ∑ i, (-(x (A.edgeFrom i) c + x (A.edgeTo i) c) ^ 2 + 2 * (x (A.edgeFrom i) c + x (A.edgeTo i) c))

/-- Configuration of the balance cost (`normcut.py:14-23`). -/
structure NCConfig where
  penalty : ℝ
  quad : Bool
  avgSize : ℝ
  tolerance : ℝ
  eps : ℝ

/-- `NormCut.objective` (`normcut.py:57-77`) on one one-hot encoded sample. -/
noncomputable def ncObjective {N m C : ℕ} (cfg : NCConfig) (A : EdgeArrays N m)
    (deg : Fin (N + 1) → ℝ) (x : Fin (N + 1) → Fin C → ℝ) : ℝ :=
  let cut := ncCutSizes A x
  if cfg.penalty > 0 then
    let sizes := fun c => ∑ v, x v c
    let ncost := if cfg.quad then ∑ c, (sizes c - cfg.avgSize) ^ 2
      else ∑ c, (max (sizes c - cfg.avgSize - cfg.tolerance) 0 ^ 2 +
        max (cfg.avgSize - cfg.tolerance - sizes c) 0 ^ 2);
    -((∑ c, cut c) + cfg.penalty * ncost)
  else
    let volume := fun c => ∑ v, x v c * deg v;
    -(∑ c, (cut c + cfg.eps) / (volume c + cfg.eps ^ 2))

/-- `NormCut.forward` (`normcut.py:79-81`). -/
noncomputable def ncForward {N m C : ℕ} (cfg : NCConfig) (A : EdgeArrays N m)
    (deg : Fin (N + 1) → ℝ) (temperature : ℝ) (x : Fin (N + 1) → Fin C → ℝ) : ℝ :=
  ncObjective cfg A deg x / temperature

/-- Integer one-hot encoding (`normcut.py:84-86`). -/
def oneHotInt {N C : ℕ} (v : Fin (N + 1) → Fin C) : Fin (N + 1) → Fin C → ℤ :=
  fun i c => if c = v i then 1 else 0

/-- `cur_cut_sizes` (`normcut.py:91-94`). -/
noncomputable def ncCurCut {N m C : ℕ} (A : EdgeArrays N m) (x : Fin (N + 1) → Fin C → ℤ) (c : Fin C) :
    ℝ :=
  ((∑ i, (x (A.bidirFrom i) c + x (A.bidirTo i) c) % 2 : ℤ) : ℝ) / 2

/-- `new_cut_sizes[v, k, c]` (`normcut.py:96-106`). -/
noncomputable def ncNewCut {N m C : ℕ} (A : EdgeArrays N m) (x : Fin (N + 1) → Fin C → ℤ)
    (v : Fin (N + 1)) (k c : Fin C) : ℝ :=
  let eye : ℤ := if k = c then 1 else 0
  ncCurCut A x c + ((∑ i, if A.bidirFrom i = v then
    (eye + x (A.bidirTo i) c) % 2 - (x (A.bidirFrom i) c + x (A.bidirTo i) c) % 2 else 0 : ℤ) : ℝ)

/-- `cur_obj` (`normcut.py:110`, `114-115`): the first returned value. -/
noncomputable def ncCurObj {N m C : ℕ} (eps : ℝ) (A : EdgeArrays N m) (deg : Fin (N + 1) → ℝ)
    (temperature : ℝ) (x : Fin (N + 1) → Fin C → ℤ) : ℝ :=
  -(∑ c, (ncCurCut A x c + eps) / ((∑ v, (x v c : ℝ) * deg v) + eps ^ 2)) / temperature

/-- `log_ratio[v, k]` (`normcut.py:83-117`). -/
noncomputable def ncLogratio {N m C : ℕ} (eps : ℝ) (A : EdgeArrays N m) (deg : Fin (N + 1) → ℝ)
    (temperature : ℝ) (x : Fin (N + 1) → Fin C → ℤ) (v : Fin (N + 1)) (k : Fin C) : ℝ :=
  let diffVolume := fun c : Fin C => ((if k = c then 1 else 0) - (x v c : ℝ)) * deg v
  let curVolume := fun c => ∑ v, (x v c : ℝ) * deg v
  let newObj := -(∑ c, (ncNewCut A x v k c + eps) / (curVolume c + diffVolume c + eps ^ 2)) /
    temperature
  newObj - ncCurObj eps A deg temperature x

end Discs
