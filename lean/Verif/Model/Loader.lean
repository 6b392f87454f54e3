import Mathlib.Data.Int.Notation
import Mathlib.Algebra.Order.Group.Int
import Verif.Model.Comb

/-!
# Model of the graph loaders and the config-string parser

`discs/graph_loader/common.py`, `discs/graph_loader/mis_loader.py`,
`discs/common/utils.py:parse_cfg_str`.
-/

namespace Discs

/-! ### `GraphGenerator.get_iterator` (`graph_loader/common.py:105-138`)

An item is the pair `(graph2edges(g), sol)` of one instance; generators are lists of yields. -/

/-- The main loop (`common.py:121-127`): `idx` is the running index, `buffer` the current buffer.
Returns the batches yielded by the loop and the buffer left at its end. -/
def scanBatches {α : Type*} (numProc procIdx localBatch : ℕ) :
    ℕ → List (ℤ × α) → List α → List (List (ℤ × α)) × List (ℤ × α)
  | _, buffer, [] => ([], buffer)
  | idx, buffer, x :: xs =>
    if idx % numProc = procIdx then
      let buffer := buffer ++ [((idx : ℤ), x)]
      if buffer.length = localBatch then
        let r := scanBatches numProc procIdx localBatch (idx + 1) [] xs
        (buffer :: r.1, r.2)
      else scanBatches numProc procIdx localBatch (idx + 1) buffer xs
    else scanBatches numProc procIdx localBatch (idx + 1) buffer xs

/-- The padding loop (`common.py:128-138`), run `k` times. -/
def padBatches {α : Type*} (localBatch : ℕ) (dummy : α) : ℕ → List (ℤ × α) → List (List (ℤ × α))
  | 0, _ => []
  | k + 1, buffer =>
    (buffer ++ List.replicate (localBatch - buffer.length) ((-1 : ℤ), dummy)) ::
      padBatches localBatch dummy k []

/-- `total_batches` (`common.py:115-117`). -/
def totalBatches (numInstances batchSize : ℕ) : ℕ :=
  if numInstances % batchSize ≠ 0 then numInstances / batchSize + 1 else numInstances / batchSize

/-- `get_iterator` (`common.py:105-138`) with `sharding=True`; `numProc = 1, procIdx = 0` is
`sharding=False`.  `none` is the failing assertion of line 113 or the division by
zero of line 115. -/
def getIterator {α : Type*} (numProc procIdx batchSize numInstances : ℕ) (dummy : α) (items : List α) :
    Option (List (List (ℤ × α))) :=
  if batchSize % numProc = 0 ∧ batchSize ≠ 0 then
    let localBatch := batchSize / numProc
    let r := scanBatches numProc procIdx localBatch 0 [] items
    some (r.1 ++ padBatches localBatch dummy
      (totalBatches numInstances batchSize - r.1.length) r.2)
  else none

/-! ### Sizes found by scanning the instances -/

/-- `_max_num_nodes, _max_num_edges, _num_instances` after the scan over all files
(`maxcut_loader.py:47-59`, `mis_loader.py:56-61`, `mis_loader.py:93-96`); a graph is given by its
numbers of nodes and edges. -/
def scanSizes (gs : List (ℕ × ℕ)) : ℕ × ℕ × ℕ :=
  gs.foldl (fun st g => (max st.1 g.1, max st.2.1 g.2, st.2.2 + 1)) (0, 0, 0)

/-! ### `gen_connected`: relabelling of the largest component (`graph_loader/common.py:44-56`) -/

/-- `idx_map` (`common.py:46-49`): nodes in iteration order get `0, 1, 2, …`. -/
def idxMap (nodes : List ℕ) : List (ℕ × ℕ) :=
  nodes.foldl (fun m idx => m ++ [(idx, m.length)]) []

/-- Lookup in `idx_map`; `none` is a `KeyError`. -/
def idxLookup (m : List (ℕ × ℕ)) (a : ℕ) : Option ℕ := (m.find? fun p => p.1 = a).map (·.2)

/-- The relabelled edges (`common.py:53-54`). -/
def relabel (nodes : List ℕ) (edges : List (ℕ × ℕ)) : Option (List (ℕ × ℕ)) :=
  edges.mapM fun e => do
    let a ← idxLookup (idxMap nodes) e.1
    let b ← idxLookup (idxMap nodes) e.2
    pure (a, b)

/-! ### `SatLibGraphGen.cnf2graph` (`mis_loader.py:113-140`)

A formula is the list of its clauses, a clause a list of non-zero integers. -/

/-- The loop over clauses (`mis_loader.py:121-135`): `ind` maps each literal to the nodes created for
it.  `none` is an `IndexError` (fewer than three literals) or a `KeyError` (a literal that is not one
of `±1..±nv`). -/
def cnfLoop (nv : ℕ) : ℕ → (ℤ → List ℕ) → List (ℕ × ℕ) → List (List ℤ) →
    Option ((ℤ → List ℕ) × List (ℕ × ℕ))
  | _, ind, edges, [] => some (ind, edges)
  | i, ind, edges, clause :: rest =>
    match clause with
    | a :: b :: c :: _ =>
      if (a ≠ 0 ∧ a.natAbs ≤ nv) ∧ (b ≠ 0 ∧ b.natAbs ≤ nv) ∧ (c ≠ 0 ∧ c.natAbs ≤ nv) then
        let aa := 3 * i + 0
        let bb := 3 * i + 1
        let cc := 3 * i + 2
        let ind := Function.update ind a (ind a ++ [aa])
        let ind := Function.update ind b (ind b ++ [bb])
        let ind := Function.update ind c (ind c ++ [cc])
        cnfLoop nv (i + 1) ind (edges ++ [(aa, bb), (aa, cc), (bb, cc)]) rest
      else none
    | _ => none

/-- `cnf2graph` (`mis_loader.py:113-140`): the edge list handed to `nx.from_edgelist`. -/
def cnf2graph (nv : ℕ) (clauses : List (List ℤ)) : Option (List (ℕ × ℕ)) := do
  let clauses := clauses.filter fun c => !c.isEmpty
  let (ind, edges) ← cnfLoop nv 0 (fun _ => []) [] clauses
  some (edges ++ (List.range nv).flatMap fun i : ℕ =>
    (ind ((i : ℤ) + 1)).flatMap fun u => (ind (-((i : ℤ) + 1))).map fun v => (u, v))

/-! ### `parse_cfg_str` (`utils.py:184-192`) -/

/-- Assignment `d[k] = v` in a Python dict kept as a list in insertion order. -/
def dictSet {K V : Type*} [DecidableEq K] (d : List (K × V)) (k : K) (v : V) : List (K × V) :=
  if d.any fun p => p.1 = k then d.map fun p => if p.1 = k then (k, v) else p else d ++ [(k, v)]

/-- `d.get(k)`. -/
def dictGet {K V : Type*} [DecidableEq K] (d : List (K × V)) (k : K) : Option V :=
  (d.find? fun p => p.1 = k).map (·.2)

/-- One `key-value` item (`utils.py:188-190`). -/
def parseKV (kv : List Char) : List Char × List Char :=
  let args := kv.splitOn '-'
  (args.headD [], ['-'].intercalate args.tail)

/-- `parse_cfg_str` (`utils.py:184-192`); strings are lists of characters. -/
def parseCfg (cfg : List Char) : List (List Char × List Char) :=
  (cfg.splitOn ',').foldl (fun d kv => dictSet d (parseKV kv).1 (parseKV kv).2) []

end Discs
