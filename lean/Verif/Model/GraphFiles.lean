import Verif.Model.Loader
import Mathlib.Data.String.Basic
import Mathlib.Algebra.Order.Field.Rat

/-!
# Model of the graph loader classes

`discs/graph_loader/graph_gen.py` and the classes of `maxcut_loader.py`, `mis_loader.py`, `maxclique_loader.py` and
`normcut_loader.py`: choice of the class, choice and order of the files, sizes, and the instances yielded by
`sample_gen(phase='test', repeat=False)`.  A pickled file is its list of records; strings are lists of characters.
-/

namespace Discs

/-- The loader classes. -/
inductive GraphLoader
  | optsicomStatic | optsicomGen | randGraph | erTest | satLib | erDensity | rbTest | twitter | nets | gapRand
deriving DecidableEq, Repr

/-- `graph_gen.py:9-37` `get_graphs`; `none` is the `ValueError` of line 37. -/
def getGraphs (graphType randType : List Char) : Option GraphLoader :=
  if graphType = "optsicom".toList then
    if randType = "b".toList then some .optsicomStatic else some .optsicomGen
  else if "ba".toList.isPrefixOf graphType then some .randGraph
  else if "ertest".toList.isPrefixOf graphType then some .erTest
  else if "satlib".toList.isPrefixOf graphType then some .satLib
  else if "er_density".toList.isPrefixOf graphType then some .erDensity
  else if "er".toList.isPrefixOf graphType then some .randGraph
  else if graphType = "rb".toList then some .rbTest
  else if graphType = "twitter".toList then some .twitter
  else if graphType = "nets".toList then some .nets
  else if graphType = "gap_rand".toList then some .gapRand
  else none

/-- `self.file_list` with the content of each file (`maxcut_loader.py:34-38`, `mis_loader.py:40-44`, `mis_loader.py:145-149`,
`maxclique_loader.py:36-40`, `maxclique_loader.py:76-80`, `normcut_loader.py:69-73`): the files of the folder with names
accepted by `keep`, sorted by path.  `dir` is `os.listdir`, in any order. -/
def fileList {α : Type*} (keep : List Char → Bool) (folder : List Char) (dir : List (List Char × α)) :
    List (List Char × α) :=
  ((dir.filter fun f => keep f.1).map fun f => (folder ++ '/' :: f.1, f.2)).mergeSort fun a b => decide (a.1 ≤ b.1)

/-- Names accepted by `RandGraphGen` (`maxcut_loader.py:36`). -/
def keepRand (n : List Char) : Bool := "test-".toList.isPrefixOf n
/-- Names accepted by `ErTestGraphGen` (`mis_loader.py:42`). -/
def keepEr (n : List Char) : Bool := "ER".toList.isPrefixOf n
/-- Names accepted by `SatLibGraphGen` (`mis_loader.py:147`). -/
def keepSat (n : List Char) : Bool := ".cnf".toList.isSuffixOf n
/-- Names accepted by `RBTestGraphGen` (`maxclique_loader.py:38`). -/
def keepRB (n : List Char) : Bool := "RB".toList.isPrefixOf n
/-- Names accepted by `TwitterGraphs` (`maxclique_loader.py:78`). -/
def keepTwitter (n : List Char) : Bool := "twitter".toList.isPrefixOf n
/-- Names accepted by `RandGraphs` (`normcut_loader.py:71`). -/
def keepGap (n : List Char) : Bool := "pkl".toList.isSuffixOf n

/-- Sizes `(max_num_nodes, max_num_edges, num_instances)`: those of the configuration if all three are positive, otherwise
found by scanning the graphs (`maxcut_loader.py:39-59`, `mis_loader.py:45-61`, `mis_loader.py:150-164`,
`maxclique_loader.py:41-53`, `maxclique_loader.py:81-93`). -/
def loaderSizes (cfg : ℕ × ℕ × ℕ) (gs : List (ℕ × ℕ)) : ℕ × ℕ × ℕ :=
  if cfg.1 > 0 ∧ cfg.2.1 > 0 ∧ cfg.2.2 > 0 then cfg else scanSizes gs

section Yields
variable {G : Type*}

/-- `RandGraphGen.sample_gen` (`maxcut_loader.py:63-76`): records `(g, [sol, …])`; a record with an empty second component
raises (`none`). -/
def randYields (files : List (List Char × List (G × List ℚ))) : Option (List (G × ℚ)) :=
  (files.flatMap (·.2)).mapM fun d => d.2.head?.map fun sol => (d.1, sol)

/-- One turn of the loop over the nodes (`mis_loader.py:71-73`). -/
def erAdd (obj : ℚ) : Option ℚ → ℚ
  | some v => obj + v
  | none => obj

/-- Reference value of `ErTestGraphGen` (`mis_loader.py:70-76`) from the node attributes `label` (`none`: no such attribute). -/
def erRef (labels : List (Option ℚ)) : ℚ :=
  let obj := labels.foldl erAdd 0
  if obj = 0 then 1 else obj

/-- `ErTestGraphGen.sample_gen` (`mis_loader.py:64-78`): one graph per file. -/
def erYields (labels : G → List (Option ℚ)) (files : List (List Char × G)) : List (G × ℚ) :=
  files.map fun f => (f.2, erRef (labels f.2))

/-- `ErDensityGraphGen.sample_gen` (`mis_loader.py:101-107`): one file with a list of graphs. -/
def densityYields (gs : List G) : List (G × ℚ) := gs.map fun g => (g, 1)

/-- `SatLibGraphGen.sample_gen` (`mis_loader.py:169-177`); `conv` is `cnf2graph`, which may raise. -/
def satYields {F : Type*} (conv : F → Option G) (files : List (List Char × F)) : Option (List (G × ℚ)) :=
  files.mapM fun f => (conv f.2).map fun g => (g, 1)

/-- `RBTestGraphGen.sample_gen` (`maxclique_loader.py:58-67`): files of pairs `(obj, g)`. -/
def rbYields (files : List (List Char × List (ℚ × G))) : List (G × ℚ) :=
  files.flatMap fun f => f.2.map fun p => (p.2, p.1)

/-- The graphs counted by `RBTestGraphGen.__init__` (`maxclique_loader.py:48-53`). -/
def rbGraphs (files : List (List Char × List (ℚ × G))) : List G := files.flatMap fun f => f.2.map (·.2)

/-- `TwitterGraphs.sample_gen` (`maxclique_loader.py:98-107`): files holding a list of graphs and a list of values, zipped. -/
def twitterYields (files : List (List Char × List G × List ℚ)) : List (G × ℚ) :=
  files.flatMap fun f => f.2.1.zip f.2.2

/-- The graphs counted by `TwitterGraphs.__init__` (`maxclique_loader.py:88-93`). -/
def twitterGraphs (files : List (List Char × List G × List ℚ)) : List G := files.flatMap fun f => f.2.1

/-- `RandGraphs.sample_gen` (`normcut_loader.py:82-90`); its sizes are those of the configuration (lines 74-76). -/
def gapYields (files : List (List Char × G)) : List (G × ℚ) := files.map fun f => (f.2, 1)

end Yields

/-! ### `nx.Graph`: insertion-ordered adjacency -/

/-- `Graph._adj`: node ↦ neighbour ↦ weight, both dicts in insertion order. -/
abbrev NxGraph := List (ℤ × List (ℤ × ℚ))

/-- `g.add_node(u)` (also the first lines of `add_edge`). -/
def nxAddNode (g : NxGraph) (u : ℤ) : NxGraph := if g.any fun p => p.1 = u then g else g ++ [(u, [])]

/-- `g.add_edge(u, v, weight=w)`. -/
def nxAddEdge (g : NxGraph) (u v : ℤ) (w : ℚ) : NxGraph :=
  let g := nxAddNode (nxAddNode g u) v
  let g := dictSet g u (dictSet ((dictGet g u).getD []) v w)
  dictSet g v (dictSet ((dictGet g v).getD []) u w)

/-- `g.edges(data=True)`: node by node, skipping neighbours already seen. -/
def nxEdgesFrom : List ℤ → NxGraph → List (ℤ × ℤ × ℚ)
  | _, [] => []
  | seen, (n, nbrs) :: rest =>
    (nbrs.filter fun p => p.1 ∉ seen).map (fun p => (n, p.1, p.2)) ++ nxEdgesFrom (n :: seen) rest

/-- `g.edges(data=True)`. -/
def nxEdges (g : NxGraph) : List (ℤ × ℤ × ℚ) := nxEdgesFrom [] g

/-! ### `OptsicomGen` (`maxcut_loader.py:111-186`) -/

/-- Choice of noise in the constructor (`maxcut_loader.py:128-136`): `(bias, rand_type)`, `none` in the second component for
`'b'`; the whole is `none` if `float` raises. -/
def optsicomNoise (parseFloat : List Char → Option ℚ) (randType : List Char) : Option (ℕ × Option ℚ) :=
  let (bias, rt) := if 1 < randType.length ∧ randType.getLast? = some 'b' then (1, randType.dropLast) else (0, randType)
  if rt = "b".toList then some (bias, none) else (parseFloat rt).map fun v => (bias, some v)

/-- One file (`maxcut_loader.py:141-154`): header `(num_nodes, num_edges)` and rows `x y w`; `none` is a failing assertion. -/
def optsicomRead (f : (ℕ × ℕ) × List (ℤ × ℤ × ℤ)) : Option NxGraph :=
  let g := f.2.foldl (fun g r => nxAddEdge g (r.1 - 1) (r.2.1 - 1) (r.2.2 : ℚ)) ([] : NxGraph)
  if g.length = f.1.1 ∧ (nxEdges g).length = f.1.2 then some g else none

/-- `gen_graph` (`maxcut_loader.py:160-177`); `draw i` is the random number of the `i`-th edge (`randint(2)` or `randn()`).
`g.add_nodes_from(range(len(g)))` adds nothing, since `g` is empty. -/
def optsicomGraph (noise : ℕ × Option ℚ) (randWeight : Bool) (draw : ℕ → ℚ) (orig : NxGraph) : NxGraph :=
  ((nxEdges orig).zipIdx).foldl (fun g e =>
    let w : ℚ := e.1.2.2
    let w : ℚ := if randWeight then
        (match noise.2 with
          | none => draw e.2 * 2 - 1
          | some v => w + draw e.2 * v) + noise.1
      else w
    nxAddEdge g e.1.1 e.1.2.1 w) ((List.range ([] : NxGraph).length).foldl (fun g i => nxAddNode g i) [])

/-- Construction and `sample_gen` (`maxcut_loader.py:114-158`, `maxcut_loader.py:179-186`): sizes and instances. -/
def optsicomGen (parseFloat : List Char → Option ℚ) (randType : List Char) (draw : ℕ → ℕ → ℚ)
    (files : List ((ℕ × ℕ) × List (ℤ × ℤ × ℤ))) : Option ((ℕ × ℕ × ℕ) × List (NxGraph × ℚ)) := do
  let noise ← optsicomNoise parseFloat randType
  let graphs ← files.mapM optsicomRead
  let sizes := files.foldl (fun st f => (max st.1 f.1.1, max st.2 f.1.2)) (0, 0)
  some ((sizes.1, sizes.2, graphs.length),
    graphs.zipIdx.map fun g => (optsicomGraph noise false (draw g.2) g.1, 1))

end Discs
