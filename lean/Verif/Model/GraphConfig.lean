import Verif.Model.GraphFiles

/-!
# Model of the graph configurations and of the data they lead to

`discs/models/configs/{maxcut,mis,maxclique,normcut}/*.py` (`get_model_config`), `graph_gen.get_graphs`,
`utils.get_datagen`, and the stacking of a batch of instances (`utils.tree_stack`,
`discs/experiment/sampling.py:492-493`).  Strings are lists of characters; files, their names and pickles are in
`Model/GraphFiles.lean`.
-/

namespace Discs

/-- The entries returned by `get_model_config`; `none` is an entry that the file does not set. -/
structure GraphModelCfg where
  /-- `name` (set by `maxclique/rb.py` only). -/
  name : Option (List Char)
  /-- `num_models`. -/
  numModels : ℕ
  /-- `max_num_nodes`. -/
  maxNodes : ℕ
  /-- `max_num_edges`. -/
  maxEdges : ℕ
  /-- `num_instances` (missing in `maxcut/optsicom.py`). -/
  numInstances : Option ℕ
  /-- `num_categories`. -/
  numCategories : ℕ
  /-- `rand_type`. -/
  randType : List Char
  /-- `penalty`. -/
  penalty : Option ℚ
  /-- `tolerance`. -/
  tolerance : Option ℚ
deriving DecidableEq

/-- `extra_cfg['r']` (`utils.py:184-192` and the first lines of the configurations); `none` is a `KeyError`. -/
def cfgRand (cfgStr : List Char) : Option (List Char) := dictGet (parseCfg cfgStr) "r".toList

/-- Sizes by the end of `rand_type` (`maxcut/ba.py:10-20`, `maxcut/er.py:9-19`); `es` are the numbers of edges of the
three cases. -/
def sizesBySuffix (es : ℕ × ℕ × ℕ) (randType : List Char) : ℕ × ℕ :=
  if "1024-1100".toList.isSuffixOf randType then (1100, es.1)
  else if "512-600".toList.isSuffixOf randType then (600, es.2.1)
  else if "256-300".toList.isSuffixOf randType then (300, es.2.2)
  else (0, 0)

/-- `maxcut/ba.py:7-31`. -/
def cfgBa (cfgStr : List Char) : Option GraphModelCfg := do
  let r ← cfgRand cfgStr
  let s := sizesBySuffix (4384, 2384, 1184) r
  some ⟨none, 1024, s.1, s.2, some 1000, 2, r, none, none⟩

/-- `maxcut/er.py:5-31`. -/
def cfgEr (cfgStr : List Char) : Option GraphModelCfg := do
  let r ← cfgRand cfgStr
  let s := sizesBySuffix (91239, 27132, 6839) r
  some ⟨none, 128, s.1, s.2, some 1000, 2, r, none, none⟩

/-- `maxcut/optsicom.py:5-19`. -/
def cfgOptsicom (cfgStr : List Char) : Option GraphModelCfg := do
  let r ← cfgRand cfgStr
  some ⟨none, 1, 0, 0, none, 2, r, none, none⟩

/-- `mis/ertest.py:7-30`. -/
def cfgErTest (cfgStr : List Char) : Option GraphModelCfg := do
  let r ← cfgRand cfgStr
  let s : ℕ × ℕ × ℕ := if r = "800".toList then (800, 47885, 128)
    else if r = "10k".toList then (10915, 1190799, 16) else (0, 0, 0)
  some ⟨none, 128, s.1, s.2.1, some s.2.2, 2, r, none, none⟩

/-- `mis/er_density.py:7-21`. -/
def cfgErDensity (cfgStr : List Char) : Option GraphModelCfg := do
  let r ← cfgRand cfgStr
  some ⟨none, 32, 0, 0, some 0, 2, r, none, none⟩

/-- `mis/satlib.py:6-23`. -/
def cfgSatlib : GraphModelCfg := ⟨none, 512, 1347, 5978, some 500, 2, [], some 1.0001, none⟩

/-- `maxclique/rb.py:4-23`. -/
def cfgRb : GraphModelCfg := ⟨some "maxclique".toList, 512, 475, 90585, some 500, 2, [], some 1, none⟩

/-- `maxclique/twitter.py:4-22`. -/
def cfgTwitter : GraphModelCfg := ⟨none, 200, 247, 12174, some 196, 2, [], some 1, none⟩

/-- `normcut/nets.py:7-21`. -/
def cfgNets (cfgStr : List Char) : Option GraphModelCfg := do
  let r ← cfgRand cfgStr
  some ⟨none, 1, 0, 0, some 0, 3, r, some 0.0005, some 0.03⟩

/-- `normcut/gap_rand.py:6-19`. -/
def cfgGapRand : GraphModelCfg := ⟨none, 5, 1000, 50369, some 5, 3, "test-1000".toList, some 1, some 0.03⟩

/-- The graph configuration (`main_sampling.py:39-43`): import of
`discs.models.configs.<name>.<graph_type>` and `get_model_config(cfg_str)`; `none` if the module does not exist or the
call raises. -/
def graphConfig (name graphType cfgStr : List Char) : Option GraphModelCfg :=
  if name = "maxcut".toList then
    if graphType = "ba".toList then cfgBa cfgStr
    else if graphType = "er".toList then cfgEr cfgStr
    else if graphType = "optsicom".toList then cfgOptsicom cfgStr
    else none
  else if name = "mis".toList then
    if graphType = "ertest".toList then cfgErTest cfgStr
    else if graphType = "er_density".toList then cfgErDensity cfgStr
    else if graphType = "satlib".toList then some cfgSatlib
    else none
  else if name = "maxclique".toList then
    if graphType = "rb".toList then some cfgRb
    else if graphType = "twitter".toList then some cfgTwitter
    else none
  else if name = "normcut".toList then
    if graphType = "nets".toList then cfgNets cfgStr
    else if graphType = "gap_rand".toList then some cfgGapRand
    else none
  else none

/-- The base class of a loader, which fixes the arrays of an instance and the dummy instance
(`maxcut_loader.py:11`, `mis_loader.py:13`, `maxclique_loader.py:12`, `normcut_loader.py:11`). -/
def GraphLoader.problem : GraphLoader → List Char
  | .optsicomStatic | .optsicomGen | .randGraph => "maxcut".toList
  | .erTest | .satLib | .erDensity => "mis".toList
  | .rbTest | .twitter => "maxclique".toList
  | .nets | .gapRand => "normcut".toList

/-- `(max_num_nodes, max_num_edges, num_instances)` of the constructed loader, from the configuration and the numbers
of nodes and edges of the stored graphs; `none` if a missing entry is read.  `maxcut_loader.py:39-58` (the order of the
tests matters: `num_instances` is read only if the two maxima are positive), `maxcut_loader.py:79-97`,
`maxcut_loader.py:139-158`, `mis_loader.py:45-59`, `mis_loader.py:90-95`, `mis_loader.py:150-164`,
`maxclique_loader.py:41-53`, `maxclique_loader.py:81-93`, `normcut_loader.py:46-48`, `normcut_loader.py:74-76`. -/
def GraphLoader.sizes (l : GraphLoader) (c : GraphModelCfg) (gs : List (ℕ × ℕ)) : Option (ℕ × ℕ × ℕ) :=
  match l with
  | .randGraph | .erTest | .satLib | .rbTest | .twitter =>
    if c.maxNodes > 0 ∧ c.maxEdges > 0 then c.numInstances.map fun n => loaderSizes (c.maxNodes, c.maxEdges, n) gs
    else some (scanSizes gs)
  | .optsicomStatic | .optsicomGen | .erDensity => some (scanSizes gs)
  | .nets => some (match gs.head? with
    | some g => (g.1, g.2, 1)
    | none => (0, 0, 1))
  | .gapRand => c.numInstances.map fun n => (c.maxNodes, c.maxEdges, n)

/-- Numbers of nodes and edges of the dummy instance (`maxcut_loader.py:19-22`, `mis_loader.py:16-19`,
`maxclique_loader.py:15-18`, `normcut_loader.py:14-18`). -/
def GraphLoader.dummy (l : GraphLoader) (numCategories : ℕ) : ℕ × ℕ :=
  match l with
  | .nets | .gapRand => (numCategories, 0)
  | _ => (2, 1)

/-- Lengths of the arrays of one instance that depend on the instance: the edge arrays (padded) and, for normalised
cuts, `node_degrees`, which is not padded (`normcut_loader.py:20-31`; the masks of all loaders have the common length
`max_num_nodes`).  A graph is given by its numbers of nodes and edges. -/
def GraphLoader.arrayLens (l : GraphLoader) (maxEdges : ℕ) (g : ℕ × ℕ) : List ℕ :=
  match l with
  | .nets | .gapRand => [paddedLen g.2 maxEdges, g.1]
  | _ => [paddedLen g.2 maxEdges]

/-- `utils.tree_stack` (`utils.py:37-48`): `jnp.stack` raises unless the arrays of all instances have the same length. -/
def GraphLoader.stacks (l : GraphLoader) (maxEdges : ℕ) (gs : List (ℕ × ℕ)) : Bool :=
  decide (∀ g ∈ gs, ∀ g' ∈ gs, l.arrayLens maxEdges g = l.arrayLens maxEdges g')

/-- What the model knows about its data after construction (`utils.py:195-205`, `comb_ebm.py:13-15`). -/
structure GraphData where
  /-- The class of the loader. -/
  loader : GraphLoader
  /-- `config.model.max_num_nodes`; also the only entry of `config.model.shape`. -/
  maxNodes : ℕ
  /-- `config.model.max_num_edges`. -/
  maxEdges : ℕ
  /-- The batches of `get_iterator('test', num_models)`. -/
  batches : List (List (ℤ × (ℕ × ℕ)))

/-- `get_datagen` (`utils.py:201-205`) for a configuration that came from `graphConfig`; the stored graphs are given by
their numbers of nodes and edges. -/
def getDatagen (graphType : List Char) (c : GraphModelCfg) (gs : List (ℕ × ℕ)) : Option GraphData := do
  let l ← getGraphs graphType c.randType
  let s ← l.sizes c gs
  let bs ← getIterator 1 0 c.numModels s.2.2 (l.dummy c.numCategories) gs
  some ⟨l, s.1, s.2.1, bs⟩

/-- The run of a graph configuration up to the stacked parameters of each batch: `none` if anything raises. -/
def graphRun (name graphType cfgStr : List Char) (gs : List (ℕ × ℕ)) : Option GraphData := do
  let c ← graphConfig name graphType cfgStr
  let d ← getDatagen graphType c gs
  if d.batches.all fun b => d.loader.stacks d.maxEdges (b.map (·.2)) then some d else none

end Discs
