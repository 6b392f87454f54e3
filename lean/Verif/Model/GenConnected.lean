import Mathlib.Data.Real.Basic
import Verif.Model.Loader
import Verif.Model.Experiment

/-!
# Model of `gen_connected`

`discs/graph_loader/common.py:9-75`: random connected graphs with random weights, with up to twenty attempts.

The random draws are inputs.  A graph of `networkx` is the list of its nodes in iteration order and the list of its
edges; the iteration order of the view `g.subgraph(...)` depends on the hash order of a Python set, so it is an input
too.  Simplified: the edges of the view come in the order and orientation of the edges of the drawn graph.
-/

namespace Discs

/-- A graph drawn by `nx.erdos_renyi_graph` or `nx.barabasi_albert_graph`: nodes `0..n-1`. -/
structure DrawnGraph where
  /-- Number of nodes. -/
  n : ℕ
  /-- Edges. -/
  edges : List (ℕ × ℕ)

/-- One more level of the breadth first search of `nx.connected_components` (used at `common.py:36`). -/
def DrawnGraph.grow (g : DrawnGraph) (s : List ℕ) : List ℕ :=
  (List.range g.n).filter fun v =>
    decide (v ∈ s) || g.edges.any fun e => decide (e.1 ∈ s ∧ e.2 = v) || decide (e.2 ∈ s ∧ e.1 = v)

/-- The component of `v`: the search has stopped after as many levels as there are nodes. -/
def DrawnGraph.component (g : DrawnGraph) (v : ℕ) : List ℕ := g.grow^[g.n] [v]

/-- `nx.connected_components(g)` (used at `common.py:36`): the component of every node not seen before. -/
def DrawnGraph.components (g : DrawnGraph) : List ℕ → List ℕ → List (List ℕ)
  | [], _ => []
  | v :: vs, seen =>
    if v ∈ seen then g.components vs seen else g.component v :: g.components vs (seen ++ g.component v)

/-- `max(..., key=len)` (`common.py:36`): the first of the longest; `none` is the `ValueError` of an empty sequence. -/
def longest : List (List ℕ) → Option (List ℕ)
  | [] => none
  | c :: cs => some (cs.foldl (fun b c => if b.length < c.length then c else b) c)

/-- What `gen_connected` can raise. -/
inductive GenError where
  /-- Unknown types, an empty sequence, an empty range of random integers. -/
  | value
  /-- A missing keyword argument. -/
  | key
  /-- The assertion of line 57. -/
  | assertion
  /-- `nx.barabasi_albert_graph` with `m < 1` or `m ≥ n`. -/
  | networkx

/-- The arguments (`common.py:9`); keyword arguments may be missing. -/
structure GenArgs where
  /-- `g_type`. -/
  gType : String
  /-- `min_n`. -/
  minN : ℕ
  /-- `max_n`. -/
  maxN : ℕ
  /-- `er_p`. -/
  erP : Option ℝ := none
  /-- `ba_m`. -/
  baM : Option ℕ := none
  /-- `w_type`. -/
  wType : Option String := none
  /-- `w_min`. -/
  wMin : Option ℝ := none
  /-- `w_max`. -/
  wMax : Option ℝ := none
  /-- `w_std`. -/
  wStd : Option ℝ := none
  /-- `w_mean`. -/
  wMean : Option ℝ := none

/-- The random draws of one attempt. -/
structure GenTry where
  /-- `np.random.randint(max_n - min_n + 1)` (`common.py:33`). -/
  size : ℕ
  /-- Edges of the drawn graph (`common.py:35`, `common.py:62`). -/
  edges : List (ℕ × ℕ)
  /-- Iteration order of the nodes of a view. -/
  order : List ℕ → List ℕ
  /-- Uniform draws from `[0, 1)` behind `randint` and `uniform`. -/
  u : ℕ → ℝ
  /-- Standard normal draws. -/
  z : ℕ → ℝ

/-- `rand_fn` (`common.py:12-28`). -/
inductive RandFn where
  /-- `np.random.randint(lo, hi, n)`. -/
  | int (lo hi : ℤ)
  /-- `np.random.uniform(lo, hi, n)`. -/
  | uniform (lo hi : ℝ)
  /-- `np.random.randn(n) * std + mean`. -/
  | normal (std mean : ℝ)

/-- A keyword argument that is read with `kwargs[...]`. -/
def kwarg {α : Type*} (o : Option α) : Except GenError α :=
  match o with
  | some a => .ok a
  | none => .error .key

/-- The choice of `rand_fn` (`common.py:12-30`). -/
noncomputable def randFn (a : GenArgs) : Except GenError (Option RandFn) :=
  match a.wType with
  | none => .ok none
  | some w =>
    if w = "int" ∨ w = "uniform" then do
      let lo ← kwarg a.wMin
      let hi ← kwarg a.wMax
      if w = "int" then .ok (some (.int (pyInt lo) (pyInt hi))) else .ok (some (.uniform lo hi))
    else if w = "normal" then do
      let std ← kwarg a.wStd
      let mean ← kwarg a.wMean
      .ok (some (.normal std mean))
    else .error .value

/-- `rand_fn(n)`: entry `i` from draw `i`; an empty range of integers raises unless nothing is drawn. -/
noncomputable def RandFn.draw (f : RandFn) (t : GenTry) (n : ℕ) : Except GenError (List ℝ) :=
  match f with
  | .int lo hi =>
    if hi ≤ lo ∧ 0 < n then .error .value
    else .ok ((List.range n).map fun i => ((lo + ⌊t.u i * ((hi : ℝ) - lo)⌋ : ℤ) : ℝ))
  | .uniform lo hi => .ok ((List.range n).map fun i => lo + t.u i * (hi - lo))
  | .normal std mean => .ok ((List.range n).map fun i => t.z i * std + mean)

/-- The graph built by lines 34-64 before weights are added: nodes in iteration order and edges; `none` is `continue`. -/
def genPlain (a : GenArgs) (t : GenTry) : Except GenError (Option (List ℕ × List (ℕ × ℕ))) :=
  let curN := t.size + a.minN
  if a.gType = "erdos_renyi" then
    match a.erP with
    | none => .error .key
    | some _ =>
      let g : DrawnGraph := ⟨curN, t.edges⟩
      match longest (g.components (List.range curN) []) with
      | none => .error .value
      | some c =>
        let nodes := t.order c
        let es := t.edges.filter fun e => decide (e.1 ∈ nodes ∧ e.2 ∈ nodes)
        if nodes.length < a.minN then .ok none
        else
          match nodes.max? with
          | none => .error .value
          | some mx =>
            let gcc : Option (List ℕ × List (ℕ × ℕ)) :=
              if mx ≠ nodes.length - 1 then (relabel nodes es).map fun es' => (List.range nodes.length, es')
              else some (nodes, es)
            match gcc with
            | none => .error .key
            | some gcc =>
              match gcc.1.max? with
              | none => .error .value
              | some mx' =>
                if mx' ≠ gcc.1.length - 1 then .error .assertion
                else if gcc.1.length < a.minN ∨ a.maxN < gcc.1.length then .ok none
                else .ok (some gcc)
  else if a.gType = "barabasi_albert" then
    match a.baM with
    | none => .error .key
    | some m => if m < 1 ∨ curN ≤ m then .error .networkx else .ok (some (List.range curN, t.edges))
  else .error .value

/-- A generated graph. -/
structure GenGraph where
  /-- Nodes in iteration order. -/
  nodes : List ℕ
  /-- Edges. -/
  edges : List (ℕ × ℕ)
  /-- Weights of the edges, in the same order; `none` without `w_type`. -/
  weights : Option (List ℝ)

/-- Adding weights (`common.py:66-74`). -/
noncomputable def genWeights (f : Option RandFn) (t : GenTry) (g : List ℕ × List (ℕ × ℕ)) :
    Except GenError GenGraph :=
  match f with
  | none => .ok ⟨g.1, g.2, none⟩
  | some f => do
    let w ← f.draw t g.2.length
    .ok ⟨List.range g.1.length, g.2, some w⟩

/-- The loop `while n_tried < 20` (`common.py:31-75`), from attempt `k` with `fuel` attempts left; a loop that ends
returns Python's `None`. -/
noncomputable def genLoop (a : GenArgs) (f : Option RandFn) (ts : ℕ → GenTry) :
    ℕ → ℕ → Except GenError (Option GenGraph)
  | 0, _ => .ok none
  | fuel + 1, k =>
    if a.maxN < a.minN then .error .value
    else
      match genPlain a (ts k) with
      | .error e => .error e
      | .ok none => genLoop a f ts fuel (k + 1)
      | .ok (some g) => (genWeights f (ts k) g).map some

/-- `gen_connected` (`common.py:9-75`). -/
noncomputable def genConnected (a : GenArgs) (ts : ℕ → GenTry) : Except GenError (Option GenGraph) := do
  let f ← randFn a
  genLoop a f ts 20 0

end Discs
