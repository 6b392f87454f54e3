import Verif.Lemmas.Comb
import Mathlib.Data.Sym.Card
import Mathlib.Data.Nat.Choose.Cast
import Mathlib.Data.List.FinRange
import Mathlib.Algebra.BigOperators.Field
import Mathlib.Tactic.LinearCombination

/-!
# C38–C42, C44: combinatorial energies

The specifications below speak only about the list of edges of the graph.
-/

namespace Discs.Spec

variable {N : ℕ}

/-- A 0/1 sample. -/
def IsBinary (x : Fin (N + 1) → ℝ) : Prop := ∀ v, x v = 0 ∨ x v = 1

/-- No self-loops (networkx graphs of the loaders). -/
def Loopless (es : List (Edge N)) : Prop := ∀ e ∈ es, e.u ≠ e.v

/-- All edges join nodes of the graph (labels below `numNodes`). -/
def EdgesBelow (numNodes : ℕ) (es : List (Edge N)) : Prop :=
  ∀ e ∈ es, e.u.val < numNodes ∧ e.v.val < numNodes

/-- A simple graph: no self-loop and no unordered pair listed twice. -/
def Simple (es : List (Edge N)) : Prop := Loopless es ∧ (es.map fun e => s(e.u, e.v)).Nodup

/-- Total weight of the edges whose endpoints lie on different sides of `x`. -/
noncomputable def cutWeight (es : List (Edge N)) (x : Fin (N + 1) → ℝ) : ℝ :=
  (es.map fun e => if x e.u ≠ x e.v then e.w else 0).sum

/-- The sample with one site flipped. -/
def flipAt (x : Fin (N + 1) → ℝ) (v : Fin (N + 1)) : Fin (N + 1) → ℝ := Function.update x v (1 - x v)

/-- Nodes of the graph chosen by a sample. -/
noncomputable def chosen (numNodes : ℕ) (x : Fin (N + 1) → ℝ) : Finset (Fin (N + 1)) :=
  Finset.univ.filter fun v => v.val < numNodes ∧ x v = 1

/-- The 0/1 sample choosing exactly `S`. -/
noncomputable def indicator (S : Finset (Fin (N + 1))) : Fin (N + 1) → ℝ :=
  fun v => if v ∈ S then 1 else 0

/-- `S` is independent: no edge has both endpoints in `S`. -/
def IsIndep (es : List (Edge N)) (S : Finset (Fin (N + 1))) : Prop :=
  ∀ e ∈ es, ¬ (e.u ∈ S ∧ e.v ∈ S)

/-- `S` is a clique: any two distinct members are joined by an edge. -/
def IsClique (es : List (Edge N)) (S : Finset (Fin (N + 1))) : Prop :=
  ∀ a ∈ S, ∀ b ∈ S, a ≠ b → ∃ e ∈ es, s(e.u, e.v) = s(a, b)

end Discs.Spec

set_option linter.unnecessarySeqFocus false

namespace Discs

open Finset Spec

variable {N : ℕ}

/-! ### C44: edge arrays -/

/-- **C44.** Reading the arrays where the mask is one gives back the edges of the graph, with their
weights, in order, each once. -/
theorem graph2edges_represents (es : List (Edge N)) (padded : ℕ) :
    (List.finRange (paddedLen es.length padded)).filterMap (fun i =>
      if (graph2edges es padded).edgeMask i = 1 then
        some (⟨(graph2edges es padded).edgeFrom i, (graph2edges es padded).edgeTo i,
          (graph2edges es padded).edgeWeight i⟩ : Edge N)
      else none) = es := by
  have h : ∀ (m : ℕ) (hm : es.length ≤ m),
      (List.finRange m).filterMap (fun i : Fin m => if h : i.val < es.length then some es[i.val] else none)
        = es := by
    intro m hm
    obtain ⟨k, rfl⟩ := Nat.exists_eq_add_of_le hm
    have e1 : List.finRange (es.length + k) =
        (List.finRange es.length).map (Fin.castAdd k) ++ (List.finRange k).map (Fin.natAdd es.length) := by
      refine List.ext_getElem (by simp) fun n h1 h2 => ?_
      rw [List.getElem_append]
      split_ifs with h3
      · simp
      · apply Fin.ext; simp at h3 ⊢; omega
    rw [e1, List.filterMap_append, List.filterMap_map, List.filterMap_map]
    have e2 : (List.finRange k).filterMap ((fun i : Fin (es.length + k) =>
        if h : i.val < es.length then some es[i.val] else none) ∘ Fin.natAdd es.length) = [] := by
      rw [List.filterMap_eq_nil_iff]
      intro a _
      simp
    have e3 : (List.finRange es.length).filterMap ((fun i : Fin (es.length + k) =>
        if h : i.val < es.length then some es[i.val] else none) ∘ Fin.castAdd k) = es := by
      have : ((fun i : Fin (es.length + k) =>
        if h : i.val < es.length then some es[i.val] else none) ∘ Fin.castAdd k) =
        fun i : Fin es.length => some es[i.val] := by
        funext i; simp
      rw [this]
      have h4 : (fun i : Fin es.length => some es[i.val]) = some ∘ fun i : Fin es.length => es[i.val] := rfl
      rw [h4, List.filterMap_eq_map]
      refine List.ext_getElem (by simp) fun n h1 h2 => by simp
    rw [e2, e3, List.append_nil]
  refine Eq.trans ?_ (h _ (le_paddedLen _ padded))
  congr 1
  funext i
  unfold graph2edges
  by_cases hi : i.val < es.length <;> simp [hi]

/-- **C44 (padding).** The mask is one exactly on the edges; padding entries are `(0, 0)` with weight
zero; the number of entries is the larger of the number of edges and the padding length; the
reported number of edges is the real one. -/
theorem graph2edges_padding (es : List (Edge N)) (padded : ℕ) :
    paddedLen es.length padded = max es.length padded ∧
    (graph2edges es padded).numEdges = es.length ∧
    ∀ i, ((graph2edges es padded).edgeMask i = 1 ↔ i.val < es.length) ∧
      ((graph2edges es padded).edgeMask i = 0 ↔ es.length ≤ i.val) ∧
      (es.length ≤ i.val → (graph2edges es padded).edgeFrom i = 0 ∧
        (graph2edges es padded).edgeTo i = 0 ∧ (graph2edges es padded).edgeWeight i = 0) := by
  refine ⟨by unfold paddedLen; split_ifs <;> omega, rfl, fun i => ⟨?_, ?_, ?_⟩⟩
  · unfold graph2edges; simp
  · unfold graph2edges; simp
  · intro h; unfold graph2edges; simp [not_lt.2 h]

/-- **C44 (bidirectional arrays).** Entry `i` of the first half is the edge, of the second half its
reverse, with the same weight. -/
theorem graph2edges_bidir {m : ℕ} (A : EdgeArrays N m) (i : Fin m) :
    (A.bidirFrom (Fin.castAdd m i) = A.edgeFrom i ∧ A.bidirTo (Fin.castAdd m i) = A.edgeTo i ∧
      A.bidirWeight (Fin.castAdd m i) = A.edgeWeight i) ∧
    (A.bidirFrom (Fin.natAdd m i) = A.edgeTo i ∧ A.bidirTo (Fin.natAdd m i) = A.edgeFrom i ∧
      A.bidirWeight (Fin.natAdd m i) = A.edgeWeight i) := by
  simp only [EdgeArrays.bidirFrom, EdgeArrays.bidirTo, EdgeArrays.bidirWeight, Fin.append_left,
    Fin.append_right, and_self]

/-! ### C42: temperature -/

/-- **C42.** `evaluate` is objective minus penalty whatever the temperature, … -/
theorem comb_evaluate {X : Type*} (obj pen : X → ℝ) {T : ℝ} (hT : T ≠ 0) (x : X) :
    combEvaluate obj pen T x = obj x - pen x := by
  unfold combEvaluate combForward; field_simp

/-- … and a positive temperature does not change which of two samples has the larger
log-likelihood. -/
theorem comb_order {X : Type*} (obj pen : X → ℝ) {T : ℝ} (hT : 0 < T) (x y : X) :
    combForward obj pen T x ≤ combForward obj pen T y ↔ obj x - pen x ≤ obj y - pen y := by
  unfold combForward; exact div_le_div_iff_of_pos_right hT

/-! ### C40: MaxCut -/

/-- **C40.** For every 0/1 sample, graph and padding, the evaluated MaxCut score is the weight of
the edges cut. -/
theorem maxcut_score (es : List (Edge N)) (padded : ℕ) {T : ℝ} (hT : T ≠ 0) {x : Fin (N + 1) → ℝ}
    (hx : IsBinary x) :
    combEvaluate (maxcutObjective (graph2edges es padded)) noPenalty T x = cutWeight es x := by
  rw [comb_evaluate _ _ hT, noPenalty, sub_zero]
  unfold maxcutObjective
  rw [sum_graph2edges es padded (fun a b _ w =>
    (1 - (x a * 2 - 1) * (x b * 2 - 1)) / 2 * w) 0]
  simp only [add_zero, mul_zero]
  refine list_sum_map_congr fun e _ => ?_
  rcases hx e.u with h1 | h1 <;> rcases hx e.v with h2 | h2 <;> simp [h1, h2] <;> norm_num

/-- **C40 (symmetry).** Swapping the two sides does not change the score. -/
theorem maxcut_swap {m : ℕ} (A : EdgeArrays N m) (x : Fin (N + 1) → ℝ) :
    maxcutObjective A (fun v => 1 - x v) = maxcutObjective A x := by
  unfold maxcutObjective
  refine Finset.sum_congr rfl fun i _ => ?_
  ring

/-- Concrete case: a triangle with weights 1, 2, 4 split into {0} and {1, 2}, padded to 5 edges. -/
example : combEvaluate (maxcutObjective (graph2edges
    ([⟨0, 1, 1⟩, ⟨1, 2, 2⟩, ⟨0, 2, 4⟩] : List (Edge 2)) 5)) noPenalty 3
    (fun v => if v = 0 then 1 else 0) = 5 := by
  rw [maxcut_score _ _ (by norm_num) (fun v => by by_cases h : v = 0 <;> simp [h])]
  simp [cutWeight]
  norm_num

/-! ### C41: neighbourhood log-ratios -/

theorem flipAt_apply (x : Fin (N + 1) → ℝ) (v i : Fin (N + 1)) :
    flipAt x v i = if i = v then 1 - x v else x i := by
  unfold flipAt Function.update
  by_cases h : i = v
  · subst h; simp
  · simp [h]

/-- **C41 (MaxCut).** The first returned value is `forward x` and the log-ratio of each neighbour is
the difference of log-likelihoods, for every loopless graph, padding, temperature and 0/1 sample. -/
theorem maxcut_logratio_exact (es : List (Edge N)) (hl : Loopless es) (padded : ℕ) (T : ℝ)
    {x : Fin (N + 1) → ℝ} (hx : IsBinary x) (v : Fin (N + 1)) :
    maxcutCutWeight (graph2edges es padded) T x =
        combForward (maxcutObjective (graph2edges es padded)) noPenalty T x ∧
      maxcutLogratio (graph2edges es padded) T x v =
        combForward (maxcutObjective (graph2edges es padded)) noPenalty T (flipAt x v) -
          combForward (maxcutObjective (graph2edges es padded)) noPenalty T x := by
  have hsq : ∀ a b, (1 - (x a * 2 - 1) * (x b * 2 - 1)) / 2 = (x a - x b) ^ 2 := by
    intro a b
    rcases hx a with h1 | h1 <;> rcases hx b with h2 | h2 <;> simp [h1, h2] <;> norm_num
  constructor
  · unfold maxcutCutWeight combForward maxcutObjective
    rw [sum_bidir _ fun a b w => (x a - x b) ^ 2 * w, noPenalty, sub_zero]
    congr 1
    rw [Finset.sum_div]
    refine Finset.sum_congr rfl fun i _ => ?_
    rw [hsq]; ring
  · unfold maxcutLogratio combForward
    rw [sum_bidir _ fun a b w => if a = v then w * (1 - 2 * x b) else 0]
    simp only [noPenalty, sub_zero]
    rw [← sub_div]
    congr 1
    unfold maxcutObjective
    rw [← Finset.sum_sub_distrib, Finset.sum_mul]
    rw [sum_graph2edges es padded (fun a b _ w => ((if a = v then w * (1 - 2 * x b) else 0) +
        if b = v then w * (1 - 2 * x a) else 0) * (1 - x v * 2)) 0,
      sum_graph2edges es padded (fun a b _ w =>
        (1 - (flipAt x v a * 2 - 1) * (flipAt x v b * 2 - 1)) / 2 * w -
          (1 - (x a * 2 - 1) * (x b * 2 - 1)) / 2 * w) 0]
    congr 1
    · refine list_sum_map_congr fun e he => ?_
      have hne := hl e he
      simp only [flipAt_apply]
      by_cases h1 : e.u = v
      · have h2 : e.v ≠ v := fun h => hne (h1.trans h.symm)
        simp only [h1, h2, if_true, if_false]; ring
      · by_cases h2 : e.v = v
        · simp only [h1, h2, if_true, if_false]; ring
        · simp only [h1, h2, if_false]; ring
    · congr 1
      simp only [add_zero, zero_mul, mul_zero, ite_self]
      ring

/-- Sum of the chosen neighbours of `v` (each edge counted). -/
noncomputable def nbrSum (es : List (Edge N)) (x : Fin (N + 1) → ℝ) (v : Fin (N + 1)) : ℝ :=
  (es.map fun e => (if e.u = v then x e.v else 0) + if e.v = v then x e.u else 0).sum

/-- Difference of the MIS log-likelihood under a flip of a real node. -/
theorem mis_flip_difference (es : List (Edge N)) (hl : Loopless es) {n : ℕ} (hn : EdgesBelow n es)
    (padded : ℕ) (coeff T : ℝ) (x : Fin (N + 1) → ℝ) {v : Fin (N + 1)} (hv : v.val < n) :
    combForward (misObjective (nodeMask n)) (misPenalty (graph2edges es padded) (nodeMask n) coeff) T
        (flipAt x v) -
      combForward (misObjective (nodeMask n)) (misPenalty (graph2edges es padded) (nodeMask n) coeff) T x =
      (1 - x v * 2) * (1 - coeff * nbrSum es x v) / T := by
  unfold combForward
  rw [← sub_div]
  congr 1
  have hobj : misObjective (nodeMask n) (flipAt x v) - misObjective (nodeMask n) x = 1 - x v * 2 := by
    unfold misObjective
    rw [← Finset.sum_sub_distrib, Finset.sum_eq_single v]
    · simp only [flipAt_apply, nodeMask, hv, if_true]; ring
    · intro b _ hb
      simp only [flipAt_apply, hb, if_false, sub_self]
    · simp
  have hpen : misPenalty (graph2edges es padded) (nodeMask n) coeff (flipAt x v) -
      misPenalty (graph2edges es padded) (nodeMask n) coeff x = coeff * ((1 - x v * 2) * nbrSum es x v) := by
    unfold misPenalty
    rw [← mul_sub, ← Finset.sum_sub_distrib]
    rw [sum_graph2edges es padded (fun a b k _ =>
      flipAt x v a * nodeMask n a * (flipAt x v b * nodeMask n b) * k -
        x a * nodeMask n a * (x b * nodeMask n b) * k) 0]
    simp only [mul_zero, sub_self, add_zero]
    congr 1
    unfold nbrSum
    rw [← list_sum_map_mul_left]
    refine list_sum_map_congr fun e he => ?_
    have hne := hl e he
    obtain ⟨hu, hv'⟩ := hn e he
    simp only [flipAt_apply, nodeMask, hu, hv', if_true]
    by_cases h1 : e.u = v
    · have h2 : e.v ≠ v := fun h => hne (h1.trans h.symm)
      simp only [h1, h2, if_true, if_false]; ring
    · by_cases h2 : e.v = v
      · simp only [h1, h2, if_true, if_false]; ring
      · simp only [h1, h2, if_false]; ring
  linear_combination hobj - hpen

/-- What `MIS.logratio_in_neighborhood` returns for a real node: the true difference plus a spurious
term at node 0, `2 · (number of padding entries) · coeff · x₀ / T`, because the padding entries
`(0, 0)` are not masked out. -/
theorem mis_logratio_formula (es : List (Edge N)) (hl : Loopless es) {n : ℕ} (hn : EdgesBelow n es)
    (padded : ℕ) (coeff T : ℝ) {x : Fin (N + 1) → ℝ} (hx : IsBinary x) {v : Fin (N + 1)}
    (hv : v.val < n) :
    misLogratio (graph2edges es padded) (nodeMask n) coeff T x v =
      (combForward (misObjective (nodeMask n)) (misPenalty (graph2edges es padded) (nodeMask n) coeff) T
          (flipAt x v) -
        combForward (misObjective (nodeMask n)) (misPenalty (graph2edges es padded) (nodeMask n) coeff) T
          x) +
      if v = 0 then 2 * (paddedLen es.length padded - es.length : ℕ) * coeff * x 0 / T else 0 := by
  rw [mis_flip_difference es hl hn padded coeff T x hv]
  unfold misLogratio
  rw [sum_bidir _ fun a b _ => if a = v then coeff * x b else 0]
  rw [sum_graph2edges es padded (fun a b _ _ => (if a = v then coeff * x b else 0) +
    if b = v then coeff * x a else 0) 0]
  have hs : (es.map fun e : Edge N => (if e.u = v then coeff * x e.v else 0) +
      if e.v = v then coeff * x e.u else 0).sum = coeff * nbrSum es x v := by
    unfold nbrSum
    rw [← list_sum_map_mul_left]
    refine list_sum_map_congr fun e _ => ?_
    split_ifs <;> ring
  rw [hs]
  simp only [nodeMask, hv, if_true, mul_one, sub_self, mul_zero, add_zero]
  by_cases h0 : v = 0
  · subst h0
    simp only [if_true]
    rcases hx 0 with h | h <;> simp only [h] <;> ring
  · have h1 : ¬ (0 : Fin (N + 1)) = v := fun h => h0 h.symm
    simp only [h0, h1, if_false]
    ring

/-- **C41 (MIS), partial:** exact when the arrays carry no padding; missing: padded graphs, where the
statement is false (`mis_logratio_wrong`). -/
theorem mis_logratio_exact_partial (es : List (Edge N)) (hl : Loopless es) {n : ℕ}
    (hn : EdgesBelow n es) {padded : ℕ} (hp : padded ≤ es.length) (coeff T : ℝ)
    {x : Fin (N + 1) → ℝ} (hx : IsBinary x) {v : Fin (N + 1)} (hv : v.val < n) :
    misLogratio (graph2edges es padded) (nodeMask n) coeff T x v =
      combForward (misObjective (nodeMask n)) (misPenalty (graph2edges es padded) (nodeMask n) coeff) T
          (flipAt x v) -
        combForward (misObjective (nodeMask n)) (misPenalty (graph2edges es padded) (nodeMask n) coeff) T
          x := by
  rw [mis_logratio_formula es hl hn padded coeff T hx hv]
  have : paddedLen es.length padded - es.length = 0 := by unfold paddedLen; split_ifs <;> omega
  rw [this]; simp

/-- **C41 is false for MIS on padded graphs:** whenever the arrays are padded, node 0 is chosen and
the penalty is non-zero, the log-ratio of un-choosing node 0 is wrong. -/
theorem mis_logratio_wrong (es : List (Edge N)) (hl : Loopless es) {n : ℕ} (hn : EdgesBelow n es)
    (hn0 : 0 < n) {padded : ℕ} (hp : es.length < padded) {coeff T : ℝ} (hc : coeff ≠ 0) (hT : T ≠ 0)
    {x : Fin (N + 1) → ℝ} (hx : IsBinary x) (hx0 : x 0 = 1) :
    misLogratio (graph2edges es padded) (nodeMask n) coeff T x 0 ≠
      combForward (misObjective (nodeMask n)) (misPenalty (graph2edges es padded) (nodeMask n) coeff) T
          (flipAt x 0) -
        combForward (misObjective (nodeMask n)) (misPenalty (graph2edges es padded) (nodeMask n) coeff) T
          x := by
  rw [mis_logratio_formula es hl hn padded coeff T hx (by simpa using hn0), if_pos rfl, hx0]
  intro h
  have h2 : 2 * ((paddedLen es.length padded - es.length : ℕ) : ℝ) * coeff * 1 / T = 0 := by linarith
  have h3 : ((paddedLen es.length padded - es.length : ℕ) : ℝ) ≠ 0 := by
    have : paddedLen es.length padded = padded := by unfold paddedLen; split_ifs <;> omega
    rw [this]
    exact_mod_cast (Nat.sub_pos_of_lt hp).ne'
  have : (2 * ((paddedLen es.length padded - es.length : ℕ) : ℝ) * coeff * 1 / T) ≠ 0 := by
    refine div_ne_zero ?_ hT
    simp [h3, hc]
  exact this h2

/-- The hypotheses of `mis_logratio_wrong` are met by one edge padded to two entries. -/
example : ∃ (es : List (Edge 1)) (x : Fin 2 → ℝ), Loopless es ∧ EdgesBelow 2 es ∧ es.length < 2 ∧
    IsBinary x ∧ x 0 = 1 :=
  ⟨[⟨0, 1, 1⟩], fun v => if v = 0 then 1 else 0, by simp [Loopless], by simp [EdgesBelow], by simp,
    fun v => by by_cases h : v = 0 <;> simp [h], by simp⟩

/-! ### C38: maximum independent set -/

theorem masked_eq {x : Fin (N + 1) → ℝ} (hx : IsBinary x) (n : ℕ) (v : Fin (N + 1)) :
    x v * nodeMask n v = if v ∈ chosen n x then 1 else 0 := by
  unfold nodeMask chosen
  simp only [Finset.mem_filter, Finset.mem_univ, true_and]
  rcases hx v with h | h <;> simp [h]

/-- Number of edges inside a set. -/
noncomputable def insideCount (es : List (Edge N)) (S : Finset (Fin (N + 1))) : ℕ :=
  (es.filter fun e => decide (e.u ∈ S ∧ e.v ∈ S)).length

theorem sum_inside (es : List (Edge N)) (S : Finset (Fin (N + 1))) :
    (es.map fun e => (if e.u ∈ S then (1 : ℝ) else 0) * (if e.v ∈ S then 1 else 0)).sum =
      insideCount es S := by
  induction es with
  | nil => simp [insideCount]
  | cons e l ih =>
    rw [List.map_cons, List.sum_cons, ih]
    unfold insideCount
    by_cases h1 : e.u ∈ S <;> by_cases h2 : e.v ∈ S <;> simp [h1, h2] <;> ring

theorem mis_objective_card {x : Fin (N + 1) → ℝ} (hx : IsBinary x) (n : ℕ) :
    misObjective (nodeMask n) x = (chosen n x).card := by
  unfold misObjective
  simp only [masked_eq hx]
  simp

/-- The evaluated MIS score of a 0/1 sample: chosen nodes minus `coeff` per violated edge. -/
theorem mis_score (es : List (Edge N)) (padded n : ℕ) (coeff : ℝ) {T : ℝ} (hT : T ≠ 0)
    {x : Fin (N + 1) → ℝ} (hx : IsBinary x) :
    combEvaluate (misObjective (nodeMask n)) (misPenalty (graph2edges es padded) (nodeMask n) coeff) T x
      = (chosen n x).card - coeff * insideCount es (chosen n x) := by
  rw [comb_evaluate _ _ hT, mis_objective_card hx]
  congr 1
  simp only [misPenalty]
  congr 1
  rw [sum_graph2edges es padded (fun a b k _ =>
    x a * nodeMask n a * (x b * nodeMask n b) * k) 0]
  simp only [mul_zero, add_zero, mul_one, masked_eq hx]
  exact sum_inside es _

theorem indicator_binary (S : Finset (Fin (N + 1))) : IsBinary (indicator S) := by
  intro v; unfold indicator; by_cases h : v ∈ S <;> simp [h]

theorem chosen_indicator {S : Finset (Fin (N + 1))} {n : ℕ} (hS : ∀ v ∈ S, v.val < n) :
    chosen n (indicator S) = S := by
  ext v
  rw [chosen, Finset.mem_filter]
  unfold indicator
  constructor
  · rintro ⟨-, -, h⟩; by_contra hv; simp [hv] at h
  · intro h; exact ⟨Finset.mem_univ _, hS v h, by simp [h]⟩

theorem insideCount_eq_zero {es : List (Edge N)} {S : Finset (Fin (N + 1))} :
    insideCount es S = 0 ↔ IsIndep es S := by
  unfold insideCount IsIndep
  rw [List.length_eq_zero_iff, List.filter_eq_nil_iff]
  simp

/-- Removing one endpoint of each violated edge leaves an independent set. -/
theorem exists_indep (es : List (Edge N)) (S : Finset (Fin (N + 1))) :
    ∃ S' ⊆ S, IsIndep es S' ∧ S.card ≤ S'.card + insideCount es S := by
  refine ⟨S \ ((es.filter fun e => decide (e.u ∈ S ∧ e.v ∈ S)).map (·.u)).toFinset,
    Finset.sdiff_subset, ?_, ?_⟩
  · rintro e he ⟨h1, h2⟩
    rw [Finset.mem_sdiff] at h1 h2
    apply h1.2
    rw [List.mem_toFinset, List.mem_map]
    exact ⟨e, List.mem_filter.2 ⟨he, by simp [h1.1, h2.1]⟩, rfl⟩
  · have h1 := Finset.card_le_card_sdiff_add_card (s := S)
      (t := ((es.filter fun e => decide (e.u ∈ S ∧ e.v ∈ S)).map (·.u)).toFinset)
    have h2 := List.toFinset_card_le ((es.filter fun e => decide (e.u ∈ S ∧ e.v ∈ S)).map (·.u))
    rw [List.length_map] at h2
    unfold insideCount
    omega

/-- **C38 (independent sets score their size).** -/
theorem mis_score_indep (es : List (Edge N)) (padded n : ℕ) (coeff : ℝ) {T : ℝ} (hT : T ≠ 0)
    {S : Finset (Fin (N + 1))} (hS : ∀ v ∈ S, v.val < n) (hi : IsIndep es S) :
    combEvaluate (misObjective (nodeMask n)) (misPenalty (graph2edges es padded) (nodeMask n) coeff) T
      (indicator S) = S.card := by
  rw [mis_score es padded n coeff hT (indicator_binary S), chosen_indicator hS,
    insideCount_eq_zero.2 hi]
  simp

/-- **C38 (upper bound).** With `coeff ≥ 1` the score of any 0/1 sample is at most the size of an
independent set contained in it, hence at most the independence number. -/
theorem mis_score_le (es : List (Edge N)) (padded n : ℕ) {coeff : ℝ} (hc : 1 ≤ coeff) {T : ℝ}
    (hT : T ≠ 0) {x : Fin (N + 1) → ℝ} (hx : IsBinary x) :
    ∃ S ⊆ chosen n x, IsIndep es S ∧
      combEvaluate (misObjective (nodeMask n)) (misPenalty (graph2edges es padded) (nodeMask n) coeff)
        T x ≤ S.card := by
  obtain ⟨S, hS, hi, hcard⟩ := exists_indep es (chosen n x)
  refine ⟨S, hS, hi, ?_⟩
  rw [mis_score es padded n coeff hT hx]
  have h1 : ((chosen n x).card : ℝ) ≤ S.card + insideCount es (chosen n x) := by exact_mod_cast hcard
  have h2 : (0 : ℝ) ≤ insideCount es (chosen n x) := Nat.cast_nonneg _
  nlinarith

/-- **C38 (maximisers).** With `coeff > 1` every maximiser of the score over 0/1 samples is an
independent set. -/
theorem mis_maximiser_indep (es : List (Edge N)) (padded n : ℕ) {coeff : ℝ} (hc : 1 < coeff) {T : ℝ}
    (hT : T ≠ 0) {x : Fin (N + 1) → ℝ} (hx : IsBinary x)
    (hmax : ∀ y, IsBinary y → combEvaluate (misObjective (nodeMask n))
        (misPenalty (graph2edges es padded) (nodeMask n) coeff) T y ≤
      combEvaluate (misObjective (nodeMask n))
        (misPenalty (graph2edges es padded) (nodeMask n) coeff) T x) :
    IsIndep es (chosen n x) := by
  by_contra hni
  obtain ⟨S, hS, hi, hcard⟩ := exists_indep es (chosen n x)
  have hb : ∀ v ∈ S, v.val < n := fun v hv => by
    have := hS hv
    simp only [chosen, Finset.mem_filter] at this
    exact this.2.1
  have h := hmax (indicator S) (indicator_binary S)
  rw [mis_score_indep es padded n coeff hT hb hi, mis_score es padded n coeff hT hx] at h
  have h1 : ((chosen n x).card : ℝ) ≤ S.card + insideCount es (chosen n x) := by exact_mod_cast hcard
  have h2 : (1 : ℝ) ≤ insideCount es (chosen n x) := by
    have : insideCount es (chosen n x) ≠ 0 := fun h0 => hni (insideCount_eq_zero.1 h0)
    exact_mod_cast Nat.one_le_iff_ne_zero.2 this
  nlinarith

/-- Concrete case: the path 0 – 1 – 2 padded to 4 entries; the sample {0, 2} scores 2. -/
example : combEvaluate (misObjective (nodeMask 3)) (misPenalty (graph2edges
    ([⟨0, 1, 1⟩, ⟨1, 2, 1⟩] : List (Edge 3)) 4) (nodeMask 3) 2) 5 (indicator {0, 2}) = 2 := by
  rw [mis_score_indep _ _ _ _ (by norm_num)]
  · simp
  · decide
  · intro e he
    rcases List.mem_cons.1 he with rfl | he
    · decide
    · rw [List.mem_singleton] at he; subst he; decide

/-! ### C39: maximum clique -/

/-- Unordered pairs of distinct members of `S`. -/
noncomputable def pairsIn (S : Finset (Fin (N + 1))) : Finset (Sym2 (Fin (N + 1))) :=
  S.offDiag.image Sym2.mk.uncurry

/-- Pairs of `S` not joined by an edge. -/
noncomputable def missing (es : List (Edge N)) (S : Finset (Fin (N + 1))) :
    Finset (Sym2 (Fin (N + 1))) :=
  pairsIn S \ (es.map fun e => s(e.u, e.v)).toFinset


theorem mem_pairsIn {S : Finset (Fin (N + 1))} {a b : Fin (N + 1)} :
    s(a, b) ∈ pairsIn S ↔ a ∈ S ∧ b ∈ S ∧ a ≠ b := by
  unfold pairsIn
  rw [Finset.mem_image]
  constructor
  · rintro ⟨⟨c, d⟩, h1, h2⟩
    rw [Finset.mem_offDiag] at h1
    rcases Sym2.eq_iff.1 h2 with ⟨h3, h4⟩ | ⟨h3, h4⟩
    · subst h3; subst h4; exact h1
    · subst h3; subst h4; exact ⟨h1.2.1, h1.1, fun h => h1.2.2 h.symm⟩
  · rintro ⟨h1, h2, h3⟩
    exact ⟨(a, b), Finset.mem_offDiag.2 ⟨h1, h2, h3⟩, rfl⟩

theorem card_inter_pairs {es : List (Edge N)} (hs : Simple es) (S : Finset (Fin (N + 1))) :
    (pairsIn S ∩ (es.map fun e => s(e.u, e.v)).toFinset).card = insideCount es S := by
  have h : pairsIn S ∩ (es.map fun e => s(e.u, e.v)).toFinset =
      ((es.filter fun e => decide (e.u ∈ S ∧ e.v ∈ S)).map fun e => s(e.u, e.v)).toFinset := by
    ext p
    simp only [Finset.mem_inter, List.mem_toFinset, List.mem_map, List.mem_filter]
    constructor
    · rintro ⟨h1, e, he, rfl⟩
      obtain ⟨ha, hb, -⟩ := mem_pairsIn.1 h1
      exact ⟨e, ⟨he, by simp [ha, hb]⟩, rfl⟩
    · rintro ⟨e, ⟨he, hd⟩, rfl⟩
      have hd := of_decide_eq_true hd
      exact ⟨mem_pairsIn.2 ⟨hd.1, hd.2, hs.1 e he⟩, e, he, rfl⟩
  rw [h, List.toFinset_card_of_nodup, List.length_map]
  · rfl
  · exact hs.2.sublist (List.Sublist.map _ List.filter_sublist)

/-- The evaluated max-clique score of a 0/1 sample: chosen nodes minus `coeff` per pair of chosen
nodes that is not an edge. -/
theorem clique_score {es : List (Edge N)} (hs : Simple es) (padded n : ℕ) (coeff : ℝ) {T : ℝ}
    (hT : T ≠ 0) {x : Fin (N + 1) → ℝ} (hx : IsBinary x) :
    combEvaluate (misObjective (nodeMask n)) (cliquePenalty (graph2edges es padded) (nodeMask n) coeff)
      T x = (chosen n x).card - coeff * (missing es (chosen n x)).card := by
  rw [comb_evaluate _ _ hT, mis_objective_card hx]
  congr 1
  have h0 : ∑ v, x v * nodeMask n v = ((chosen n x).card : ℝ) := mis_objective_card hx n
  simp only [cliquePenalty, h0]
  congr 1
  rw [sum_graph2edges es padded (fun a b k _ =>
    x a * nodeMask n a * (x b * nodeMask n b) * k) 0]
  simp only [mul_zero, add_zero, mul_one, masked_eq hx]
  rw [sum_inside]
  have h1 := Finset.card_sdiff_add_card_inter (pairsIn (chosen n x))
    (es.map fun e => s(e.u, e.v)).toFinset
  rw [card_inter_pairs hs] at h1
  have h2 : (pairsIn (chosen n x)).card = (chosen n x).card.choose 2 := Sym2.card_image_offDiag _
  rw [h2] at h1
  have h3 : (((chosen n x).card.choose 2 : ℕ) : ℝ) =
      (chosen n x).card * ((chosen n x).card - 1) / 2 := Nat.cast_choose_two ℝ _
  rw [← h3, ← h1]
  push_cast
  unfold missing
  ring

theorem missing_empty {es : List (Edge N)} {S : Finset (Fin (N + 1))} :
    missing es S = ∅ ↔ IsClique es S := by
  unfold missing IsClique
  rw [Finset.sdiff_eq_empty_iff_subset]
  constructor
  · intro h a ha b hb hab
    have := h (mem_pairsIn.2 ⟨ha, hb, hab⟩)
    rw [List.mem_toFinset, List.mem_map] at this
    exact this
  · intro h p hp
    induction p using Sym2.ind with
    | _ a b =>
      obtain ⟨ha, hb, hab⟩ := mem_pairsIn.1 hp
      rw [List.mem_toFinset, List.mem_map]
      exact h a ha b hb hab

/-- Removing one member of each missing pair leaves a clique. -/
theorem exists_clique (es : List (Edge N)) (S : Finset (Fin (N + 1))) :
    ∃ S' ⊆ S, IsClique es S' ∧ S.card ≤ S'.card + (missing es S).card := by
  refine ⟨S \ (missing es S).image fun p => (Quot.out p).1, Finset.sdiff_subset, ?_, ?_⟩
  · intro a ha b hb hab
    by_contra hne
    rw [Finset.mem_sdiff] at ha hb
    have hp : s(a, b) ∈ missing es S := by
      unfold missing
      rw [Finset.mem_sdiff, List.mem_toFinset, List.mem_map]
      exact ⟨mem_pairsIn.2 ⟨ha.1, hb.1, hab⟩, hne⟩
    have hout : s((Quot.out s(a, b)).1, (Quot.out s(a, b)).2) = s(a, b) := Quot.out_eq _
    rcases Sym2.eq_iff.1 hout with ⟨h, -⟩ | ⟨h, -⟩
    · exact ha.2 (Finset.mem_image.2 ⟨_, hp, h⟩)
    · exact hb.2 (Finset.mem_image.2 ⟨_, hp, h⟩)
  · have h1 := Finset.card_le_card_sdiff_add_card (s := S)
      (t := (missing es S).image fun p => (Quot.out p).1)
    have h2 : ((missing es S).image fun p => (Quot.out p).1).card ≤ (missing es S).card :=
      Finset.card_image_le
    omega

/-- **C39 (cliques score their size).** -/
theorem clique_score_clique {es : List (Edge N)} (hs : Simple es) (padded n : ℕ) (coeff : ℝ) {T : ℝ}
    (hT : T ≠ 0) {S : Finset (Fin (N + 1))} (hS : ∀ v ∈ S, v.val < n) (hi : IsClique es S) :
    combEvaluate (misObjective (nodeMask n)) (cliquePenalty (graph2edges es padded) (nodeMask n) coeff)
      T (indicator S) = S.card := by
  rw [clique_score hs padded n coeff hT (indicator_binary S), chosen_indicator hS,
    missing_empty.2 hi]
  simp

/-- **C39 (upper bound).** With `coeff ≥ 1` the score of any 0/1 sample is at most the size of a
clique contained in it. -/
theorem clique_score_le {es : List (Edge N)} (hs : Simple es) (padded n : ℕ) {coeff : ℝ}
    (hc : 1 ≤ coeff) {T : ℝ} (hT : T ≠ 0) {x : Fin (N + 1) → ℝ} (hx : IsBinary x) :
    ∃ S ⊆ chosen n x, IsClique es S ∧
      combEvaluate (misObjective (nodeMask n)) (cliquePenalty (graph2edges es padded) (nodeMask n) coeff)
        T x ≤ S.card := by
  obtain ⟨S, hS, hi, hcard⟩ := exists_clique es (chosen n x)
  refine ⟨S, hS, hi, ?_⟩
  rw [clique_score hs padded n coeff hT hx]
  have h1 : ((chosen n x).card : ℝ) ≤ S.card + (missing es (chosen n x)).card := by
    exact_mod_cast hcard
  have h2 : (0 : ℝ) ≤ (missing es (chosen n x)).card := Nat.cast_nonneg _
  nlinarith

/-- **C39 (maximisers).** With `coeff > 1` every maximiser of the score over 0/1 samples is a
clique. -/
theorem clique_maximiser {es : List (Edge N)} (hs : Simple es) (padded n : ℕ) {coeff : ℝ}
    (hc : 1 < coeff) {T : ℝ} (hT : T ≠ 0) {x : Fin (N + 1) → ℝ} (hx : IsBinary x)
    (hmax : ∀ y, IsBinary y → combEvaluate (misObjective (nodeMask n))
        (cliquePenalty (graph2edges es padded) (nodeMask n) coeff) T y ≤
      combEvaluate (misObjective (nodeMask n))
        (cliquePenalty (graph2edges es padded) (nodeMask n) coeff) T x) :
    IsClique es (chosen n x) := by
  by_contra hni
  obtain ⟨S, hS, hi, hcard⟩ := exists_clique es (chosen n x)
  have hb : ∀ v ∈ S, v.val < n := fun v hv => by
    have := hS hv
    simp only [chosen, Finset.mem_filter] at this
    exact this.2.1
  have h := hmax (indicator S) (indicator_binary S)
  rw [clique_score_clique hs padded n coeff hT hb hi, clique_score hs padded n coeff hT hx] at h
  have h1 : ((chosen n x).card : ℝ) ≤ S.card + (missing es (chosen n x)).card := by
    exact_mod_cast hcard
  have h2 : (1 : ℝ) ≤ (missing es (chosen n x)).card := by
    have : (missing es (chosen n x)).card ≠ 0 := fun h0 =>
      hni (missing_empty.1 (Finset.card_eq_zero.1 h0))
    exact_mod_cast Nat.one_le_iff_ne_zero.2 this
  nlinarith

/-- Concrete case: a triangle plus a pendant node; the triangle scores 3. -/
example : combEvaluate (misObjective (nodeMask 4)) (cliquePenalty (graph2edges
    ([⟨0, 1, 1⟩, ⟨1, 2, 1⟩, ⟨0, 2, 1⟩, ⟨2, 3, 1⟩] : List (Edge 4)) 6) (nodeMask 4) 2) 5
    (indicator {0, 1, 2}) = 3 := by
  rw [clique_score_clique _ _ _ _ (by norm_num)]
  · simp
  · decide
  · unfold IsClique
    simp only [List.mem_cons, List.not_mem_nil, or_false, exists_eq_or_imp, exists_eq_left]
    decide
  · refine ⟨?_, ?_⟩
    · unfold Loopless
      simp only [List.mem_cons, List.not_mem_nil, or_false, forall_eq_or_imp, forall_eq]
      decide
    · simp only [List.map_cons, List.map_nil]
      decide

end Discs
