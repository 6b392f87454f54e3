import Verif.Model.NormCutTable
import Verif.Props.NormCutEval
import Verif.Props.COExperiment
import Verif.Props.Labels
import Verif.Props.LogzPlot

/-!
# C126: the table of normalised cuts shows what every run found
-/

namespace Discs

open Finset Spec

variable {N : ℕ}

/-! ### Specification -/

/-- The fraction of edges between different groups. -/
noncomputable def Spec.cutRatio {C : ℕ} (es : List (Edge N)) (z : Fin (N + 1) → Fin C) : ℝ := cutEdges es z / es.length

/-- How even three groups are: 1 if they have the same size, 0 if one has all nodes. -/
noncomputable def Spec.balance (z : Fin (N + 1) → Fin 3) : ℝ :=
  1 - 3 / (2 * ((N + 1 : ℕ) : ℝ) ^ 2) * ∑ c, ((partSize z c : ℝ) - (N + 1 : ℕ) / 3) ^ 2

/-- What a run with quadratic penalty minimises. -/
noncomputable def Spec.ncCost (penalty : ℝ) (es : List (Edge N)) (z : Fin (N + 1) → Fin 3) : ℝ :=
  2 * cutEdges es z + penalty * ∑ c, ((partSize z c : ℝ) - (N + 1 : ℕ) / 3) ^ 2

/-- A partition as a row of a results file. -/
def Spec.rowOf {C : ℕ} (z : Fin (N + 1) → Fin C) : List ℕ := List.ofFn fun v => (z v).val

/-- A folder that the program can use. -/
structure Spec.NCReadable (N : ℕ) (f : List Char × Option (COResults (List ℕ))) : Prop where
  /-- The folder's name gives the sampler. -/
  sampler : ∃ d, tempConfig f.1 = some d ∧ (dictGet d "name".toList).isSome
  /-- There are results with a sample long enough for the graph, in three groups. -/
  sample : ∃ r x, f.2 = some r ∧ r.bestSamples.head? = some x ∧ N + 1 ≤ x.length ∧ ∀ c ∈ x.take (N + 1), c < 3

/-! ### Rows -/

private theorem foldr_max_le (l : List ℕ) (b : ℕ) : l.foldr max 0 ≤ b ↔ ∀ a ∈ l, a ≤ b := by
  induction l with
  | nil => simp
  | cons a l ih => simp [ih]

private theorem listBins_ofFn (x : Fin (N + 1) → ℕ) : listBins (List.ofFn x) = binCounts x := by
  have h1 : (List.ofFn x).foldr max 0 = univ.sup x := by
    refine le_antisymm ((foldr_max_le _ _).2 fun a ha => ?_) (Finset.sup_le fun i _ => ?_)
    · obtain ⟨i, rfl⟩ := List.mem_ofFn.1 ha
      exact Finset.le_sup (Finset.mem_univ i)
    · exact (foldr_max_le _ _).1 le_rfl _ (List.mem_ofFn.2 ⟨i, rfl⟩)
  have h2 : ∀ c, (List.ofFn x).count c = (univ.filter fun i => x i = c).card := by
    intro c
    rw [List.ofFn_eq_map, List.count, List.countP_map, List.countP_eq_length_filter, Fin.univ_def]
    simp only [Finset.card, Function.comp_def, beq_eq_decide]
    rfl
  unfold listBins binCounts
  rw [h1]
  simp only [h2]

/-- **C126 (scores).** For a graph with unit weights, at least one edge and nodes listed as `0, 1, …`, the line of a partition
into three groups shows its cut ratio and its balance. -/
theorem nc_row_scores {es : List (Edge N)} (h : UnitGraph es) (hne : es ≠ []) (z : Fin (N + 1) → Fin 3) :
    ncEvaluateRow es id (rowOf z) 3 = some (Spec.cutRatio es z, Spec.balance z) := by
  have hx : ∀ i : Fin (N + 1), (rowOf z)[i.val]'(by simp [rowOf, i.isLt]) = (z i).val := by
    intro i
    simp only [rowOf, List.getElem_ofFn]
  obtain ⟨r, hr, -, hc, -⟩ := ncEvaluate_cut h hne z 0
  obtain ⟨r', hr', hb⟩ := ncEvaluate_balanceness_eq hne id (by norm_num) z
  rw [hr] at hr'
  cases hr'
  have hlt : ∀ i, (z i).val < 3 := fun i => (z i).isLt
  have hbal : r.balanceness = offDiagSum (binCounts fun v => (z v).val) * 3 / ((3 - 1 : ℝ) * ((N + 1 : ℕ) : ℝ) ^ 2) := by
    unfold ncEvaluateFile ncEvaluate at hr
    simp only [Option.bind_eq_bind, Option.bind_eq_some_iff] at hr
    obtain ⟨v, -, hr⟩ := hr
    split_ifs at hr
    cases hr
    norm_num
  unfold ncEvaluateRow
  rw [dif_pos (by simp [rowOf])]
  simp only [hx]
  have e := hr
  unfold ncEvaluateFile at e
  rw [e]
  simp only [Option.map_some, Option.some.injEq, Prod.mk.injEq]
  refine ⟨hc, ?_⟩
  rw [rowOf, listBins_ofFn]
  have : r.balanceness = Spec.balance z := by
    rw [hb]
    unfold Spec.balance
    norm_num
  rw [← this, hbal]
  norm_num

/-- The two columns together give back what the run minimised. -/
theorem nc_cost_of_row {es : List (Edge N)} (hne : es ≠ []) (penalty : ℝ) (z : Fin (N + 1) → Fin 3) :
    Spec.ncCost penalty es z =
      2 * es.length * Spec.cutRatio es z + penalty * (2 * ((N + 1 : ℕ) : ℝ) ^ 2 / 3) * (1 - Spec.balance z) := by
  have h1 : (es.length : ℝ) ≠ 0 := by
    have : (0 : ℝ) < es.length := by exact_mod_cast List.length_pos_iff.2 hne
    positivity
  have h2 : ((N + 1 : ℕ) : ℝ) ≠ 0 := by positivity
  unfold Spec.ncCost Spec.cutRatio Spec.balance
  generalize ∑ c, ((partSize z c : ℝ) - (N + 1 : ℕ) / 3) ^ 2 = S
  field_simp
  ring

private theorem ncTableRow_eq (es : List (Edge N)) (order : Fin (N + 1) → Fin (N + 1))
    {f : List Char × Option (COResults (List ℕ))} {d : ExpDict} {n : List Char} {r : COResults (List ℕ)} {x : List ℕ}
    {a b : ℝ} (hd : tempConfig f.1 = some d) (hn : dictGet d "name".toList = some n) (hr : f.2 = some r)
    (hx : r.bestSamples.head? = some x) (he : ncEvaluateRow es order x 3 = some (a, b)) :
    ncTableRow es order f = some ⟨ncShort n ++ labelRest d, a, b⟩ := by
  have hk : ncKeys d = some (keyBalancing (keyAdaptive (keySolver (dictSet d "name".toList (ncShort n))))) := by
    unfold ncKeys
    rw [hn, Option.map_some]
  unfold ncTableRow
  simp only [hd, hk, hr, hx, he, keys_name, Option.bind_eq_bind, Option.bind_some]
  rfl

/-! ### Runs -/

/-- **C126 (a run and its line).** A run on one graph with quadratic penalty, whatever its sampler, schedule, length, interval
and burn-in.  If anything of cost below `10⁹` was logged, the line of its folder shows cut ratio and balance of a partition
that one of the chains held at a logged step, and none of the partitions held at logged steps has a smaller cost. -/
theorem nc_run_row {K X S : Type*} {B : ℕ} [NeZero B] {es : List (Edge N)} (h : UnitGraph es) (hne : es ≠ [])
    (d : CODriver K X S (List ℕ) 1 B) (z : X → Fin B → Fin (N + 1) → Fin 3) (cfg : NCConfig) (padded : ℕ)
    (deg : Fin (N + 1) → ℝ) (hp : cfg.penalty > 0) (hq : cfg.quad = true) (ha : cfg.avgSize = (N + 1 : ℕ) / 3)
    (hrows : ∀ x c, d.rows x 0 c = rowOf (z x c))
    (hscores : ∀ x c, d.scores x 0 c = ncObjective cfg (graph2edges es padded) deg (ncOneHot (z x c)))
    (href : d.ref 0 = 1) (logEvery : ℤ) (L : ℕ) (ratio : ℝ) (h0 : 0 ≤ ratio) (h1 : ratio ≤ 1) (zero : List ℕ) (k : K)
    (x : X) (s : S)
    (hlow : ∃ t : ℕ, 1 ≤ t ∧ t ≤ L ∧ logEvery ∣ t ∧ ∃ c, Spec.ncCost cfg.penalty es (z (d.traj k x s t).1 c) < 1000000000)
    (save : Bool) (folder : List Char) {kw : ExpDict} (hkw : tempConfig folder = some kw) {n : List Char}
    (hn : dictGet kw "name".toList = some n) :
    ∃ t : ℕ, 1 ≤ t ∧ t ≤ L ∧ logEvery ∣ t ∧ ∃ c,
      let best := z (d.traj k x s t).1 c
      ncTableRow es id (folder, some (coSaved save "normcut" d.sampleIdx (coChain d logEvery L ratio zero k x s))) =
        some ⟨ncShort n ++ labelRest kw, Spec.cutRatio es best, Spec.balance best⟩ ∧
      ∀ t' : ℕ, 1 ≤ t' → t' ≤ L → logEvery ∣ t' → ∀ c',
        Spec.ncCost cfg.penalty es best ≤ Spec.ncCost cfg.penalty es (z (d.traj k x s t').1 c') := by
  have hobj : ∀ x c, d.scores x 0 c / d.ref 0 = -Spec.ncCost cfg.penalty es (z x c) := by
    intro x c
    rw [href, div_one, hscores, ncObjective_quad cfg hp hq, ha]
    rfl
  have hex : ∃ r ∈ loggedRatios d logEvery k x s L 0, -1000000000 < r := by
    obtain ⟨t, a, b, e, c, hc⟩ := hlow
    exact ⟨_, ⟨t, a, b, e, c, rfl⟩, by rw [hobj]; linarith⟩
  have hr0 : 0 < d.ref 0 := by rw [href]; norm_num
  obtain ⟨t, a, b, e, c, hs, hb⟩ := co_best_sample d logEvery L ratio h0 h1 zero k x s 0 hr0 hex
  have hg := co_best_exact d logEvery L ratio h0 h1 zero k x s 0 hr0 hex
  refine ⟨t, a, b, e, c, ?_, fun t' a' b' e' c' => ?_⟩
  · refine ncTableRow_eq es id hkw hn rfl (x := rowOf (z (d.traj k x s t).1 c)) ?_ (nc_row_scores h hne _)
    simp only [coSaved, decide_true, Bool.or_true, if_true]
    rw [List.ofFn_succ, List.head?_cons, hs, hrows]
  · have := hg.2 ⟨t', a', b', e', c', rfl⟩
    rw [hobj, hb, hobj] at this
    linarith

/-- **C126, refuted part (costs above the floor).** If every logged partition costs `10⁹` or more, the line shows the zeros
with which the run starts: no edge is cut and the balance is 0, although no chain need ever have held that partition. -/
theorem nc_run_floor {K X S : Type*} {B : ℕ} [NeZero B] {es : List (Edge N)} (h : UnitGraph es) (hne : es ≠ [])
    (d : CODriver K X S (List ℕ) 1 B) (z : X → Fin B → Fin (N + 1) → Fin 3) (cfg : NCConfig) (padded : ℕ)
    (deg : Fin (N + 1) → ℝ) (hp : cfg.penalty > 0) (hq : cfg.quad = true) (ha : cfg.avgSize = (N + 1 : ℕ) / 3)
    (hscores : ∀ x c, d.scores x 0 c = ncObjective cfg (graph2edges es padded) deg (ncOneHot (z x c)))
    (href : d.ref 0 = 1) (logEvery : ℤ) (L : ℕ) (ratio : ℝ) (h0 : 0 ≤ ratio) (h1 : ratio ≤ 1) (k : K)
    (x : X) (s : S)
    (hhigh : ∀ t : ℕ, 1 ≤ t → t ≤ L → logEvery ∣ t → ∀ c,
      1000000000 ≤ Spec.ncCost cfg.penalty es (z (d.traj k x s t).1 c))
    (save : Bool) (folder : List Char) {kw : ExpDict} (hkw : tempConfig folder = some kw) {n : List Char}
    (hn : dictGet kw "name".toList = some n) :
    ncTableRow es id (folder, some (coSaved save "normcut" d.sampleIdx
      (coChain d logEvery L ratio (List.replicate (N + 1) 0) k x s))) = some ⟨ncShort n ++ labelRest kw, 0, 0⟩ := by
  have hobj : ∀ x c, d.scores x 0 c / d.ref 0 = -Spec.ncCost cfg.penalty es (z x c) := by
    intro x c
    rw [href, div_one, hscores, ncObjective_quad cfg hp hq, ha]
    rfl
  obtain ⟨hz, -⟩ := co_best_floor d logEvery L ratio h0 h1 (List.replicate (N + 1) 0) k x s 0 (by rw [href]; norm_num)
    (by
      rintro r ⟨t, a, b, e, c, rfl⟩
      rw [hobj]
      linarith [hhigh t a b e c])
  have hrow : List.replicate (N + 1) 0 = rowOf (fun _ : Fin (N + 1) => (0 : Fin 3)) := by
    rw [rowOf]
    exact (List.ofFn_const _ _).symm
  have hs := nc_row_scores h hne (fun _ : Fin (N + 1) => (0 : Fin 3))
  have hcut : Spec.cutRatio es (fun _ : Fin (N + 1) => (0 : Fin 3)) = 0 := by
    simp [Spec.cutRatio, cutEdges]
  have hbal : Spec.balance (fun _ : Fin (N + 1) => (0 : Fin 3)) = 0 := by
    have hn : ((N + 1 : ℕ) : ℝ) ≠ 0 := by positivity
    have hc : ∀ c : Fin 3, (partSize (fun _ : Fin (N + 1) => (0 : Fin 3)) c : ℝ) = if c = 0 then ((N + 1 : ℕ) : ℝ) else 0 := by
      intro c
      unfold partSize
      split_ifs with hc
      · subst hc; simp
      · have : (univ.filter fun _ : Fin (N + 1) => (0 : Fin 3) = c) = ∅ :=
          Finset.filter_eq_empty_iff.2 fun _ _ e => hc e.symm
        rw [this]
        simp
    unfold Spec.balance
    simp only [hc, Fin.sum_univ_three, show ¬(1 : Fin 3) = 0 by decide, show ¬(2 : Fin 3) = 0 by decide, if_true, if_false]
    norm_num
    have hn' : ((N : ℝ) + 1) ≠ 0 := by exact_mod_cast hn
    field_simp
    ring
  rw [hcut, hbal] at hs
  refine ncTableRow_eq es id hkw hn rfl (x := List.replicate (N + 1) 0) ?_ (by rw [hrow]; exact hs)
  simp only [coSaved, decide_true, Bool.or_true, if_true]
  rw [List.ofFn_succ, List.head?_cons, hz]

/-! ### The table -/

private theorem evaluateRow_isSome {es : List (Edge N)} (hne : es ≠ []) (order : Fin (N + 1) → Fin (N + 1)) (x : List ℕ) :
    (ncEvaluateRow es order x 3).isSome ↔ N + 1 ≤ x.length ∧ ∀ c ∈ x.take (N + 1), c < 3 := by
  unfold ncEvaluateRow
  by_cases hl : N + 1 ≤ x.length
  · rw [dif_pos hl]
    simp only [Option.isSome_map]
    have h := ncEvaluate_too_many es order (fun i => x[i.val]'(by omega)) 3
    unfold ncEvaluateFile at h
    rw [← Option.ne_none_iff_isSome, ne_eq, h]
    simp only [hne, false_or, not_exists, not_le, hl, true_and]
    constructor
    · intro h c hc
      obtain ⟨i, hi, rfl⟩ := List.getElem_of_mem hc
      rw [List.length_take] at hi
      have := h ⟨i, by omega⟩
      simpa using this
    · intro h i
      refine h _ ?_
      rw [List.mem_take_iff_getElem]
      exact ⟨i.val, by have := i.isLt; omega, rfl⟩
  · rw [dif_neg hl]
    simp [hl]

private theorem row_isSome {es : List (Edge N)} (hne : es ≠ []) (order : Fin (N + 1) → Fin (N + 1))
    (f : List Char × Option (COResults (List ℕ))) : (ncTableRow es order f).isSome ↔ NCReadable N f := by
  constructor
  · intro h
    obtain ⟨row, hrow⟩ := Option.isSome_iff_exists.1 h
    unfold ncTableRow ncKeys at hrow
    simp only [Option.bind_eq_bind, Option.bind_eq_some_iff, Option.map_eq_some_iff] at hrow
    obtain ⟨d, hd, -, ⟨n, hn, -⟩, r, hr, x, hx, s, hs, -⟩ := hrow
    have := (evaluateRow_isSome hne order x).1 (by rw [hs]; rfl)
    exact ⟨⟨d, hd, by rw [hn]; rfl⟩, r, x, hr, hx, this⟩
  · rintro ⟨⟨d, hd, hn⟩, r, x, hr, hx, hl⟩
    obtain ⟨n, hn⟩ := Option.isSome_iff_exists.1 hn
    obtain ⟨⟨a, b⟩, he⟩ := Option.isSome_iff_exists.1 ((evaluateRow_isSome hne order x).2 hl)
    rw [ncTableRow_eq es order hd hn hr hx he]
    rfl

/-- **C126 (one line per run).** The lines of the table are those of the folders, each once, in the order of the folders'
names. -/
theorem nc_table {es : List (Edge N)} {order : Fin (N + 1) → Fin (N + 1)}
    {dir : List (List Char × Option (COResults (List ℕ)))} {rows : List NCRow} (h : ncTable es order dir = some rows) :
    ∃ sorted, sorted.Perm dir ∧ sorted.Pairwise (fun a b => a.1 ≤ b.1) ∧
      List.Forall₂ (fun f row => ncTableRow es order f = some row) sorted rows := by
  refine ⟨_, List.mergeSort_perm dir _, ?_, (mapM_some_iff _ _ _).1 h⟩
  have := List.pairwise_mergeSort (le := fun a b : List Char × Option (COResults (List ℕ)) => decide (a.1 ≤ b.1))
    (by intro a b c; simpa using List.le_trans) (by intro a b; simpa using List.le_total a.1 b.1) dir
  exact this.imp fun h => by simpa using h

/-- **C126 (when there is a table).** There is a table exactly if the graph has an edge and every folder can be used: a single
folder without results, or with results of a smaller graph or more groups, and nothing is written. -/
theorem nc_table_exists (es : List (Edge N)) (order : Fin (N + 1) → Fin (N + 1))
    (dir : List (List Char × Option (COResults (List ℕ)))) (hd : dir ≠ []) :
    (ncTable es order dir).isSome ↔ es ≠ [] ∧ ∀ f ∈ dir, NCReadable N f := by
  have key : (ncTable es order dir).isSome ↔ ∀ f ∈ dir, (ncTableRow es order f).isSome := by
    constructor
    · intro h f hf
      obtain ⟨rows, hrows⟩ := Option.isSome_iff_exists.1 h
      obtain ⟨sorted, hp, -, hall⟩ := nc_table hrows
      have hmem : ∀ (l : List (List Char × Option (COResults (List ℕ)))) (rs : List NCRow),
          List.Forall₂ (fun f row => ncTableRow es order f = some row) l rs → f ∈ l → ∃ row, ncTableRow es order f = some row := by
        intro l rs hall
        induction hall with
        | nil => intro h; cases h
        | cons h1 _ ih =>
          intro h
          rcases List.mem_cons.1 h with rfl | h
          · exact ⟨_, h1⟩
          · exact ih h
      obtain ⟨row, hrow⟩ := hmem _ _ hall (hp.mem_iff.2 hf)
      rw [hrow]
      rfl
    · intro h
      have : ∀ l : List (List Char × Option (COResults (List ℕ))), (∀ f ∈ l, (ncTableRow es order f).isSome) →
          ∃ rows, l.mapM (ncTableRow es order) = some rows := by
        intro l hl
        induction l with
        | nil => exact ⟨[], rfl⟩
        | cons f l ih =>
          obtain ⟨rows, hr⟩ := ih fun g hg => hl g (List.mem_cons_of_mem _ hg)
          obtain ⟨row, hrow⟩ := Option.isSome_iff_exists.1 (hl f List.mem_cons_self)
          exact ⟨row :: rows, (mapM_some_iff _ _ _).2 (.cons hrow ((mapM_some_iff _ _ _).1 hr))⟩
      obtain ⟨rows, hr⟩ := this _ fun f hf => h f ((List.mergeSort_perm dir _).mem_iff.1 hf)
      exact Option.isSome_iff_exists.2 ⟨rows, hr⟩
  rw [key]
  by_cases hne : es = []
  · subst hne
    simp only [ne_eq, not_true_eq_false, false_and, iff_false, not_forall]
    obtain ⟨f, hf⟩ := List.exists_mem_of_ne_nil dir hd
    refine ⟨f, hf, ?_⟩
    intro h
    obtain ⟨row, hrow⟩ := Option.isSome_iff_exists.1 h
    unfold ncTableRow at hrow
    simp only [Option.bind_eq_bind, Option.bind_eq_some_iff] at hrow
    obtain ⟨-, -, -, -, -, -, x, -, s, hs, -⟩ := hrow
    unfold ncEvaluateRow at hs
    split_ifs at hs with hl
    have := (ncEvaluate_too_many (N := N) [] order (fun i => x[i.val]'(by omega)) 3).2 (Or.inl rfl)
    unfold ncEvaluateFile at this
    simp only [this, Option.map_none] at hs
    cases hs
  · simp only [ne_eq, hne, not_false_eq_true, true_and, row_isSome hne]

private theorem ncShort_inj : ∀ a ∈ samplerNames, ∀ b ∈ samplerNames, ncShort a = ncShort b → a = b := by decide

private theorem ncShort_free : ∀ a ∈ samplerNames.map ncShort, ∀ b ∈ samplerNames.map ncShort, a <+: b → a = b := by decide

/-- **C126 (labels).** Two runs have the same entry in the column `sampler` exactly if they agree in what a label shows: sampler,
forward solver or not, adaptation switched off or not, step size and numbers of flips (if `adaptive` is set), balancing
function.  In particular runs that differ in temperatures or penalty cannot be told apart. -/
theorem nc_label_iff {d₁ d₂ : ExpDict} (h₁ : Recognised d₁) (h₂ : Recognised d₂) {n₁ n₂ : List Char}
    (hn₁ : dictGet d₁ "name".toList = some n₁) (hn₂ : dictGet d₂ "name".toList = some n₂) :
    ncShort n₁ ++ labelRest d₁ = ncShort n₂ ++ labelRest d₂ ↔ shownSettings d₁ = shownSettings d₂ := by
  constructor
  · intro h
    obtain ⟨m₁, g₁, e₁⟩ := h₁.1
    obtain ⟨m₂, g₂, e₂⟩ := h₂.1
    rw [hn₁] at e₁
    rw [hn₂] at e₂
    cases e₁
    cases e₂
    have hab : ncShort n₁ = ncShort n₂ := by
      rcases List.prefix_or_prefix_of_prefix (List.prefix_append (ncShort n₁) (labelRest d₁))
        (h ▸ List.prefix_append (ncShort n₂) (labelRest d₂)) with hp | hp
      · exact ncShort_free _ (List.mem_map_of_mem g₁) _ (List.mem_map_of_mem g₂) hp
      · exact (ncShort_free _ (List.mem_map_of_mem g₂) _ (List.mem_map_of_mem g₁) hp).symm
    rw [hab] at h
    have hrest := labelRest_inj h₁ h₂ (List.append_cancel_left h)
    have hnn := ncShort_inj _ g₁ _ g₂ hab
    have hname : (shownSettings d₁).name = (shownSettings d₂).name := by
      show dictGet d₁ "name".toList = dictGet d₂ "name".toList
      rw [hn₁, hn₂, hnn]
    generalize shownSettings d₁ = s at *
    generalize shownSettings d₂ = t at *
    cases s
    cases t
    simp only [Shown.mk.injEq] at hrest hname ⊢
    exact ⟨hname, hrest.2⟩
  · intro h
    have hname : dictGet d₁ "name".toList = dictGet d₂ "name".toList := congrArg Shown.name h
    rw [hn₁, hn₂] at hname
    cases hname
    unfold labelRest
    rw [h]

/-- **C126, refuted part (the graph is not checked).** Results of a run on a larger graph are evaluated without an error: here
the graph has two nodes and one edge, the run was on four nodes, and the balance is reported as `3.75`. -/
theorem nc_wrong_graph : ∃ a, ncEvaluateRow (N := 1) [⟨0, 1, 1⟩] id [0, 1, 2, 2] 3 = some (a, 15 / 4) := by
  have h : ncEvaluate (N := 1) (fun i => ([0, 1, 2, 2] : List ℕ)[i.val]'(by have := i.isLt; simp; omega))
      ((([⟨0, 1, 1⟩] : List (Edge 1)).length : ℝ) * 2) (toNumpyArray [⟨0, 1, 1⟩] id) 3 ≠ none := by
    have := (ncEvaluate_too_many (N := 1) [⟨0, 1, 1⟩] id
      (fun i => ([0, 1, 2, 2] : List ℕ)[i.val]'(by have := i.isLt; simp; omega)) 3).not.2 (by
        simp only [List.cons_ne_nil, false_or, not_exists, not_le]
        intro v
        fin_cases v <;> simp)
    exact this
  obtain ⟨r, hr⟩ := Option.ne_none_iff_exists'.1 h
  refine ⟨r.cutRatio, ?_⟩
  unfold ncEvaluateRow
  rw [dif_pos (by simp)]
  simp only [hr, Option.map_some, Option.some.injEq, Prod.mk.injEq, true_and]
  have hb : listBins [0, 1, 2, 2] = [1, 1, 2] := by decide
  rw [hb]
  norm_num [offDiagSum]

/-! ### Example -/

/-- Two folders of a run on a path with three nodes: both lines are there, in the order of names (`10` before `9`). -/
example : ∃ rows, ncTable (N := 2) [⟨0, 1, 1⟩, ⟨1, 2, 1⟩] id
      [("9_name='dlmc',solver='euler_forward',adaptive=False,n=500".toList, some ⟨[], [], [rowOf (C := 3) ![0, 0, 1]]⟩),
        ("10_name='randomwalk'".toList, some ⟨[], [], [rowOf (C := 3) ![0, 1, 2]]⟩)] = some rows ∧
      rows.map NCRow.sampler = ["rmw".toList, "dlmcf-nA-500".toList] ∧ rows.map NCRow.cutRatio = [1, 1 / 2] := by
  have hU : UnitGraph (N := 2) [⟨0, 1, 1⟩, ⟨1, 2, 1⟩] := ⟨by decide, by simp⟩
  have h1 := nc_row_scores hU (by simp) ![0, 0, 1]
  have h2 := nc_row_scores hU (by simp) ![0, 1, 2]
  have r1 := ncTableRow_eq (N := 2) [⟨0, 1, 1⟩, ⟨1, 2, 1⟩] id
    (f := ("9_name='dlmc',solver='euler_forward',adaptive=False,n=500".toList, some ⟨[], [], [rowOf (C := 3) ![0, 0, 1]]⟩))
    (d := [("name".toList, "dlmc".toList), ("solver".toList, "euler_forward".toList), ("adaptive".toList, "False".toList),
      ("n".toList, "500".toList)]) (n := "dlmc".toList) (by decide +kernel) rfl rfl rfl h1
  have r2 := ncTableRow_eq (N := 2) [⟨0, 1, 1⟩, ⟨1, 2, 1⟩] id
    (f := ("10_name='randomwalk'".toList, some ⟨[], [], [rowOf (C := 3) ![0, 1, 2]]⟩))
    (d := [("name".toList, "randomwalk".toList)]) (n := "randomwalk".toList) (by decide +kernel) rfl rfl rfl h2
  have hs : ∀ (a b : List Char × Option (COResults (List ℕ))), b.1 < a.1 →
      [a, b].mergeSort (fun a b => decide (a.1 ≤ b.1)) = [b, a] := by
    intro a b h
    simp [List.mergeSort, List.MergeSort.Internal.splitInTwo, List.not_le.2 h]
  have ht := (mapM_some_iff (ncTableRow (N := 2) [⟨0, 1, 1⟩, ⟨1, 2, 1⟩] id) _ _).2 (.cons r2 (.cons r1 .nil))
  have key : ∀ a b, b.1 < a.1 → ncTable (N := 2) [⟨0, 1, 1⟩, ⟨1, 2, 1⟩] id [a, b] =
      List.mapM (ncTableRow (N := 2) [⟨0, 1, 1⟩, ⟨1, 2, 1⟩] id) [b, a] := by
    intro a b h
    unfold ncTable
    rw [hs a b h]
  refine ⟨_, (key _ _ (by decide +kernel)).trans ht, ?_, ?_⟩
  · decide +kernel
  · simp [Spec.cutRatio, cutEdges]

end Discs
