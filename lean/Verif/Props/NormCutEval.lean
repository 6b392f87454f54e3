import Verif.Model.NormCutEval
import Verif.Props.NormCut

/-!
# C78: the offline normalised-cut scores, node order, and initial partitions
-/

namespace Discs.Spec

variable {N : ℕ}

/-- An undirected graph without parallel edges and with unit weights; loops are allowed. -/
def UnitGraph (es : List (Edge N)) : Prop :=
  (es.map fun e => s(e.u, e.v)).Nodup ∧ ∀ e ∈ es, e.w = 1

/-- Number of edges that touch the node, a loop counted twice. -/
def degree (es : List (Edge N)) (a : Fin (N + 1)) : ℕ :=
  (es.map fun e => (if e.u = a then 1 else 0) + if e.v = a then 1 else 0).sum

end Discs.Spec

namespace Discs

open Finset Spec

variable {N : ℕ}

theorem adjEntry_cons (e : Edge N) (l : List (Edge N)) (a b : Fin (N + 1)) :
    adjEntry (e :: l) a b =
      (if (e.u = a ∧ e.v = b) ∨ (e.u = b ∧ e.v = a) then e.w else 0) + adjEntry l a b := by
  unfold adjEntry
  rw [List.filter_cons]
  by_cases h : (e.u = a ∧ e.v = b) ∨ (e.u = b ∧ e.v = a) <;> simp [h]

theorem joins_iff (e : Edge N) (a b : Fin (N + 1)) :
    ((e.u = a ∧ e.v = b) ∨ (e.u = b ∧ e.v = a)) ↔ s(e.u, e.v) = s(a, b) := by
  rw [Sym2.eq_iff]

theorem Spec.UnitGraph.tail {e : Edge N} {l : List (Edge N)} (h : UnitGraph (e :: l)) : UnitGraph l :=
  ⟨(List.nodup_cons.1 h.1).2, fun f hf => h.2 f (List.mem_cons_of_mem _ hf)⟩

/-- The matrix of a unit graph is the indicator of its edges. -/
theorem adjEntry_unit {es : List (Edge N)} (h : UnitGraph es) (a b : Fin (N + 1)) :
    adjEntry es a b = if s(a, b) ∈ es.map (fun e => s(e.u, e.v)) then 1 else 0 := by
  induction es with
  | nil => simp [adjEntry]
  | cons e l ih =>
    rw [adjEntry_cons, ih h.tail]
    simp only [joins_iff, List.map_cons, List.mem_cons]
    have hn : s(e.u, e.v) ∉ l.map (fun e => s(e.u, e.v)) := (List.nodup_cons.1 h.1).1
    by_cases h1 : s(e.u, e.v) = s(a, b)
    · rw [h1] at hn
      rw [if_pos h1, if_neg hn, if_pos (Or.inl h1.symm), h.2 e (by simp)]; simp
    · rw [if_neg h1]
      by_cases h2 : s(a, b) ∈ l.map fun e => s(e.u, e.v)
      · rw [if_pos h2, if_pos (Or.inr h2)]; simp
      · rw [if_neg h2, if_neg]; · simp
        rintro (h3 | h3)
        · exact h1 h3.symm
        · exact h2 h3

theorem adjEntry_symm (es : List (Edge N)) (a b : Fin (N + 1)) : adjEntry es a b = adjEntry es b a := by
  unfold adjEntry
  congr 2
  refine List.filter_congr fun e _ => ?_
  simp only [or_comm]

/-- Sum of a symmetric function over the ordered pairs joined by one edge. -/
theorem sum_joins (e : Edge N) (F : Fin (N + 1) → Fin (N + 1) → ℝ) (hs : ∀ a b, F a b = F b a) :
    ∑ a, ∑ b, (if (e.u = a ∧ e.v = b) ∨ (e.u = b ∧ e.v = a) then F a b else 0) =
      if e.u = e.v then F e.u e.v else 2 * F e.u e.v := by
  have hone : ∀ (u v : Fin (N + 1)),
      ∑ a, ∑ b, (if u = a ∧ v = b then F a b else 0) = F u v := by
    intro u v
    rw [Finset.sum_eq_single u, Finset.sum_eq_single v]
    · simp
    · intro b _ hb; rw [if_neg]; exact fun h => hb h.2.symm
    · simp
    · intro a _ ha
      exact Finset.sum_eq_zero fun b _ => if_neg fun h => ha h.1.symm
    · simp
  by_cases h0 : e.u = e.v
  · rw [if_pos h0]
    have : ∀ a b, (if (e.u = a ∧ e.v = b) ∨ (e.u = b ∧ e.v = a) then F a b else 0) =
        if e.u = a ∧ e.v = b then F a b else 0 := by
      intro a b
      refine if_congr ⟨?_, Or.inl⟩ rfl rfl
      rintro (h | h)
      · exact h
      · exact ⟨h0.trans h.2, h0.symm.trans h.1⟩
    simp only [this, hone]
  · rw [if_neg h0]
    have : ∀ a b, (if (e.u = a ∧ e.v = b) ∨ (e.u = b ∧ e.v = a) then F a b else 0) =
        (if e.u = a ∧ e.v = b then F a b else 0) + if e.v = a ∧ e.u = b then F a b else 0 := by
      intro a b
      by_cases h1 : e.u = a ∧ e.v = b
      · have h2 : ¬ (e.v = a ∧ e.u = b) := fun h2 => h0 (h1.1.trans h2.1.symm)
        rw [if_pos (Or.inl h1), if_pos h1, if_neg h2, add_zero]
      · by_cases h2 : e.v = a ∧ e.u = b
        · rw [if_pos (Or.inr ⟨h2.2, h2.1⟩), if_neg h1, if_pos h2, zero_add]
        · rw [if_neg, if_neg h1, if_neg h2, add_zero]
          rintro (h | h)
          · exact h1 h
          · exact h2 ⟨h.2, h.1⟩
    simp only [this, Finset.sum_add_distrib, hone]
    rw [hs e.v e.u]; ring

/-- Sum over the ones of the matrix. -/
theorem sum_adj_one {es : List (Edge N)} (h : UnitGraph es) (F : Fin (N + 1) → Fin (N + 1) → ℝ)
    (hs : ∀ a b, F a b = F b a) :
    ∑ a, ∑ b, (if adjEntry es a b = 1 then F a b else 0) =
      (es.map fun e => if e.u = e.v then F e.u e.v else 2 * F e.u e.v).sum := by
  induction es with
  | nil => simp [adjEntry]
  | cons e l ih =>
    rw [List.map_cons, List.sum_cons, ← ih h.tail, ← sum_joins e F hs, ← Finset.sum_add_distrib]
    refine Finset.sum_congr rfl fun a _ => ?_
    rw [← Finset.sum_add_distrib]
    refine Finset.sum_congr rfl fun b _ => ?_
    rw [adjEntry_unit h, adjEntry_unit h.tail]
    simp only [joins_iff, List.map_cons, List.mem_cons]
    have hn : s(e.u, e.v) ∉ l.map (fun e => s(e.u, e.v)) := (List.nodup_cons.1 h.1).1
    by_cases h1 : s(e.u, e.v) = s(a, b)
    · rw [h1] at hn
      simp [h1, hn]
    · by_cases h2 : s(a, b) ∈ l.map fun e => s(e.u, e.v)
      · simp [h1, h2]
      · have h3 : ¬ (s(a, b) = s(e.u, e.v) ∨ s(a, b) ∈ l.map fun e => s(e.u, e.v)) := by
          rintro (h3 | h3)
          · exact h1 h3.symm
          · exact h2 h3
        rw [if_neg h3, if_neg h1, if_neg h2]; simp

/-- `num_cut_adj_mat` counts every edge between two groups twice, when the groups are listed in the
node order of the matrix. -/
theorem numCutAdjMat_eq {es : List (Edge N)} (h : UnitGraph es) (order : Equiv.Perm (Fin (N + 1)))
    {C : ℕ} (z : Fin (N + 1) → Fin C) :
    numCutAdjMat (fun i => (z (order i)).val) (toNumpyArray es order) = 2 * cutEdges es z := by
  have h1 : numCutAdjMat (fun i => (z (order i)).val) (toNumpyArray es order) =
      ∑ a, ∑ b, (if adjEntry es a b = 1 then if z a ≠ z b then (1 : ℝ) else 0 else 0) := by
    unfold numCutAdjMat toNumpyArray
    refine Eq.trans (Finset.sum_congr rfl fun i _ => ?_) (Equiv.sum_comp order fun a =>
      ∑ b, (if adjEntry es a b = 1 then if z a ≠ z b then (1 : ℝ) else 0 else 0))
    rw [Finset.sum_filter]
    refine Eq.trans (Finset.sum_congr rfl fun j _ => ?_) (Equiv.sum_comp order fun b =>
      (if adjEntry es (order i) b = 1 then if z (order i) ≠ z b then (1 : ℝ) else 0 else 0))
    simp only [ne_eq, Fin.val_inj]
  rw [h1, sum_adj_one h (fun a b => if z a ≠ z b then (1 : ℝ) else 0) fun a b => by
    simp only [ne_comm]]
  unfold cutEdges
  clear h1 h
  induction es with
  | nil => simp
  | cons e l ih =>
    rw [List.map_cons, List.sum_cons, ih, List.filter_cons]
    by_cases h2 : z e.u = z e.v
    · simp [h2]
    · have h3 : e.u ≠ e.v := fun h3 => h2 (by rw [h3])
      simp [h2, h3]; ring

theorem cutEdges_le {C : ℕ} (es : List (Edge N)) (z : Fin (N + 1) → Fin C) :
    cutEdges es z ≤ es.length := List.length_filter_le _ _

private theorem evaluate_some {es : List (Edge N)} (hne : es ≠ []) (order : Fin (N + 1) → Fin (N + 1))
    (x : Fin (N + 1) → ℕ) {g : ℕ} (hlt : ∀ i, x i < g) :
    ncEvaluateFile es order x g = some ⟨numCutAdjMat x (toNumpyArray es order),
      numCutAdjMat x (toNumpyArray es order) / (es.length * 2),
      offDiagSum (binCounts x) * g / ((g - 1 : ℝ) * ((N + 1 : ℕ) : ℝ) ^ 2),
      (∑ c : Fin g, |(∑ i, if x i = c then ∑ j, toNumpyArray es order i j else 0) - (es.length * 2 : ℝ) / g|) /
        (es.length * 2),
      fun c => ∑ i, if x i = c then ∑ j, toNumpyArray es order i j else 0⟩ := by
  have h0 : (es.length * 2 : ℝ) ≠ 0 := by
    have : (0 : ℝ) < es.length := by exact_mod_cast List.length_pos_iff.2 hne
    positivity
  simp only [ncEvaluateFile, ncEvaluate, calcVolume, hlt, implies_true, if_true, Option.bind_eq_bind, Option.bind_some,
    if_neg h0]

/-- **C78 (cut).** For a graph whose nodes are listed as `0, 1, …`, the reported cut ratio is the
fraction of edges between different groups, and the reported number of cuts is the total cut the
model's energy is made of. -/
theorem ncEvaluate_cut {es : List (Edge N)} (h : UnitGraph es) (hne : es ≠ []) {g : ℕ} (z : Fin (N + 1) → Fin g)
    (padded : ℕ) :
    ∃ r, ncEvaluateFile es id (fun v => (z v).val) g = some r ∧
      r.cuts = 2 * cutEdges es z ∧
      r.cutRatio = cutEdges es z / es.length ∧ 0 ≤ r.cutRatio ∧ r.cutRatio ≤ 1 ∧
      r.cuts = ∑ c, ncCutSizes (graph2edges es padded) (ncOneHot z) c := by
  have hlt : ∀ i, (z i).val < g := fun i => (z i).isLt
  have hc : numCutAdjMat (fun v => (z v).val) (toNumpyArray es id) = 2 * cutEdges es z :=
    numCutAdjMat_eq h (Equiv.refl _) z
  have hr : 2 * (cutEdges es z : ℝ) / (es.length * 2) = cutEdges es z / es.length := by
    rw [mul_comm (es.length : ℝ) 2, mul_div_mul_left _ _ (by norm_num)]
  refine ⟨_, evaluate_some hne _ _ hlt,
    hc, ?_, ?_, ?_, ?_⟩
  · simp only [hc, hr]
  · simp only [hc, hr]; positivity
  · simp only [hc, hr]
    exact div_le_one_of_le₀ (by exact_mod_cast cutEdges_le es z) (by positivity)
  · simp only [hc, ncCutSizes_eq, sum_boundary]

/-- The list version counts the same edges once. -/
theorem numCut_eq {es : List (Edge N)} (h : UnitGraph es) {C : ℕ} (z : Fin (N + 1) → Fin C)
    (nbrs : Fin (N + 1) → List (Fin (N + 1))) (hn : ∀ a, (nbrs a).Nodup)
    (hm : ∀ a b, b ∈ nbrs a ↔ adjEntry es a b = 1) :
    numCut (fun v => (z v).val) nbrs = cutEdges es z := by
  have h0 := numCutAdjMat_eq h (Equiv.refl _) z
  have h1 : numCutAdjMat (fun i => (z i).val) (toNumpyArray es id) = ∑ i, ((nbrs i).map fun j =>
      if (z i).val ≠ (z j).val then (1 : ℝ) else 0).sum := by
    unfold numCutAdjMat
    refine Finset.sum_congr rfl fun i _ => ?_
    have e : univ.filter (fun j => toNumpyArray es id i j = 1) = (nbrs i).toFinset := by
      ext j; rw [Finset.mem_filter, List.mem_toFinset, hm]; simp [toNumpyArray]
    rw [e, List.sum_toFinset _ (hn i)]
  have h2 : numCutAdjMat (fun i => (z i).val) (toNumpyArray es id) = 2 * cutEdges es z := h0
  unfold numCut
  rw [← h1, h2]; ring

/-! ### Balance -/

theorem binCounts_sum {g : ℕ} (z : Fin (N + 1) → Fin g) (F : ℕ → ℝ) (hF : F 0 = 0) :
    ((binCounts fun v => (z v).val).map F).sum = ∑ c, F (partSize z c) := by
  unfold binCounts
  have hfil : ∀ l : List ℕ, ((l.filter fun k => decide (k ≠ 0)).map F).sum = (l.map F).sum := by
    intro l
    induction l with
    | nil => rfl
    | cons a l ih =>
      rw [List.filter_cons]
      by_cases h : a = 0 <;> simp_all
  rw [hfil, List.map_map]
  have hrange : ∀ (n : ℕ) (G : ℕ → ℝ), ((List.range n).map G).sum = ∑ c ∈ Finset.range n, G c := by
    intro n G
    rw [Finset.sum_list_map_count]
    rw [List.toFinset_range]
    refine Finset.sum_congr rfl fun c hc => ?_
    rw [List.count_eq_one_of_mem List.nodup_range (by simpa using hc), one_smul]
  rw [hrange]
  have hpart : ∀ c : Fin g, partSize z c = (univ.filter fun i => (z i).val = c.val).card := by
    intro c; unfold partSize; simp only [Fin.ext_iff]
  simp only [hpart, Function.comp]
  rw [Fin.sum_univ_eq_sum_range
    (fun c => F ((univ.filter fun i => (z i).val = c).card)) g]
  have hsub : Finset.range (univ.sup (fun v => (z v).val) + 1) ⊆ Finset.range g := by
    refine Finset.range_subset_range.2 ?_
    have : univ.sup (fun v => (z v).val) < g := by
      rw [Finset.sup_lt_iff (lt_of_le_of_lt bot_le (z 0).isLt)]
      exact fun b _ => (z b).isLt
    omega
  refine Finset.sum_subset hsub fun c _ hc => ?_
  have h0 : (univ.filter fun i => (z i).val = c) = ∅ := by
    refine Finset.filter_eq_empty_iff.2 fun i _ hi => ?_
    refine hc (Finset.mem_range.2 ?_)
    have : (z i).val ≤ univ.sup (fun v => (z v).val) :=
      Finset.le_sup (f := fun v => (z v).val) (Finset.mem_univ i)
    omega
  simp [h0, hF]

theorem sum_partSize {g : ℕ} (z : Fin (N + 1) → Fin g) : ∑ c, (partSize z c : ℝ) = (N + 1 : ℕ) := by
  have : ∑ c, partSize z c = N + 1 := by
    unfold partSize
    have := Finset.card_eq_sum_card_fiberwise (f := z) (s := univ) (t := univ) (by simp)
    rw [Finset.card_univ, Fintype.card_fin] at this
    exact this.symm
  exact_mod_cast this

theorem offDiagSum_eq {g : ℕ} (z : Fin (N + 1) → Fin g) :
    offDiagSum (binCounts fun v => (z v).val) =
      ((N + 1 : ℕ) : ℝ) ^ 2 - ∑ c, (partSize z c : ℝ) ^ 2 := by
  unfold offDiagSum
  have h1 : ∀ a : ℕ, ((binCounts fun v => (z v).val).map fun b : ℕ => (a : ℝ) * (b : ℝ)).sum =
      (a : ℝ) * (N + 1 : ℕ) := by
    intro a
    rw [binCounts_sum z (fun b => (a : ℝ) * b) (by simp), ← Finset.mul_sum, sum_partSize]
  simp only [h1]
  rw [binCounts_sum z (fun a => (a : ℝ) * (N + 1 : ℕ)) (by simp), ← Finset.sum_mul, sum_partSize,
    binCounts_sum z (fun a => (a : ℝ) * a) (by simp)]
  simp only [pow_two]

theorem ncEvaluate_balanceness_eq {es : List (Edge N)} (hne : es ≠ []) (order : Fin (N + 1) → Fin (N + 1)) {g : ℕ}
    (hg : 2 ≤ g) (z : Fin (N + 1) → Fin g) :
    ∃ r, ncEvaluateFile es order (fun v => (z v).val) g = some r ∧
      r.balanceness = 1 - g / ((g - 1 : ℝ) * ((N + 1 : ℕ) : ℝ) ^ 2) *
        ∑ c, ((partSize z c : ℝ) - (N + 1 : ℕ) / g) ^ 2 := by
  have hlt : ∀ i, (z i).val < g := fun i => (z i).isLt
  refine ⟨_, evaluate_some hne _ _ hlt,
    ?_⟩
  simp only [offDiagSum_eq]
  have hg' : (2 : ℝ) ≤ g := by exact_mod_cast hg
  have h1 : (g : ℝ) - 1 ≠ 0 := by linarith
  have h0 : (g : ℝ) ≠ 0 := by linarith
  have hn : ((N + 1 : ℕ) : ℝ) ≠ 0 := by positivity
  have hs : ∑ c, ((partSize z c : ℝ) - (N + 1 : ℕ) / g) ^ 2 =
      ∑ c, (partSize z c : ℝ) ^ 2 - ((N + 1 : ℕ) : ℝ) ^ 2 / g := by
    have : ∀ c, ((partSize z c : ℝ) - (N + 1 : ℕ) / g) ^ 2 = (partSize z c : ℝ) ^ 2 -
        2 * ((N + 1 : ℕ) / g) * partSize z c + ((N + 1 : ℕ) / g : ℝ) ^ 2 := fun c => by ring
    simp only [this, Finset.sum_add_distrib, Finset.sum_sub_distrib, ← Finset.mul_sum, sum_partSize,
      Finset.sum_const, Finset.card_univ, Fintype.card_fin, nsmul_eq_mul]
    field_simp
    ring
  rw [hs]
  field_simp
  ring

/-- **C78 (balance).** The balanceness lies between 0 and 1, it is 1 exactly when all groups have the
same number of nodes and 0 exactly when one group has them all.  This does not depend on the graph or
its node order. -/
theorem ncEvaluate_balanceness {es : List (Edge N)} (hne : es ≠ []) (order : Fin (N + 1) → Fin (N + 1)) {g : ℕ}
    (hg : 2 ≤ g) (z : Fin (N + 1) → Fin g) :
    ∃ r, ncEvaluateFile es order (fun v => (z v).val) g = some r ∧
      0 ≤ r.balanceness ∧ r.balanceness ≤ 1 ∧
      (r.balanceness = 1 ↔ ∀ c c', partSize z c = partSize z c') ∧
      (r.balanceness = 0 ↔ ∃ c, ∀ v, z v = c) := by
  obtain ⟨r, hr, hb⟩ := ncEvaluate_balanceness_eq hne order hg z
  have hg' : (2 : ℝ) ≤ g := by exact_mod_cast hg
  have h1 : (0 : ℝ) < g - 1 := by linarith
  have h0 : (0 : ℝ) < g := by linarith
  have hn : (0 : ℝ) < ((N + 1 : ℕ) : ℝ) := by positivity
  have hk : (0 : ℝ) < g / ((g - 1 : ℝ) * ((N + 1 : ℕ) : ℝ) ^ 2) := by positivity
  have hsq : 0 ≤ ∑ c, ((partSize z c : ℝ) - (N + 1 : ℕ) / g) ^ 2 :=
    Finset.sum_nonneg fun c _ => sq_nonneg _
  -- the off-diagonal form
  have hoff : r.balanceness = (((N + 1 : ℕ) : ℝ) ^ 2 - ∑ c, (partSize z c : ℝ) ^ 2) * g /
      ((g - 1 : ℝ) * ((N + 1 : ℕ) : ℝ) ^ 2) := by
    have hlt : ∀ i, (z i).val < g := fun i => (z i).isLt
    rw [evaluate_some hne _ _ hlt] at hr
    have hr' := Option.some.inj hr
    rw [← hr']
    simp only [offDiagSum_eq]
  have hle : ∀ c, (partSize z c : ℝ) ≤ (N + 1 : ℕ) := by
    intro c
    have : partSize z c ≤ (univ : Finset (Fin (N + 1))).card := Finset.card_filter_le _ _
    rw [Finset.card_univ, Fintype.card_fin] at this
    exact_mod_cast this
  have hnn : ∀ c, (0 : ℝ) ≤ partSize z c * ((N + 1 : ℕ) - partSize z c) := fun c =>
    mul_nonneg (by positivity) (sub_nonneg.2 (hle c))
  have hsum : ((N + 1 : ℕ) : ℝ) ^ 2 - ∑ c, (partSize z c : ℝ) ^ 2 =
      ∑ c, (partSize z c : ℝ) * ((N + 1 : ℕ) - partSize z c) := by
    have : ∀ c, (partSize z c : ℝ) * ((N + 1 : ℕ) - partSize z c) =
        (partSize z c : ℝ) * (N + 1 : ℕ) - (partSize z c : ℝ) ^ 2 := fun c => by ring
    simp only [this, Finset.sum_sub_distrib, ← Finset.sum_mul, sum_partSize]
    ring
  refine ⟨r, hr, ?_, ?_, ?_, ?_⟩
  · rw [hoff, hsum]
    have := Finset.sum_nonneg fun c (_ : c ∈ univ) => hnn c
    positivity
  · rw [hb]
    have := mul_nonneg hk.le hsq
    linarith
  · rw [hb]
    constructor
    · intro h c c'
      have hz : ∑ c, ((partSize z c : ℝ) - (N + 1 : ℕ) / g) ^ 2 = 0 := by
        rcases mul_eq_zero.1 (show g / ((g - 1 : ℝ) * ((N + 1 : ℕ) : ℝ) ^ 2) *
          ∑ c, ((partSize z c : ℝ) - (N + 1 : ℕ) / g) ^ 2 = 0 by linarith) with h | h
        · exact absurd h hk.ne'
        · exact h
      rw [Finset.sum_eq_zero_iff_of_nonneg fun c _ => sq_nonneg _] at hz
      have e1 := pow_eq_zero_iff (two_ne_zero) |>.1 (hz c (Finset.mem_univ _))
      have e2 := pow_eq_zero_iff (two_ne_zero) |>.1 (hz c' (Finset.mem_univ _))
      have : (partSize z c : ℝ) = partSize z c' := by linarith
      exact_mod_cast this
    · intro h
      have hc : ∀ c, (partSize z c : ℝ) = (N + 1 : ℕ) / g := by
        intro c
        have := sum_partSize z
        have e : ∑ c', (partSize z c' : ℝ) = g * partSize z c := by
          rw [Finset.sum_congr rfl fun c' _ => by rw [h c' c], Finset.sum_const, Finset.card_univ,
            Fintype.card_fin, nsmul_eq_mul]
        rw [e] at this
        rw [← this]; field_simp
      have : ∑ c, ((partSize z c : ℝ) - (N + 1 : ℕ) / g) ^ 2 = 0 :=
        Finset.sum_eq_zero fun c _ => by rw [hc c]; ring
      rw [this]; ring
  · rw [hoff, hsum]
    constructor
    · intro h
      have hz : ∑ c, (partSize z c : ℝ) * ((N + 1 : ℕ) - partSize z c) = 0 := by
        rcases div_eq_zero_iff.1 h with h | h
        · rcases mul_eq_zero.1 h with h | h
          · exact h
          · exact absurd h h0.ne'
        · exact absurd h (by positivity)
      rw [Finset.sum_eq_zero_iff_of_nonneg fun c _ => hnn c] at hz
      refine ⟨z 0, fun v => ?_⟩
      have hpos : (0 : ℝ) < partSize z (z 0) := by
        have : 0 < partSize z (z 0) := Finset.card_pos.2 ⟨0, by simp⟩
        exact_mod_cast this
      have hfull : partSize z (z 0) = N + 1 := by
        rcases mul_eq_zero.1 (hz (z 0) (Finset.mem_univ _)) with h | h
        · exact absurd h hpos.ne'
        · have : (partSize z (z 0) : ℝ) = (N + 1 : ℕ) := by linarith
          exact_mod_cast this
      have : univ.filter (fun v => z v = z 0) = univ := by
        refine Finset.eq_univ_of_card _ ?_
        rw [Fintype.card_fin]; exact hfull
      have hv := Finset.mem_univ v
      rw [← this] at hv
      exact (Finset.mem_filter.1 hv).2
    · rintro ⟨c, hc⟩
      have : ∑ c, (partSize z c : ℝ) * ((N + 1 : ℕ) - partSize z c) = 0 := by
        refine Finset.sum_eq_zero fun c' _ => ?_
        by_cases h : c' = c
        · subst h
          have : partSize z c' = N + 1 := by
            unfold partSize
            rw [Finset.filter_true_of_mem fun v _ => hc v, Finset.card_univ, Fintype.card_fin]
          rw [this]; ring
        · have : partSize z c' = 0 := by
            unfold partSize
            rw [Finset.card_eq_zero, Finset.filter_eq_empty_iff]
            intro v _ hv
            exact h (by rw [← hv, hc v])
          rw [this]; simp
      rw [this]; simp

/-! ### Volumes -/

theorem nxDegree_eq (es : List (Edge N)) (a : Fin (N + 1)) : nxDegree es a = degree es a := by
  unfold nxDegree degree
  induction es with
  | nil => rfl
  | cons e l ih =>
    rw [List.map_cons, List.sum_cons, ← ih, List.filter_cons, List.filter_cons]
    by_cases h1 : e.u = a <;> by_cases h2 : e.v = a <;> simp [h1, h2] <;> omega

/-- Row sums of the matrix are degrees when there are no loops. -/
theorem adj_row_sum {es : List (Edge N)} (h : UnitGraph es) (hl : Loopless es) (a : Fin (N + 1)) :
    ∑ b, adjEntry es a b = degree es a := by
  induction es with
  | nil => simp [adjEntry, degree]
  | cons e l ih =>
    have ih' := ih h.tail fun f hf => hl f (List.mem_cons_of_mem _ hf)
    have hne := hl e (by simp)
    simp only [adjEntry_cons, Finset.sum_add_distrib, ih', h.2 e (by simp)]
    have : degree (e :: l) a = ((if e.u = a then 1 else 0) + if e.v = a then 1 else 0) + degree l a :=
      by simp [degree]
    rw [this]
    push_cast
    congr 1
    have hs : ∀ b, (if (e.u = a ∧ e.v = b) ∨ (e.u = b ∧ e.v = a) then (1 : ℝ) else 0) =
        (if e.u = a then if e.v = b then 1 else 0 else 0) +
          (if e.v = a then if e.u = b then 1 else 0 else 0) := by
      intro b
      by_cases h1 : e.u = a
      · have h2 : ¬ e.v = a := fun h2 => hne (h1.trans h2.symm)
        simp [h1, h2]
      · by_cases h2 : e.v = a <;> simp [h1, h2]
    simp only [hs, Finset.sum_add_distrib]
    by_cases h1 : e.u = a <;> by_cases h2 : e.v = a <;> simp [h1, h2]

theorem sum_degree (es : List (Edge N)) : ∑ a, degree es a = 2 * es.length := by
  induction es with
  | nil => simp [degree]
  | cons e l ih =>
    have : ∀ a, degree (e :: l) a = ((if e.u = a then 1 else 0) + if e.v = a then 1 else 0) +
      degree l a := fun a => by simp [degree]
    simp only [this, Finset.sum_add_distrib, ih]
    simp; ring

/-- **C78 (volumes).** Without loops, and with the nodes listed as `0, 1, …`, the reported volumes are
the degree sums of the groups, the same that enter the model's energy, and add up to twice the number
of edges. -/
theorem ncEvaluate_volume {es : List (Edge N)} (h : UnitGraph es) (hl : Loopless es) (hne : es ≠ []) {g : ℕ}
    (z : Fin (N + 1) → Fin g) :
    ∃ r, ncEvaluateFile es id (fun v => (z v).val) g = some r ∧
      (∀ c, r.volumes c = volume (fun a => (degree es a : ℝ)) z c) ∧
      (∀ c, r.volumes c = volume (nodeDegrees es id) z c) ∧
      ∑ c, r.volumes c = 2 * es.length ∧ 0 ≤ r.errorVol ∧
      (r.errorVol = 0 ↔ ∀ c c', r.volumes c = r.volumes c') := by
  have hlt : ∀ i, (z i).val < g := fun i => (z i).isLt
  have hv : ∀ c : Fin g, (∑ i, if (z i).val = c.val then ∑ j, toNumpyArray es id i j else 0) =
      volume (fun a => (degree es a : ℝ)) z c := by
    intro c
    unfold volume
    rw [Finset.sum_filter]
    refine Finset.sum_congr rfl fun i _ => ?_
    simp only [toNumpyArray, id, adj_row_sum h hl, Fin.val_inj]
  have htot : ∑ c, volume (fun a => (degree es a : ℝ)) z c = 2 * es.length := by
    unfold volume
    rw [Finset.sum_fiberwise]
    have := sum_degree es
    exact_mod_cast this
  refine ⟨_, evaluate_some hne _ _ hlt,
    hv, fun c => ?_, ?_, ?_, ?_⟩
  · refine (hv c).trans ?_
    unfold volume nodeDegrees
    simp only [id, nxDegree_eq]
  · simp only [hv, htot]
  · exact div_nonneg (Finset.sum_nonneg fun c _ => abs_nonneg _) (by positivity)
  · have hE : (0 : ℝ) < es.length := by exact_mod_cast List.length_pos_iff.2 hne
    simp only [hv]
    have hg : (0 : ℝ) < g := by
      have := (z 0).isLt
      exact_mod_cast lt_of_le_of_lt (Nat.zero_le _) this
    rw [div_eq_zero_iff, or_iff_left (by positivity),
      Finset.sum_eq_zero_iff_of_nonneg fun c _ => abs_nonneg _]
    simp only [Finset.mem_univ, true_implies, abs_eq_zero, sub_eq_zero]
    constructor
    · intro h c c'
      rw [h c, h c']
    · intro h c
      have e : ∑ c', volume (fun a => (degree es a : ℝ)) z c' =
          g * volume (fun a => (degree es a : ℝ)) z c := by
        rw [Finset.sum_congr rfl fun c' _ => h c' c, Finset.sum_const, Finset.card_univ,
          Fintype.card_fin, nsmul_eq_mul]
      rw [e] at htot
      field_simp
      linarith

/-- A path on four nodes cut in the middle. -/
example : UnitGraph (N := 3) [⟨0, 1, 1⟩, ⟨1, 2, 1⟩, ⟨2, 3, 1⟩] ∧
    Loopless (N := 3) [⟨0, 1, 1⟩, ⟨1, 2, 1⟩, ⟨2, 3, 1⟩] ∧
    cutEdges (N := 3) (C := 2) [⟨0, 1, 1⟩, ⟨1, 2, 1⟩, ⟨2, 3, 1⟩] ![0, 0, 1, 1] = 1 := by
  refine ⟨⟨by decide, by simp⟩, by simp [Loopless], by decide⟩

/-- **C78 refuted for other node orders.** If the nodes of the pickled graph were not added in the
order of their labels, sample and matrix are indexed differently: here the single edge is cut and the
reported ratio is 0. -/
theorem ncEvaluate_order_wrong : ∃ (es : List (Edge 2)) (order : Equiv.Perm (Fin 3))
    (z : Fin 3 → Fin 2), UnitGraph es ∧ Loopless es ∧ cutEdges es z = 1 ∧
    numCutAdjMat (fun v => (z v).val) (toNumpyArray es order) = 0 := by
  refine ⟨[⟨0, 1, 1⟩], Equiv.swap 1 2, ![0, 1, 0], ⟨by decide, by simp⟩, by simp [Loopless],
    by decide, ?_⟩
  unfold numCutAdjMat toNumpyArray adjEntry
  refine Finset.sum_eq_zero fun i _ => Finset.sum_eq_zero fun j hj => ?_
  have hj' := (Finset.mem_filter.1 hj).2
  fin_cases i <;> fin_cases j <;> simp [Equiv.swap_apply_def] at hj' ⊢

/-- The degrees the model's energy is built with are misplaced in the same way. -/
theorem nodeDegrees_order_wrong : ∃ (es : List (Edge 2)) (order : Equiv.Perm (Fin 3)),
    UnitGraph es ∧ nodeDegrees es order 1 = 0 ∧ degree es 1 = 1 := by
  refine ⟨[⟨0, 1, 1⟩], Equiv.swap 1 2, ⟨by decide, by simp⟩, ?_, by decide⟩
  have : nxDegree (N := 2) [⟨0, 1, 1⟩] (Equiv.swap 1 2 1) = 0 := by
    rw [Equiv.swap_apply_left]; simp [nxDegree]
  unfold nodeDegrees; rw [this]; simp

/-- Edges whose weight is not one are never counted as cut. -/
theorem ncEvaluate_weight_wrong (w : ℝ) (hw : w ≠ 1) :
    numCutAdjMat (N := 1) (fun v => v.val) (toNumpyArray [⟨0, 1, w⟩] id) = 0 ∧
    cutEdges (N := 1) (C := 2) [⟨0, 1, w⟩] ![0, 1] = 1 := by
  refine ⟨?_, by simp [cutEdges]⟩
  unfold numCutAdjMat toNumpyArray adjEntry
  refine Finset.sum_eq_zero fun i _ => Finset.sum_eq_zero fun j hj => ?_
  have hj' := (Finset.mem_filter.1 hj).2
  fin_cases i <;> fin_cases j <;> simp [hw] at hj' ⊢

/-- With a loop the volumes no longer add up to `sum_degrees`. -/
theorem ncEvaluate_loop_wrong : ∃ r, ncEvaluateFile (N := 1) [⟨0, 0, 1⟩, ⟨0, 1, 1⟩] id
    (fun v => v.val) 2 = some r ∧ ∑ c, r.volumes c = 3 ∧
      (([⟨0, 0, 1⟩, ⟨0, 1, 1⟩] : List (Edge 1)).length * 2 : ℝ) = 4 := by
  have hlt : ∀ i : Fin (1 + 1), i.val < 2 := fun i => i.isLt
  have hne : ([⟨0, 0, 1⟩, ⟨0, 1, 1⟩] : List (Edge 1)) ≠ [] := by simp
  refine ⟨_, evaluate_some hne _ _ hlt,
    ?_, by norm_num⟩
  simp [toNumpyArray, adjEntry, Fin.sum_univ_two]
  norm_num

/-- Exactly a label that is not below the number of groups (which `main` fixes to three) and a graph without edges are
errors. -/
theorem ncEvaluate_too_many (es : List (Edge N)) (order : Fin (N + 1) → Fin (N + 1))
    (x : Fin (N + 1) → ℕ) (g : ℕ) :
    ncEvaluateFile es order x g = none ↔ es = [] ∨ ∃ v, g ≤ x v := by
  by_cases h : ∀ i, x i < g
  · by_cases hne : es = []
    · subst hne
      simp [ncEvaluateFile, ncEvaluate, calcVolume, h]
    · rw [evaluate_some hne order x h]
      simp only [reduceCtorEq, hne, false_or, false_iff, not_exists, not_le]
      exact h
  · unfold ncEvaluateFile ncEvaluate calcVolume
    rw [if_neg h]
    push Not at h
    exact ⟨fun _ => Or.inr h, fun _ => rfl⟩

/-! ### Batches and initial samples -/

/-- **C78 (batching).** A batch of NormCut instances can be stacked only if all its graphs have the
same number of nodes; in particular a padded batch needs graphs with as many nodes as there are
categories. -/
theorem nc_stack (ns : List ℕ) (hns : ns ≠ []) (C : ℕ) :
    ((stackLens (ns.map nodeDegreesLen)).isSome ↔ ∀ m ∈ ns, ∀ n ∈ ns, m = n) ∧
    ((stackLens ((ns ++ [ncDummyNodes C]).map nodeDegreesLen)).isSome ↔ ∀ n ∈ ns, n = C) := by
  have key : ∀ l : List ℕ, l ≠ [] → ((stackLens l).isSome ↔ ∀ m ∈ l, ∀ n ∈ l, m = n) := by
    intro l hl
    cases l with
    | nil => exact absurd rfl hl
    | cons a l =>
      simp only [stackLens]
      by_cases h : ∀ m ∈ l, m = a
      · rw [if_pos h]
        simp only [Option.isSome_some, true_iff]
        have h' : ∀ m ∈ a :: l, m = a := by
          intro m hm
          rcases List.mem_cons.1 hm with rfl | hm
          · rfl
          · exact h m hm
        intro m hm n hn
        rw [h' m hm, h' n hn]
      · rw [if_neg h]
        simp only [Option.isSome_none, Bool.false_eq_true, false_iff]
        intro h'
        exact h fun m hm => h' m (List.mem_cons_of_mem _ hm) a (by simp)
  have hid : ∀ l : List ℕ, l.map nodeDegreesLen = l := fun l => by
    have : nodeDegreesLen = id := rfl
    rw [this, List.map_id]
  rw [hid, hid]
  refine ⟨key ns hns, ?_⟩
  rw [key _ (by simp)]
  unfold ncDummyNodes
  constructor
  · intro h n hn
    exact h n (by simp [hn]) C (by simp)
  · intro h m hm n hn
    have h' : ∀ m ∈ ns ++ [C], m = C := by
      intro m hm
      rcases List.mem_append.1 hm with hm | hm
      · exact h m hm
      · simpa using hm
    rw [h' m hm, h' n hn]

/-- **C78 (initial samples).** Whatever is drawn, the initial labelling of a graph with at least as
many nodes as categories has one label per node, only valid labels, and uses every category. -/
theorem ncInit_covers {n C : ℕ} (hC : C ≤ n) (more : List ℕ) (hlen : more.length = n - C)
    (hmore : ∀ m ∈ more, m < C) (shuffle : List ℕ → List ℕ) (hs : ∀ l, (shuffle l).Perm l) :
    ∃ row, ncInitRow n C more shuffle = some row ∧ row.length = n ∧ (∀ m ∈ row, m < C) ∧
      ∀ c < C, c ∈ row := by
  refine ⟨_, if_pos hC, ?_, ?_, ?_⟩
  · rw [(hs _).length_eq, List.length_append, List.length_range, List.length_take]
    omega
  · intro m hm
    rcases List.mem_append.1 ((hs _).mem_iff.1 hm) with h | h
    · simpa using h
    · exact hmore m (List.mem_of_mem_take h)
  · intro c hc
    exact (hs _).mem_iff.2 (List.mem_append_left _ (by simpa using hc))

/-- With fewer nodes than categories there are no initial samples. -/
theorem ncInit_none (n C : ℕ) (more : List ℕ) (shuffle : List ℕ → List ℕ) :
    ncInitRow n C more shuffle = none ↔ n < C := by
  unfold ncInitRow
  split_ifs with h
  · exact ⟨fun h' => (nomatch h'), fun h' => by omega⟩
  · exact ⟨fun _ => by omega, fun _ => rfl⟩

/-- Seven nodes, three categories, reversed. -/
example : ncInitRow 7 3 [2, 2, 0, 1] List.reverse = some [1, 0, 2, 2, 2, 1, 0] := by decide

end Discs
