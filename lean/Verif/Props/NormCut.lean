import Verif.Props.Comb
import Verif.Model.Factorized
import Mathlib.Algebra.Order.BigOperators.Group.Finset

/-!
# C41, C42, C61: the normalised-cut energy
-/

namespace Discs.Spec

variable {N C : ℕ}

/-- Number of edges with exactly one endpoint labelled `c`. -/
def boundary (es : List (Edge N)) (z : Fin (N + 1) → Fin C) (c : Fin C) : ℕ :=
  (es.filter fun e => decide ((z e.u = c ∧ z e.v ≠ c) ∨ (z e.u ≠ c ∧ z e.v = c))).length

/-- Total degree of the nodes labelled `c`. -/
noncomputable def volume (deg : Fin (N + 1) → ℝ) (z : Fin (N + 1) → Fin C) (c : Fin C) : ℝ :=
  ∑ v ∈ Finset.univ.filter (fun v => z v = c), deg v

/-- Number of nodes labelled `c`. -/
def partSize (z : Fin (N + 1) → Fin C) (c : Fin C) : ℕ := (Finset.univ.filter fun v => z v = c).card

/-- Number of edges whose endpoints carry different labels. -/
def cutEdges (es : List (Edge N)) (z : Fin (N + 1) → Fin C) : ℕ :=
  (es.filter fun e => decide (z e.u ≠ z e.v)).length

end Discs.Spec

namespace Discs

open Finset Spec

variable {N C : ℕ}

/-- The float one-hot sample handed to `objective` (`normcut.py:59`). -/
def ncOneHot (z : Fin (N + 1) → Fin C) : Fin (N + 1) → Fin C → ℝ := fun i c => if c = z i then 1 else 0

theorem boundary_cast (es : List (Edge N)) (z : Fin (N + 1) → Fin C) (c : Fin C) :
    (boundary es z c : ℝ) = (es.map fun e =>
      if (z e.u = c ∧ z e.v ≠ c) ∨ (z e.u ≠ c ∧ z e.v = c) then (1 : ℝ) else 0).sum := by
  unfold boundary
  induction es with
  | nil => simp
  | cons e l ih =>
    rw [List.map_cons, List.sum_cons, ← ih, List.filter_cons]
    split_ifs with h1 h2 h2
    · simp; ring
    · exact absurd (of_decide_eq_true h1) h2
    · exact absurd (decide_eq_true h2) h1
    · simp

/-- `get_cut_sizes` counts, for each category, the edges leaving it; padding adds nothing. -/
theorem ncCutSizes_eq (es : List (Edge N)) (padded : ℕ) (z : Fin (N + 1) → Fin C) (c : Fin C) :
    ncCutSizes (graph2edges es padded) (ncOneHot z) c = boundary es z c := by
  unfold ncCutSizes
  rw [sum_graph2edges es padded (fun a b _ _ =>
    -(ncOneHot z a c + ncOneHot z b c) ^ 2 + 2 * (ncOneHot z a c + ncOneHot z b c)) 0, boundary_cast]
  have h0 : -(ncOneHot z 0 c + ncOneHot z 0 c) ^ 2 + 2 * (ncOneHot z 0 c + ncOneHot z 0 c) = 0 := by
    unfold ncOneHot; split_ifs <;> norm_num
  rw [h0, mul_zero, add_zero]
  refine list_sum_map_congr fun e _ => ?_
  unfold ncOneHot
  simp only [eq_comm (a := c)]
  by_cases h1 : z e.u = c <;> by_cases h2 : z e.v = c <;> simp [h1, h2] <;> norm_num

theorem volume_eq (deg : Fin (N + 1) → ℝ) (z : Fin (N + 1) → Fin C) (c : Fin C) :
    ∑ v, ncOneHot z v c * deg v = volume deg z c := by
  unfold volume ncOneHot
  rw [Finset.sum_filter]
  refine Finset.sum_congr rfl fun v _ => ?_
  by_cases h : z v = c
  · simp [h]
  · have : ¬ c = z v := fun h' => h h'.symm
    simp [h, this]

/-- **C61.** Without the balance penalty the energy is minus the normalised cut of the labelling
(each ratio smoothed by `eps`), for every graph, padding, degree vector and labelling. -/
theorem ncObjective_normcut (cfg : NCConfig) (hp : ¬ cfg.penalty > 0) (es : List (Edge N)) (padded : ℕ)
    (deg : Fin (N + 1) → ℝ) (z : Fin (N + 1) → Fin C) :
    ncObjective cfg (graph2edges es padded) deg (ncOneHot z) =
      -∑ c, (boundary es z c + cfg.eps) / (volume deg z c + cfg.eps ^ 2) := by
  simp only [ncObjective, hp, if_false, ncCutSizes_eq, volume_eq]

/-- Each edge between differently labelled nodes is counted by exactly two categories. -/
theorem sum_boundary (es : List (Edge N)) (z : Fin (N + 1) → Fin C) :
    ∑ c, (boundary es z c : ℝ) = 2 * cutEdges es z := by
  simp only [boundary_cast]
  have hswap : ∀ (l : List (Edge N)) (F : Edge N → Fin C → ℝ),
      ∑ c, (l.map fun e => F e c).sum = (l.map fun e => ∑ c, F e c).sum := by
    intro l F
    induction l with
    | nil => simp
    | cons e l ih => simp only [List.map_cons, List.sum_cons, Finset.sum_add_distrib, ih]
  rw [hswap es fun e c => if (z e.u = c ∧ z e.v ≠ c) ∨ (z e.u ≠ c ∧ z e.v = c) then (1 : ℝ) else 0]
  have hedge : ∀ e : Edge N, (∑ c, if (z e.u = c ∧ z e.v ≠ c) ∨ (z e.u ≠ c ∧ z e.v = c) then (1 : ℝ)
      else 0) = if z e.u ≠ z e.v then 2 else 0 := by
    intro e
    by_cases h : z e.u = z e.v
    · rw [if_neg (by simpa using h)]
      refine Finset.sum_eq_zero fun c _ => if_neg ?_
      rw [h]; tauto
    · rw [if_pos h]
      have h2 : ∀ c, (if (z e.u = c ∧ z e.v ≠ c) ∨ (z e.u ≠ c ∧ z e.v = c) then (1 : ℝ) else 0) =
          (if c = z e.u then 1 else 0) + if c = z e.v then 1 else 0 := by
        intro c
        by_cases h1 : c = z e.u
        · subst h1; simp [h, Ne.symm h]
        · by_cases h3 : c = z e.v
          · subst h3; simp [h, Ne.symm h]
          · simp [h1, h3, Ne.symm h1, Ne.symm h3]
      simp only [h2, Finset.sum_add_distrib, Finset.sum_ite_eq', Finset.mem_univ, if_true]
      norm_num
  simp only [hedge]
  unfold cutEdges
  induction es with
  | nil => simp
  | cons e l ih =>
    rw [List.map_cons, List.sum_cons, ih, List.filter_cons]
    by_cases h : z e.u = z e.v <;> simp [h]
    ring

theorem partSize_eq (z : Fin (N + 1) → Fin C) (c : Fin C) : ∑ v, ncOneHot z v c = partSize z c := by
  unfold ncOneHot partSize
  rw [Finset.card_filter]
  push_cast
  refine Finset.sum_congr rfl fun v _ => ?_
  simp only [eq_comm]

/-- **C61 (balance penalty, quadratic).** With a positive penalty the energy is minus twice the
number of cut edges minus the penalty times the squared deviations of the part sizes. -/
theorem ncObjective_quad (cfg : NCConfig) (hp : cfg.penalty > 0) (hq : cfg.quad = true)
    (es : List (Edge N)) (padded : ℕ) (deg : Fin (N + 1) → ℝ) (z : Fin (N + 1) → Fin C) :
    ncObjective cfg (graph2edges es padded) deg (ncOneHot z) =
      -(2 * cutEdges es z + cfg.penalty * ∑ c, ((partSize z c : ℝ) - cfg.avgSize) ^ 2) := by
  simp only [ncObjective, hp, hq, if_true, ncCutSizes_eq, partSize_eq, sum_boundary]

/-- **C61 (balance penalty, span).** With the span penalty nothing is charged exactly when every part
size is within the tolerance of the average. -/
theorem ncObjective_span (cfg : NCConfig) (hp : cfg.penalty > 0) (hq : cfg.quad = false)
    (es : List (Edge N)) (padded : ℕ) (deg : Fin (N + 1) → ℝ) (z : Fin (N + 1) → Fin C) :
    ncObjective cfg (graph2edges es padded) deg (ncOneHot z) ≤ -(2 * cutEdges es z) ∧
    (ncObjective cfg (graph2edges es padded) deg (ncOneHot z) = -(2 * cutEdges es z) ↔
      ∀ c, |(partSize z c : ℝ) - cfg.avgSize| ≤ cfg.tolerance) := by
  simp only [ncObjective, hp, hq, if_true, Bool.false_eq_true, if_false, ncCutSizes_eq, partSize_eq,
    sum_boundary]
  have hnn : ∀ c, 0 ≤ max ((partSize z c : ℝ) - cfg.avgSize - cfg.tolerance) 0 ^ 2 +
      max (cfg.avgSize - cfg.tolerance - partSize z c) 0 ^ 2 := fun c => by positivity
  have hsum := Finset.sum_nonneg fun c (_ : c ∈ (Finset.univ : Finset (Fin C))) => hnn c
  refine ⟨by nlinarith, ?_⟩
  constructor
  · intro h c
    have h0 : ∑ c, (max ((partSize z c : ℝ) - cfg.avgSize - cfg.tolerance) 0 ^ 2 +
      max (cfg.avgSize - cfg.tolerance - partSize z c) 0 ^ 2) = 0 := by
      have : cfg.penalty * ∑ c, (max ((partSize z c : ℝ) - cfg.avgSize - cfg.tolerance) 0 ^ 2 +
        max (cfg.avgSize - cfg.tolerance - partSize z c) 0 ^ 2) = 0 := by linarith
      exact (mul_eq_zero.1 this).resolve_left hp.ne'
    have h1 := (Finset.sum_eq_zero_iff_of_nonneg fun c _ => hnn c).1 h0 c (Finset.mem_univ c)
    have h2 : max ((partSize z c : ℝ) - cfg.avgSize - cfg.tolerance) 0 = 0 := by nlinarith [sq_nonneg (max ((partSize z c : ℝ) - cfg.avgSize - cfg.tolerance) 0), sq_nonneg (max (cfg.avgSize - cfg.tolerance - partSize z c) 0)]
    have h3 : max (cfg.avgSize - cfg.tolerance - partSize z c) 0 = 0 := by nlinarith [sq_nonneg (max ((partSize z c : ℝ) - cfg.avgSize - cfg.tolerance) 0), sq_nonneg (max (cfg.avgSize - cfg.tolerance - partSize z c) 0)]
    rw [max_eq_right_iff] at h2 h3
    rw [abs_le]; constructor <;> linarith
  · intro h
    have h0 : ∑ c, (max ((partSize z c : ℝ) - cfg.avgSize - cfg.tolerance) 0 ^ 2 +
      max (cfg.avgSize - cfg.tolerance - partSize z c) 0 ^ 2) = 0 := by
      refine Finset.sum_eq_zero fun c _ => ?_
      obtain ⟨h1, h2⟩ := abs_le.1 (h c)
      rw [max_eq_right (by linarith), max_eq_right (by linarith)]; norm_num
    rw [h0]; ring

/-- **C42 (NormCut).** `evaluate` is the objective whatever the temperature. -/
theorem nc_evaluate {m : ℕ} (cfg : NCConfig) (A : EdgeArrays N m) (deg : Fin (N + 1) → ℝ) {T : ℝ}
    (hT : T ≠ 0) (x : Fin (N + 1) → Fin C → ℝ) :
    ncForward cfg A deg T x * T = ncObjective cfg A deg x := by
  unfold ncForward; field_simp

/-- **C42 (NormCut).** A positive temperature preserves the order of the scores. -/
theorem nc_order {m : ℕ} (cfg : NCConfig) (A : EdgeArrays N m) (deg : Fin (N + 1) → ℝ) {T : ℝ}
    (hT : 0 < T) (x y : Fin (N + 1) → Fin C → ℝ) :
    ncForward cfg A deg T x ≤ ncForward cfg A deg T y ↔
      ncObjective cfg A deg x ≤ ncObjective cfg A deg y := by
  unfold ncForward; exact div_le_div_iff_of_pos_right hT

/-! ### C41 for NormCut -/

theorem oneHotInt_add_mod (z : Fin (N + 1) → Fin C) (a b : Fin (N + 1)) (c : Fin C) :
    (((oneHotInt z a c + oneHotInt z b c) % 2 : ℤ) : ℝ) =
      if (z a = c ∧ z b ≠ c) ∨ (z a ≠ c ∧ z b = c) then 1 else 0 := by
  unfold oneHotInt
  simp only [eq_comm (a := c)]
  by_cases h1 : z a = c <;> by_cases h2 : z b = c <;> simp [h1, h2]

theorem ncCurCut_eq (es : List (Edge N)) (padded : ℕ) (z : Fin (N + 1) → Fin C) (c : Fin C) :
    ncCurCut (graph2edges es padded) (oneHotInt z) c = boundary es z c := by
  unfold ncCurCut
  push_cast
  simp only [oneHotInt_add_mod]
  rw [sum_bidir _ fun a b _ => if (z a = c ∧ z b ≠ c) ∨ (z a ≠ c ∧ z b = c) then (1 : ℝ) else 0,
    sum_graph2edges es padded (fun a b _ _ =>
      (if (z a = c ∧ z b ≠ c) ∨ (z a ≠ c ∧ z b = c) then (1 : ℝ) else 0) +
        if (z b = c ∧ z a ≠ c) ∨ (z b ≠ c ∧ z a = c) then (1 : ℝ) else 0) 0, boundary_cast]
  have h0 : (if (z 0 = c ∧ z 0 ≠ c) ∨ (z 0 ≠ c ∧ z 0 = c) then (1 : ℝ) else 0) = 0 :=
    if_neg (by tauto)
  rw [h0, add_zero, mul_zero, add_zero]
  have hsym : ∀ e : Edge N, ((if (z e.u = c ∧ z e.v ≠ c) ∨ (z e.u ≠ c ∧ z e.v = c) then (1 : ℝ) else 0) +
        if (z e.v = c ∧ z e.u ≠ c) ∨ (z e.v ≠ c ∧ z e.u = c) then (1 : ℝ) else 0) =
      2 * if (z e.u = c ∧ z e.v ≠ c) ∨ (z e.u ≠ c ∧ z e.v = c) then (1 : ℝ) else 0 := by
    intro e
    by_cases h1 : z e.u = c <;> by_cases h2 : z e.v = c <;> simp [h1, h2] <;> norm_num
  simp only [hsym]
  rw [list_sum_map_mul_left]
  ring

/-- What the scatter-add computes: the boundary after relabelling `v` to `k`, plus `2` per padding
entry at node 0 in the old and the new category. -/
theorem ncNewCut_eq (es : List (Edge N)) (hl : Loopless es) (padded : ℕ) (z : Fin (N + 1) → Fin C)
    (v : Fin (N + 1)) (k c : Fin C) :
    ncNewCut (graph2edges es padded) (oneHotInt z) v k c =
      boundary es (Function.update z v k) c +
        if v = 0 ∧ ((k = c ∧ z 0 ≠ c) ∨ (k ≠ c ∧ z 0 = c)) then
          2 * ((paddedLen es.length padded - es.length : ℕ) : ℝ) else 0 := by
  unfold ncNewCut
  rw [ncCurCut_eq]
  have hmod : ∀ b : Fin (N + 1), ((((if k = c then 1 else 0) + oneHotInt z b c) % 2 : ℤ) : ℝ) =
      if (k = c ∧ z b ≠ c) ∨ (k ≠ c ∧ z b = c) then 1 else 0 := by
    intro b
    unfold oneHotInt
    simp only [eq_comm (a := c)]
    by_cases h1 : k = c <;> by_cases h2 : z b = c <;> simp [h1, h2]
  have hcast : ((∑ i, if (graph2edges es padded).bidirFrom i = v then
      ((if k = c then 1 else 0) + oneHotInt z ((graph2edges es padded).bidirTo i) c) % 2 -
        (oneHotInt z ((graph2edges es padded).bidirFrom i) c +
          oneHotInt z ((graph2edges es padded).bidirTo i) c) % 2 else 0 : ℤ) : ℝ) =
      ∑ i, if (graph2edges es padded).bidirFrom i = v then
        (if (k = c ∧ z ((graph2edges es padded).bidirTo i) ≠ c) ∨
            (k ≠ c ∧ z ((graph2edges es padded).bidirTo i) = c) then (1 : ℝ) else 0) -
          (if (z v = c ∧ z ((graph2edges es padded).bidirTo i) ≠ c) ∨
            (z v ≠ c ∧ z ((graph2edges es padded).bidirTo i) = c) then (1 : ℝ) else 0) else 0 := by
    rw [Int.cast_sum]
    refine Finset.sum_congr rfl fun i _ => ?_
    by_cases hi : (graph2edges es padded).bidirFrom i = v
    · rw [if_pos hi, if_pos hi, Int.cast_sub, hmod, oneHotInt_add_mod, hi]
    · rw [if_neg hi, if_neg hi, Int.cast_zero]
  simp only at hcast ⊢
  rw [hcast, sum_bidir _ fun a b _ => if a = v then
    (if (k = c ∧ z b ≠ c) ∨ (k ≠ c ∧ z b = c) then (1 : ℝ) else 0) -
      (if (z v = c ∧ z b ≠ c) ∨ (z v ≠ c ∧ z b = c) then (1 : ℝ) else 0) else 0,
    sum_graph2edges es padded (fun a b _ _ => (if a = v then
      (if (k = c ∧ z b ≠ c) ∨ (k ≠ c ∧ z b = c) then (1 : ℝ) else 0) -
        (if (z v = c ∧ z b ≠ c) ∨ (z v ≠ c ∧ z b = c) then (1 : ℝ) else 0) else 0) +
      if b = v then
      (if (k = c ∧ z a ≠ c) ∨ (k ≠ c ∧ z a = c) then (1 : ℝ) else 0) -
        (if (z v = c ∧ z a ≠ c) ∨ (z v ≠ c ∧ z a = c) then (1 : ℝ) else 0) else 0) 0]
  rw [← add_assoc]
  congr 1
  · rw [boundary_cast, boundary_cast, ← list_sum_map_add]
    refine list_sum_map_congr fun e he => ?_
    have hne := hl e he
    by_cases h1 : e.u = v
    · have h2 : e.v ≠ v := fun h => hne (h1.trans h.symm)
      rw [h1]
      simp only [if_true, h2, if_false, Function.update_self, Function.update_of_ne h2]
      ring
    · by_cases h2 : e.v = v
      · rw [h2]
        simp only [if_true, h1, if_false, Function.update_self, Function.update_of_ne h1]
        by_cases a1 : k = c <;> by_cases a2 : z e.u = c <;> by_cases a3 : z v = c <;>
          simp [a1, a2, a3]
      · simp only [h1, h2, if_false, Function.update_of_ne h1, Function.update_of_ne h2]
        ring
  · by_cases h0 : v = 0
    · subst h0
      by_cases a1 : k = c <;> by_cases a2 : z 0 = c <;> simp [a1, a2] <;> ring
    · have h1 : ¬ (0 : Fin (N + 1)) = v := fun h => h0 h.symm
      simp [h0, h1]

theorem ncVolume_update (deg : Fin (N + 1) → ℝ) (z : Fin (N + 1) → Fin C) (v : Fin (N + 1))
    (k c : Fin C) :
    (∑ w, (oneHotInt z w c : ℝ) * deg w) + ((if k = c then 1 else 0) - (oneHotInt z v c : ℝ)) * deg v =
      volume deg (Function.update z v k) c := by
  rw [← volume_eq, ← Finset.add_sum_erase _ _ (Finset.mem_univ v),
    ← Finset.add_sum_erase (a := v) univ (fun w => ncOneHot (Function.update z v k) w c * deg w)
      (Finset.mem_univ v)]
  have h1 : ∑ w ∈ univ.erase v, (oneHotInt z w c : ℝ) * deg w =
      ∑ w ∈ univ.erase v, ncOneHot (Function.update z v k) w c * deg w := by
    refine Finset.sum_congr rfl fun w hw => ?_
    unfold ncOneHot oneHotInt
    rw [Function.update_of_ne (Finset.ne_of_mem_erase hw)]
    push_cast; rfl
  rw [h1]
  have h2 : ncOneHot (Function.update z v k) v c = if k = c then 1 else 0 := by
    unfold ncOneHot; rw [Function.update_self]
    simp only [eq_comm]
  rw [h2]
  ring

theorem ncVolume (deg : Fin (N + 1) → ℝ) (z : Fin (N + 1) → Fin C) (c : Fin C) :
    (∑ w, (oneHotInt z w c : ℝ) * deg w) = volume deg z c := by
  rw [← volume_eq]
  refine Finset.sum_congr rfl fun w _ => ?_
  unfold ncOneHot oneHotInt
  push_cast; rfl

/-- **C41 (NormCut, returned value).** Without balance penalty the first returned value is
`forward x`, for every graph and padding. -/
theorem nc_cur_obj (cfg : NCConfig) (hp : ¬ cfg.penalty > 0) (es : List (Edge N)) (padded : ℕ)
    (deg : Fin (N + 1) → ℝ) (T : ℝ) (z : Fin (N + 1) → Fin C) :
    ncCurObj cfg.eps (graph2edges es padded) deg T (oneHotInt z) =
      ncForward cfg (graph2edges es padded) deg T (ncOneHot z) := by
  unfold ncCurObj ncForward
  rw [ncObjective_normcut cfg hp]
  simp only [ncCurCut_eq, ncVolume]

/-- **C41 (NormCut), partial:** without balance penalty the log-ratio of relabelling `v` to `k` is the
difference of log-likelihoods when the arrays are not padded, or the node is not node 0.  Missing:
node 0 of padded graphs (`nc_logratio_wrong_padding`) and a positive penalty
(`nc_logratio_wrong_penalty`), where the statement is false. -/
theorem nc_logratio_exact_partial (cfg : NCConfig) (hp : ¬ cfg.penalty > 0) (es : List (Edge N))
    (hl : Loopless es) (padded : ℕ) (deg : Fin (N + 1) → ℝ) (T : ℝ) (z : Fin (N + 1) → Fin C)
    (v : Fin (N + 1)) (k : Fin C) (h : padded ≤ es.length ∨ v ≠ 0) :
    ncLogratio cfg.eps (graph2edges es padded) deg T (oneHotInt z) v k =
      ncForward cfg (graph2edges es padded) deg T (ncOneHot (Function.update z v k)) -
        ncForward cfg (graph2edges es padded) deg T (ncOneHot z) := by
  simp only [ncLogratio]
  rw [nc_cur_obj cfg hp, ncForward, ncForward, ncObjective_normcut cfg hp, ncObjective_normcut cfg hp]
  congr 3
  refine Finset.sum_congr rfl fun c _ => ?_
  rw [ncVolume_update, ncNewCut_eq es hl]
  have hz : (if v = 0 ∧ ((k = c ∧ z 0 ≠ c) ∨ (k ≠ c ∧ z 0 = c)) then
      2 * ((paddedLen es.length padded - es.length : ℕ) : ℝ) else 0) = 0 := by
    rcases h with h | h
    · have : paddedLen es.length padded - es.length = 0 := by unfold paddedLen; split_ifs <;> omega
      rw [this]; simp
    · simp [h]
  rw [hz, add_zero]

/-- **C41 is false for NormCut on padded graphs:** every relabelling of node 0 to another category is
scored strictly too low, for every loopless graph with padding. -/
theorem nc_logratio_wrong_padding (cfg : NCConfig) (hp : ¬ cfg.penalty > 0) (he : 0 < cfg.eps)
    (es : List (Edge N)) (hl : Loopless es) {padded : ℕ} (hpad : es.length < padded)
    {deg : Fin (N + 1) → ℝ} (hdeg : ∀ v, 0 ≤ deg v) {T : ℝ} (hT : 0 < T) (z : Fin (N + 1) → Fin C)
    {k : Fin C} (hk : z 0 ≠ k) :
    ncLogratio cfg.eps (graph2edges es padded) deg T (oneHotInt z) 0 k <
      ncForward cfg (graph2edges es padded) deg T (ncOneHot (Function.update z 0 k)) -
        ncForward cfg (graph2edges es padded) deg T (ncOneHot z) := by
  simp only [ncLogratio]
  rw [nc_cur_obj cfg hp, ncForward, ncForward, ncObjective_normcut cfg hp, ncObjective_normcut cfg hp]
  refine sub_lt_sub_right ?_ _
  refine div_lt_div_of_pos_right (neg_lt_neg ?_) hT
  have hden : ∀ c, 0 < volume deg (Function.update z 0 k) c + cfg.eps ^ 2 := fun c => by
    have : 0 ≤ volume deg (Function.update z 0 k) c := Finset.sum_nonneg fun v _ => hdeg v
    positivity
  have hpos : 0 < ((paddedLen es.length padded - es.length : ℕ) : ℝ) := by
    have : paddedLen es.length padded = padded := by unfold paddedLen; split_ifs <;> omega
    rw [this]
    exact_mod_cast Nat.sub_pos_of_lt hpad
  refine Finset.sum_lt_sum (fun c _ => ?_) ⟨k, Finset.mem_univ k, ?_⟩
  · rw [ncVolume_update, ncNewCut_eq es hl]
    refine div_le_div_of_nonneg_right ?_ (hden c).le
    split_ifs <;> linarith
  · rw [ncVolume_update, ncNewCut_eq es hl, if_pos ⟨rfl, Or.inl ⟨rfl, hk⟩⟩]
    refine div_lt_div_of_pos_right ?_ (hden k)
    linarith

/-- The hypotheses are met by one edge padded to two entries. -/
example : ∃ (es : List (Edge 1)) (z : Fin 2 → Fin 2), Loopless es ∧ es.length < 2 ∧ z 0 ≠ 1 :=
  ⟨[⟨0, 1, 1⟩], fun v => v, by simp [Loopless], by simp, by decide⟩

/-- **C41 is false for NormCut with a balance penalty:** the log-ratio ignores the penalty and the
different form of the cost.  Witness: two nodes, one edge, two categories; moving node 0 to the other
side changes `forward` by an amount the log-ratio does not contain, for all but at most one value of
the penalty. -/
theorem nc_logratio_wrong_penalty (eps T : ℝ) (hT : T ≠ 0) (deg : Fin 2 → ℝ) (p q : ℝ) (hp : 0 < p)
    (hq : 0 < q) (hpq : p ≠ q) :
    let es : List (Edge 1) := [⟨0, 1, 1⟩]
    let z : Fin 2 → Fin 2 := fun v => v
    let cfg : ℝ → NCConfig := fun p => ⟨p, true, 1, 0, eps⟩
    ¬ ∀ r ∈ ({p, q} : Set ℝ), ncLogratio eps (graph2edges es 0) deg T (oneHotInt z) 0 1 =
      ncForward (cfg r) (graph2edges es 0) deg T (ncOneHot (Function.update z 0 1)) -
        ncForward (cfg r) (graph2edges es 0) deg T (ncOneHot z) := by
  intro es z cfg h
  have h1 := h p (by simp)
  have h2 := h q (by simp)
  rw [h2] at h1
  simp only [ncForward] at h1
  rw [ncObjective_quad (cfg p) hp rfl, ncObjective_quad (cfg p) hp rfl,
    ncObjective_quad (cfg q) hq rfl, ncObjective_quad (cfg q) hq rfl] at h1
  have e1 : ∑ c, ((partSize z c : ℝ) - 1) ^ 2 = 0 := by
    have a0 : partSize z 0 = 1 := by decide
    have a1 : partSize z 1 = 1 := by decide
    rw [Fin.sum_univ_two, a0, a1]; norm_num
  have e2 : ∑ c, ((partSize (Function.update z 0 1) c : ℝ) - 1) ^ 2 = 2 := by
    have a0 : partSize (Function.update z 0 1) 0 = 0 := by decide
    have a1 : partSize (Function.update z 0 1) 1 = 2 := by decide
    rw [Fin.sum_univ_two, a0, a1]; norm_num
  have h3 : ∀ r, (cfg r).avgSize = 1 := fun _ => rfl
  have h4 : ∀ r, (cfg r).penalty = r := fun _ => rfl
  simp only [h3, h4, e1, e2] at h1
  field_simp at h1
  apply hpq
  linarith

/-! ### C41 for the Bernoulli model -/

/-- **C41 (Bernoulli).** -/
theorem bern_logratio_exact {D : ℕ} (p : Fin D → ℝ) (x : Fin D → ℤ) (j : Fin D) :
    bernLogratio p x j =
      bernForward p (fun i => ((bernNeighbor x j i : ℤ) : ℝ)) - bernForward p (fun i => (x i : ℝ)) := by
  unfold bernLogratio bernForward
  rw [← Finset.sum_sub_distrib, Finset.sum_eq_single j]
  · unfold bernNeighbor; simp; ring
  · intro b _ hb
    unfold bernNeighbor; simp [hb]
  · simp

end Discs
