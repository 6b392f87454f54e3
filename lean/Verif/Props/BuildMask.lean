import Verif.Props.BuildScores
import Verif.Props.ProposalLaw

/-!
# C89: masks of the combinatorial models

GWG on a padded graph: the real nodes are drawn with the odds of the model, every padded node has the weight
`exp(-1e9)`.
-/

namespace Discs

open Finset Spec

/-- The law of the site to flip on a graph with `n` nodes padded to `D`: weight `W (ρ j)` for a node, `exp(-1e9)` for a
padded one. -/
noncomputable def Spec.paddedLaw {D : ℕ} (W : ℝ → ℝ) (n : ℕ) (ρ : Fin D → ℝ) (j : Fin D) : ℝ :=
  (if j.val < n then W (ρ j) else Real.exp (-1e9)) /
    (∑ i : Fin D with i.val < n, W (ρ i) + (D - #{i : Fin D | i.val < n}) * Real.exp (-1e9))

private theorem paddedLaw_of_scores {N : ℕ} {name : String} {h W : ℝ → ℝ} (hp : WeightPair name h W)
    {g : (Fin (N + 1) → ℤ) → Fin (N + 1) → ℝ} {x : Fin (N + 1) → ℤ} (n : ℕ) {ρ : Fin (N + 1) → ℝ}
    (hg : ∀ j : Fin (N + 1), j.val < n → Real.exp (deltaBinary g x j) = ρ j) (j : Fin (N + 1)) :
    softmax (gwgDist h (some (nodeMask n)) x (g x)) j = Spec.paddedLaw W n ρ j := by
  have e : ∀ i, Real.exp (h ((1 - 2 * (x i : ℝ)) * g x i) * nodeMask n i + -1e9 * (1 - nodeMask n i)) =
      if i.val < n then W (ρ i) else Real.exp (-1e9) := by
    intro i
    unfold nodeMask
    split_ifs with hi
    · rw [sub_self, mul_zero, add_zero, mul_one, hp.exp, ← hg i hi]
      rfl
    · rw [mul_zero, zero_add, sub_zero, mul_one]
  unfold gwgDist applyMask
  rw [softmax_logSoftmax]
  unfold softmax Spec.paddedLaw
  simp only [e]
  congr 1
  rw [← Finset.sum_filter_add_sum_filter_not univ (fun i : Fin (N + 1) => i.val < n)]
  congr 1
  · exact Finset.sum_congr rfl fun i hi => if_pos (Finset.mem_filter.1 hi).2
  · rw [Finset.sum_congr rfl fun i hi => if_neg (Finset.mem_filter.1 hi).2, Finset.sum_const, nsmul_eq_mul]
    congr 1
    have h1 := Finset.card_filter_add_card_filter_not (s := (univ : Finset (Fin (N + 1)))) (fun i => i.val < n)
    rw [Finset.card_univ, Fintype.card_fin] at h1
    rw [eq_sub_iff_add_eq]
    exact_mod_cast (add_comm _ _).trans h1

/-- **C89 (MIS on padded graphs).** -/
theorem mis_padded_law {N : ℕ} {name : String} {h W : ℝ → ℝ} (hp : WeightPair name h W) {es : List (Edge N)}
    (hl : Loopless es) (padded n : ℕ) (coeff T : ℝ) {x : Fin (N + 1) → ℤ} (hx : x ∈ validStates 2 (N + 1))
    (j : Fin (N + 1)) :
    let M := misIface (graph2edges es padded) (nodeMask n) coeff T (some (nodeMask n))
    softmax (gwgDist h M.mask x (M.grad x)) j =
      Spec.paddedLaw W n (fun i => Real.exp (M.val (flipOne x i)) / Real.exp (M.val x)) j := by
  intro M
  refine paddedLaw_of_scores hp n (fun i _ => ?_) j
  rw [mis_scores hl padded (nodeMask n) coeff T (some (nodeMask n)) x hx i, Real.exp_sub]

/-- **C89 (MaxCut on padded graphs).** -/
theorem maxcut_padded_law {N : ℕ} {name : String} {h W : ℝ → ℝ} (hp : WeightPair name h W) {es : List (Edge N)}
    (hl : Loopless es) (padded n : ℕ) (T : ℝ) {x : Fin (N + 1) → ℤ} (hx : x ∈ validStates 2 (N + 1))
    (j : Fin (N + 1)) :
    let M := maxcutIface (graph2edges es padded) T (some (nodeMask n))
    softmax (gwgDist h M.mask x (M.grad x)) j =
      Spec.paddedLaw W n (fun i => Real.exp (M.val (flipOne x i)) / Real.exp (M.val x)) j := by
  intro M
  refine paddedLaw_of_scores hp n (fun i _ => ?_) j
  rw [maxcut_scores hl padded T (some (nodeMask n)) x hx i, Real.exp_sub]

/-- **C89 (MaxClique on padded graphs).**  The odds are those of ratios too high by the factor `exp(coeff / (2 T))`
(C62). -/
theorem clique_padded_law {N : ℕ} {name : String} {h W : ℝ → ℝ} (hp : WeightPair name h W) {es : List (Edge N)}
    (hl : Loopless es) (padded n : ℕ) (coeff T : ℝ) {x : Fin (N + 1) → ℤ} (hx : x ∈ validStates 2 (N + 1))
    (j : Fin (N + 1)) :
    let M := cliqueIface (graph2edges es padded) (nodeMask n) coeff T (some (nodeMask n))
    softmax (gwgDist h M.mask x (M.grad x)) j =
      Spec.paddedLaw W n (fun i => Real.exp (M.val (flipOne x i)) / Real.exp (M.val x) *
        Real.exp (coeff / (2 * T))) j := by
  intro M
  refine paddedLaw_of_scores hp n (fun i hi => ?_) j
  rw [clique_scores hl padded n coeff T (some (nodeMask n)) hx i, if_pos hi, Real.exp_add, Real.exp_sub]

/-- Two nodes joined by an edge, one padded node: the hypotheses hold. -/
example : Loopless [(⟨0, 1, 1⟩ : Edge 2)] ∧ (![1, 0, 0] : Fin 3 → ℤ) ∈ validStates 2 3 ∧ ∃ h W, WeightPair "SQRT" h W := by
  refine ⟨fun e he => ?_, by decide, weightPair_exists (by decide)⟩
  rw [List.mem_singleton.1 he]
  decide

end Discs
