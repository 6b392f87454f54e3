import Verif.Model.Comb
import Mathlib.Tactic.Linarith
import Mathlib.Tactic.Ring

/-!
# Sums over padded edge arrays are sums over the edges of the graph
-/

namespace Discs

open Finset

variable {N : ℕ}

theorem le_paddedLen (len padded : ℕ) : len ≤ paddedLen len padded := by
  unfold paddedLen; split_ifs <;> omega

theorem sum_fin_lt_list {α : Type*} (es : List α) (F : α → ℝ) {m : ℕ} (hm : es.length ≤ m) (c : ℝ) :
    ∑ i : Fin m, (if h : i.val < es.length then F es[i.val] else c) =
      (es.map F).sum + (m - es.length : ℕ) * c := by
  obtain ⟨k, rfl⟩ := Nat.exists_eq_add_of_le hm
  rw [Fin.sum_univ_add]
  congr 1
  · have : ∀ i : Fin es.length, (if h : (Fin.castAdd k i).val < es.length then F es[(Fin.castAdd k i).val] else c) =
        F es[i.val] := by
      intro i
      rw [dif_pos (by simp)]; simp
    simp only [this]
    rw [← List.sum_ofFn]
    congr 1
    refine List.ext_getElem (by simp) fun n h1 h2 => by simp
  · have : ∀ i : Fin k, (if h : (Fin.natAdd es.length i).val < es.length then
        F es[(Fin.natAdd es.length i).val] else c) = c := by
      intro i; rw [dif_neg (by simp)]
    simp only [this]
    simp

/-- Any sum over the arrays is the sum over the edges plus the padding's contribution. -/
theorem sum_graph2edges (es : List (Edge N)) (padded : ℕ)
    (F : Fin (N + 1) → Fin (N + 1) → ℝ → ℝ → ℝ) (pw : ℝ) :
    ∑ i, F ((graph2edges es padded pw).edgeFrom i) ((graph2edges es padded pw).edgeTo i)
        ((graph2edges es padded pw).edgeMask i) ((graph2edges es padded pw).edgeWeight i) =
      (es.map fun e => F e.u e.v 1 e.w).sum +
        (paddedLen es.length padded - es.length : ℕ) * F 0 0 0 (0 + pw) := by
  rw [← sum_fin_lt_list es (fun e => F e.u e.v 1 e.w) (le_paddedLen _ _) (F 0 0 0 (0 + pw))]
  refine Finset.sum_congr rfl fun i _ => ?_
  unfold graph2edges
  by_cases h : i.val < es.length <;> simp [h]

/-- A sum over the bidirectional arrays splits into the two directions. -/
theorem sum_bidir {m : ℕ} (A : EdgeArrays N m) (F : Fin (N + 1) → Fin (N + 1) → ℝ → ℝ) :
    ∑ i, F (A.bidirFrom i) (A.bidirTo i) (A.bidirWeight i) =
      ∑ i, (F (A.edgeFrom i) (A.edgeTo i) (A.edgeWeight i) +
        F (A.edgeTo i) (A.edgeFrom i) (A.edgeWeight i)) := by
  rw [Fin.sum_univ_add, Finset.sum_add_distrib]
  congr 1 <;> refine Finset.sum_congr rfl fun i _ => ?_ <;>
    simp only [EdgeArrays.bidirFrom, EdgeArrays.bidirTo, EdgeArrays.bidirWeight, Fin.append_left,
      Fin.append_right]

theorem list_sum_map_congr {α : Type*} {es : List α} {F G : α → ℝ} (h : ∀ e ∈ es, F e = G e) :
    (es.map F).sum = (es.map G).sum := by
  rw [List.map_congr_left h]

theorem list_sum_map_add {α : Type*} (es : List α) (F G : α → ℝ) :
    (es.map fun e => F e + G e).sum = (es.map F).sum + (es.map G).sum := by
  induction es with
  | nil => simp
  | cons a l ih => simp only [List.map_cons, List.sum_cons, ih]; ring

theorem list_sum_map_sub {α : Type*} (es : List α) (F G : α → ℝ) :
    (es.map fun e => F e - G e).sum = (es.map F).sum - (es.map G).sum := by
  induction es with
  | nil => simp
  | cons a l ih => simp only [List.map_cons, List.sum_cons, ih]; ring

theorem list_sum_map_mul_left {α : Type*} (es : List α) (c : ℝ) (F : α → ℝ) :
    (es.map fun e => c * F e).sum = c * (es.map F).sum := by
  induction es with
  | nil => simp
  | cons a l ih => simp only [List.map_cons, List.sum_cons, ih]; ring

end Discs
