import Verif.Props.BuiltDim
import Verif.Props.MathUtil

/-!
# Properties C22, C110: the small functions of `math_util`
-/

namespace Discs

open Finset

/-- C110: `prod(shape)` counts the positions of an array of that shape. -/
theorem prod_positions (l : List ℕ) : prod l = Fintype.card (Spec.Positions l) := by
  have h : prod l = l.prod := by
    unfold prod
    exact List.prod_eq_foldl.symm
  rw [h, Fintype.card_pi]
  simp only [Fintype.card_fin]
  rw [← List.prod_ofFn]
  congr 1
  exact (List.ofFn_get l).symm

/-- An array of two rows and three columns has six positions; an array without axes has one. -/
example : prod [2, 3] = 6 ∧ prod [] = 1 := by decide

/-- C110: `comb(x, y)` counts the `y`-element subsets of `x` sites, and raises exactly if `y` is larger than `x`. -/
theorem comb_subsets (x y : ℕ) :
    (y ≤ x → comb x y = .ok (univ.filter fun s : Finset (Fin x) => s.card = y).card) ∧
    (x < y → ∃ e, comb x y = .error e) := by
  constructor
  · intro h
    unfold comb
    rw [if_neg (by omega)]
    congr 1
    rw [← Nat.choose_eq_factorial_div_factorial h]
    have := Finset.card_powersetCard y (univ : Finset (Fin x))
    rw [Finset.card_univ, Fintype.card_fin] at this
    rw [← this]
    congr 1
    ext s
    simp [Finset.mem_powersetCard]
  · intro h
    exact ⟨_, if_pos h⟩

/-- Five sites have ten pairs. -/
example : comb 5 2 = .ok 10 := rfl

/-- C22: an entry that cannot be drawn stays impossible as long as the entries before do not use up the mass exactly,
whatever the scores. -/
theorem renormalize_impossible {n : ℕ} {ll : Fin n → WithBot ℝ} {i : Fin n} (hi : ll i = ⊥)
    (h : ∑ j ∈ univ.filter (· < i), expE (ll j) ≠ 1) : renormalize ll i = ⊥ := by
  have hsplit : ∑ j ∈ univ.filter (· ≤ i), expE (ll j) = ∑ j ∈ univ.filter (· < i), expE (ll j) + expE (ll i) := by
    have : (univ.filter (· ≤ i) : Finset (Fin n)) = insert i (univ.filter (· < i)) := by
      ext j; simp [le_iff_lt_or_eq, or_comm]
    rw [this, Finset.sum_insert (by simp), add_comm]
  have h0 : 0 ≤ ∑ j ∈ univ.filter (· < i), expE (ll j) := by
    refine Finset.sum_nonneg fun j _ => ?_
    cases ll j with
    | bot => exact le_rfl
    | coe r => exact (Real.exp_pos r).le
  unfold renormalize
  simp only
  set b := (univ.sup ll).unbotD 0
  set S := ∑ j ∈ univ.filter (· < i), expE (ll j)
  have hm : (∑ j ∈ univ.filter (· ≤ i), expE ((ll j).map (· - b))) - expE ((ll i).map (· - b)) = S * Real.exp (-b) := by
    simp only [expE_map_sub]
    rw [← Finset.sum_mul, hsplit]
    ring
  rw [hm, hi]
  by_cases hS : S = 0
  · rw [hS, zero_mul, logE, if_pos rfl]
    rfl
  · have hpos : 0 < S := lt_of_le_of_ne h0 (Ne.symm hS)
    have hd : (logE (S * Real.exp (-b))).map (· + b) = ((Real.log S : ℝ) : WithBot ℝ) := by
      rw [logE, if_neg (mul_pos hpos (Real.exp_pos _)).ne', Real.log_mul hS (Real.exp_pos _).ne', Real.log_exp]
      show ((Real.log S + -b + b : ℝ) : WithBot ℝ) = _
      rw [neg_add_cancel_right]
    have hl : Real.log S ≠ 0 := by
      intro hl
      rcases Real.log_eq_zero.1 hl with h' | h' | h'
      · exact hS h'
      · exact h h'
      · linarith
    rw [hd, log1mexp_coe hl]
    rfl

/-- A first entry of probability one half, then an impossible one. -/
example : renormalize ![((Real.log (1 / 2) : ℝ) : WithBot ℝ), ⊥] 1 = ⊥ := by
  refine renormalize_impossible rfl ?_
  have : (univ.filter (· < (1 : Fin 2)) : Finset (Fin 2)) = {0} := by decide
  rw [this, Finset.sum_singleton]
  show Real.exp (Real.log (1 / 2)) ≠ 1
  rw [Real.exp_log (by norm_num)]
  norm_num

end Discs
