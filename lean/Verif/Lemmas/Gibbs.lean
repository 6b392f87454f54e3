import Verif.Model.Gibbs
import Verif.Lemmas.Jax

/-! # Helper lemmas for the Gibbs sampler -/

namespace Discs

open Finset Spec

variable {D : ℕ}

theorem mem_validStates {C : ℕ} {x : Fin D → ℤ} :
    x ∈ validStates C D ↔ ∀ j, 0 ≤ x j ∧ x j < C := by
  simp [validStates, Fintype.mem_piFinset]

theorem emod_of_valid {C : ℕ} {x : Fin D → ℤ} (hx : x ∈ validStates C D) (j : Fin D) :
    x j % (C : ℤ) = x j :=
  Int.emod_eq_of_lt (mem_validStates.1 hx j).1 (mem_validStates.1 hx j).2

theorem addAtMod_valid {C : ℕ} (hC : 0 < C) (x : Fin D → ℤ) (i : ℕ) (v : ℤ) :
    addAtMod C x i v ∈ validStates C D := by
  rw [mem_validStates]
  intro j
  have : (0 : ℤ) < C := by exact_mod_cast hC
  exact ⟨Int.emod_nonneg _ this.ne', Int.emod_lt_of_pos _ this⟩

theorem addAtMod_zero {C : ℕ} {x : Fin D → ℤ} (hx : x ∈ validStates C D) (i : ℕ) :
    addAtMod C x i 0 = x := by
  funext j
  unfold addAtMod
  rw [add_zero, ite_self, emod_of_valid hx]

theorem addAtMod_other {C : ℕ} {x : Fin D → ℤ} (hx : x ∈ validStates C D) {i : ℕ} (v : ℤ)
    {j : Fin D} (hj : (j : ℕ) ≠ i) : addAtMod C x i v j = x j := by
  unfold addAtMod
  rw [if_neg hj, emod_of_valid hx]

theorem addAtMod_addAtMod (C : ℕ) (x : Fin D → ℤ) (i : ℕ) (v w : ℤ) :
    addAtMod C (addAtMod C x i v) i w = addAtMod C x i (v + w) := by
  funext j
  unfold addAtMod
  by_cases h : (j : ℕ) = i
  · simp only [h, if_true]
    rw [Int.emod_add_emod, add_assoc]
  · simp only [h, if_false]
    rw [Int.emod_emod_of_dvd _ (dvd_refl _)]

theorem addAtMod_emod (C : ℕ) (x : Fin D → ℤ) (i : ℕ) (v : ℤ) :
    addAtMod C x i (v % C) = addAtMod C x i v := by
  funext j
  unfold addAtMod
  split_ifs
  · rw [Int.add_emod_emod]
  · rfl

theorem addAtMod_fin_add {C : ℕ} [NeZero C] (x : Fin D → ℤ) (i : ℕ) (a b : Fin C) :
    addAtMod C x i ((a + b : Fin C) : ℕ) = addAtMod C (addAtMod C x i (a : ℕ)) i (b : ℕ) := by
  rw [addAtMod_addAtMod, Fin.val_add]
  push_cast
  rw [addAtMod_emod]

theorem addAtMod_eq_self_iff {C : ℕ} [NeZero C] {x : Fin D → ℤ} (hx : x ∈ validStates C D) {i : ℕ}
    (k : Fin C) : addAtMod C x i (k : ℕ) = x ↔ (i < D → k = 0) := by
  constructor
  · intro h hi
    have := congrFun h ⟨i, hi⟩
    unfold addAtMod at this
    simp only [if_true] at this
    have hk : ((k : ℕ) : ℤ) < C := by exact_mod_cast k.2
    have h0 : (0 : ℤ) ≤ ((k : ℕ) : ℤ) := by positivity
    have h3 : (C : ℤ) ∣ ((k : ℕ) : ℤ) := by
      have := Int.dvd_self_sub_of_emod_eq this
      rwa [add_sub_cancel_left] at this
    have h4 := Int.eq_zero_of_dvd_of_nonneg_of_lt h0 hk h3
    exact Fin.ext (by simpa using h4)
  · intro h
    by_cases hi : i < D
    · rw [h hi]; simpa using addAtMod_zero hx i
    · funext j
      exact addAtMod_other hx _ (fun hj => hi (hj ▸ j.2))

end Discs
