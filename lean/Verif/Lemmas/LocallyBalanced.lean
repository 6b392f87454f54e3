import Verif.Model.LocallyBalanced
import Verif.Lemmas.Gibbs
import Verif.Lemmas.Jax
import Verif.Lemmas.MH

/-! # Helper lemmas: one-hot encoding, rounding, selection -/

namespace Discs

open Finset Spec

variable {D : ℕ}

theorem argmax_eq {C : ℕ} {v : Fin C → ℝ} {c : Fin C} (h : ∀ c', c' ≠ c → v c' < v c) :
    argmax v = ((c : ℕ) : ℤ) := by
  classical
  unfold argmax
  have hmax : ∀ c', v c' ≤ v c := fun c' => by
    by_cases hc : c' = c
    · rw [hc]
    · exact (h c' hc).le
  have hp : ∀ a : Fin C, (decide (∀ c', v c' ≤ v a)) = true ↔ a = c := by
    intro a
    rw [decide_eq_true_iff]
    constructor
    · intro ha; by_contra hne; exact absurd (ha c) (not_le.2 (h a hne))
    · rintro rfl; exact hmax
  have hfind : (List.finRange C).find? (fun c => decide (∀ c', v c' ≤ v c)) = some c := by
    cases hf : (List.finRange C).find? (fun c => decide (∀ c', v c' ≤ v c)) with
    | none =>
      rw [List.find?_eq_none] at hf
      exact absurd ((hp c).2 rfl) (hf c (List.mem_finRange c))
    | some a =>
      have := List.find?_some hf
      rw [(hp a).1 this]
  rw [hfind]; rfl

theorem argmax_oneHot {C : ℕ} {v : ℤ} (h0 : 0 ≤ v) (h1 : v < C) : argmax (oneHot C v) = v := by
  have hc : v.toNat < C := by omega
  rw [argmax_eq (c := ⟨v.toNat, hc⟩)]
  · simp only; omega
  · intro c' hne
    unfold oneHot
    have h2 : ((c' : ℕ) : ℤ) ≠ v := by
      intro h; apply hne; ext; simp only; omega
    have h3 : (((⟨v.toNat, hc⟩ : Fin C) : ℕ) : ℤ) = v := by simp only; omega
    rw [if_neg h2, if_pos h3]; norm_num

theorem argmaxRow_oneHotRow {C : ℕ} {x : Fin D → ℤ} (hx : x ∈ validStates C D) :
    argmaxRow (oneHotRow C x) = x := by
  rw [mem_validStates] at hx
  funext j
  exact argmax_oneHot (hx j).1 (hx j).2

theorem oneHotRow_injOn {C : ℕ} {x y : Fin D → ℤ} (hx : x ∈ validStates C D)
    (hy : y ∈ validStates C D) (h : oneHotRow C x = oneHotRow C y) : x = y := by
  rw [← argmaxRow_oneHotRow hx, h, argmaxRow_oneHotRow hy]

theorem mem_validStates_two {x : Fin D → ℤ} : x ∈ validStates 2 D ↔ ∀ j, x j = 0 ∨ x j = 1 := by
  rw [mem_validStates]
  refine forall_congr' fun j => ?_
  constructor
  · rintro ⟨h1, h2⟩; push_cast at h2; omega
  · intro h; push_cast; omega

/-- `mhStep` on a single row. -/
theorem mhStep_one {X : Type*} (tiny u l : ℝ) (x y : X) :
    (mhStep tiny (fun _ : Fin 1 => u) (fun _ => l) (fun _ => x) (fun _ => y)).1 0 =
      open Classical in if bernoulliLogp tiny u l then y else x := rfl

end Discs
