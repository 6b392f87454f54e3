import Verif.Model.RandomWalk
import Verif.Lemmas.MH
import Verif.Lemmas.Gibbs

/-!
# Property C03: the random-walk sampler
-/

namespace Discs

open Finset Spec

variable {D : ℕ}

theorem rwStep_fst {B : ℕ} (adaptive : Bool) (target tiny : ℝ) (f : (Fin D → ℤ) → ℝ) (C : ℕ)
    (x : Fin B → Fin D → ℤ) (d : Fin B → RWDraw C D) (u : Fin B → ℝ) (s : RWState) :
    (rwStep adaptive target tiny f C x d u s).1 =
      (mhStep tiny u (fun b => f (rwPropose (x b) (d b)) - f (x b)) x
        (fun b => rwPropose (x b) (d b))).1 := by
  cases adaptive <;> rfl

theorem rwPropose_valid {C : ℕ} (hC : 0 < C) (x : Fin D → ℤ) (d : RWDraw C D) :
    rwPropose x d ∈ validStates C D := by
  rw [mem_validStates]
  intro j
  have : (0 : ℤ) < C := by exact_mod_cast hC
  exact ⟨Int.emod_nonneg _ this.ne', Int.emod_lt_of_pos _ this⟩

/-- The draw that undoes `d`: same sites, offsets `C - r`. -/
def rwRev {C D : ℕ} (d : RWDraw C D) : RWDraw C D := (d.1, fun j => Fin.rev (d.2 j))

theorem rwRev_rwRev {C : ℕ} (d : RWDraw C D) : rwRev (rwRev d) = d := by
  simp [rwRev, Fin.rev_rev]

theorem rwPropose_rev {C : ℕ} {x : Fin D → ℤ} (hx : x ∈ validStates C D) (d : RWDraw C D) :
    rwPropose (rwPropose x d) (rwRev d) = x := by
  funext j
  simp only [rwPropose, rwRev]
  have hk := (d.2 j).2
  rcases Bool.eq_false_or_eq_true (d.1 j) with hb | hb <;> simp only [hb]
  rotate_left
  · simp only [Bool.false_eq_true, if_false, zero_mul, zero_add]
    rw [Int.emod_emod_of_dvd _ (dvd_refl _), emod_of_valid hx]
  · simp only [if_true, one_mul]
    rw [Int.add_emod_emod, Fin.val_rev]
    have : (((C - 1 - ((d.2 j : ℕ) + 1) : ℕ) : ℤ) + 1 + (((d.2 j : ℕ) : ℤ) + 1 + x j)) = x j + C := by
      omega
    rw [this, Int.add_emod_right, emod_of_valid hx]

theorem isProb_rwDrawLaw {C : ℕ} (hC : 2 ≤ C) {r : ℝ} (h0 : 0 ≤ r) (h1 : r ≤ D) :
    IsProb (rwDrawLaw C D r) := by
  have hc : (0 : ℝ) < ((C - 1 : ℕ) : ℝ) := by exact_mod_cast (by omega : 0 < C - 1)
  have hp0 : ∀ _j : Fin D, 0 ≤ r / D := fun _ => div_nonneg h0 (Nat.cast_nonneg _)
  have hp1 : ∀ _j : Fin D, r / D ≤ 1 := fun j => div_le_one_of_le₀ h1 (Nat.cast_nonneg _)
  refine ⟨fun d => Finset.prod_nonneg fun j _ => mul_nonneg ?_ (by positivity), ?_⟩
  · split_ifs
    exacts [hp0 j, sub_nonneg.2 (hp1 j)]
  · unfold rwDrawLaw
    let g : Fin D → Bool × Fin (C - 1) → ℝ := fun _ p =>
      (if p.1 then r / D else 1 - r / D) * (1 / ((C - 1 : ℕ) : ℝ))
    have e : ∑ d : RWDraw C D, ∏ j, ((if d.1 j then r / D else 1 - r / D) * (1 / ((C - 1 : ℕ) : ℝ)))
        = ∑ d : Fin D → Bool × Fin (C - 1), ∏ j, g j (d j) :=
      Fintype.sum_equiv (Equiv.arrowProdEquivProdArrow (Fin D) (fun _ => Bool)
        (fun _ => Fin (C - 1))).symm _ _ fun _ => rfl
    rw [e]
    rw [← Fintype.prod_sum]
    refine Finset.prod_eq_one fun j _ => ?_
    rw [Fintype.sum_prod_type]
    simp only [g, Finset.sum_const, Finset.card_univ, Fintype.card_fin, nsmul_eq_mul,
      Fintype.sum_bool, if_true, Bool.false_eq_true, if_false]
    field_simp
    ring

theorem rwDrawLaw_rev {C : ℕ} (r : ℝ) (d : RWDraw C D) :
    rwDrawLaw C D r (rwRev d) = rwDrawLaw C D r d := rfl

theorem rw_pathMH (f : (Fin D → ℤ) → ℝ) {C : ℕ} (hC : 2 ≤ C) {r : ℝ} (h0 : 0 ≤ r) (h1 : r ≤ D) :
    PathMH (validStates C D) (fun x => Real.exp (f x)) (fun _ => rwDrawLaw C D r) rwPropose
      (fun _ => rwRev) (fun x d => f (rwPropose x d) - f x) where
  pi_pos _ _ := Real.exp_pos _
  prob _ _ := isProb_rwDrawLaw hC h0 h1
  closed x _ d _ := rwPropose_valid (by omega) x d
  back x hx d _ _ := rwPropose_rev hx d
  invol _ _ d _ _ := rwRev_rwRev d
  ratio x hx d _ _ := by
    rw [rwDrawLaw_rev, ← mul_assoc, ← Real.exp_add, sub_add_cancel]
  antisymm x hx d _ _ := by rw [rwPropose_rev hx]; ring

theorem rw_isMH (adaptive : Bool) (target tiny : ℝ) (f : (Fin D → ℤ) → ℝ) (C : ℕ) (s : RWState) :
    IsMHStep (validStates C D) tiny rwPropose (fun x d => f (rwPropose x d) - f x) (fun x d u =>
      (rwStep adaptive target tiny f C (fun _ : Fin 1 => x) (fun _ => d) (fun _ => u) s).1 0) where
  accept x _ d u h := by rw [rwStep_fst, mhStep_accept h]
  reject x _ d u h := by rw [rwStep_fst, mhStep_reject h]

/-- C03 (kernel): with a radius in `[0, dim]` the random-walk step is a probability kernel on valid
samples, for any acceptance offset. -/
theorem rw_stochastic (adaptive : Bool) (target : ℝ) {tiny : ℝ} (ht : 0 ≤ tiny)
    (f : (Fin D → ℤ) → ℝ) {C : ℕ} (hC : 2 ≤ C) (s : RWState) (h0 : 0 ≤ s.radius) (h1 : s.radius ≤ D) :
    Stochastic (validStates C D) (rwKernel adaptive target tiny f C s) :=
  (rw_pathMH f hC h0 h1).stochastic_step ht (rw_isMH adaptive target tiny f C s)

/-- C03 (ideal acceptance test): the random-walk step is exactly reversible with respect to
`exp ∘ forward` when the offset in the acceptance test is zero. -/
theorem rw_reversible (adaptive : Bool) (target : ℝ) (f : (Fin D → ℤ) → ℝ) {C : ℕ} (hC : 2 ≤ C)
    (s : RWState) (h0 : 0 ≤ s.radius) (h1 : s.radius ≤ D) :
    Reversible (validStates C D) (fun x => Real.exp (f x)) (rwKernel adaptive target 0 f C s) :=
  (rw_pathMH f hC h0 h1).reversible_step (rw_isMH adaptive target 0 f C s)

/-- C03 (the code's acceptance test): with the offset `1e-24`, `n` steps with radii in `[0, dim]` move
the target distribution by at most `n · 2e-24` of its mass. -/
theorem rw_nearlyInvariant_run (adaptive : Bool) (target : ℝ) (f : (Fin D → ℤ) → ℝ) {C : ℕ}
    (hC : 2 ≤ C) (s : ℕ → RWState) (h0 : ∀ t, 0 ≤ (s t).radius) (h1 : ∀ t, (s t).radius ≤ D) (n : ℕ) :
    NearlyInvariant (validStates C D) (fun x => Real.exp (f x))
      (iterate (validStates C D) (fun t => rwKernel adaptive target mhTiny f C (s t)) n)
      (n * (2 * mhTiny)) :=
  nearlyInvariant_iterate
    (fun t => rw_stochastic adaptive target mhTiny_nonneg f hC _ (h0 t) (h1 t))
    (fun t => (rw_pathMH f hC (h0 t) (h1 t)).nearlyInvariant_step mhTiny_nonneg
      (rw_isMH adaptive target mhTiny f C (s t))) n

/-- Instance for C03: three categories, two sites, initial radius 1; a proposal that changes one site
and is undone by its reverse draw. -/
example : (0 : ℝ) ≤ rwInit.radius ∧ rwInit.radius ≤ (2 : ℕ) ∧
    rwPropose (C := 3) ![0, 2] (![false, true], ![1, 0]) = ![0, 0] ∧
    rwPropose (C := 3) ![0, 0] (rwRev (![false, true], ![1, 0])) = ![0, 2] := by
  refine ⟨by norm_num [rwInit], by norm_num [rwInit], by decide, by decide⟩

end Discs
