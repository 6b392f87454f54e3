import Verif.Lemmas.Doeblin
import Verif.Props.GWG
import Verif.Props.PathAux
import Mathlib.Analysis.SpecificLimits.Basic

/-!
# Property C73: samplers that do not converge

With a fixed number of flips a path-auxiliary proposal changes exactly that many sites.  If the number
is even, the parity of the number of ones never changes, whatever the model: the chain can never reach
half of the states.  A sampler that flips exactly one site per accepted step alternates between
parities for as long as nothing is rejected.
-/

namespace Discs.Spec

open Finset

variable {X Ω : Type*}

theorem expect_mhKernel [Fintype Ω] [DecidableEq X] {S : Finset X} {q : X → Ω → ℝ} {move : X → Ω → X}
    {A : X → Ω → ℝ} {φ : X → ℝ} {x : X} (hx : x ∈ S) (hm : ∀ ω, q x ω ≠ 0 → move x ω ∈ S) :
    ∑ y ∈ S, mhKernel q move A x y * φ y =
      ∑ ω, q x ω * (A x ω * φ (move x ω) + (1 - A x ω) * φ x) := by
  unfold mhKernel
  simp only [Finset.sum_mul]
  rw [Finset.sum_comm]
  refine Finset.sum_congr rfl fun ω _ => ?_
  by_cases hq : q x ω = 0
  · simp [hq]
  · simp only [mul_assoc, add_mul, ite_mul, zero_mul]
    rw [← Finset.mul_sum, Finset.sum_add_distrib, Finset.sum_ite_eq, Finset.sum_ite_eq, if_pos hx,
      if_pos (hm ω hq)]

/-- A function every step multiplies by `lam` in expectation. -/
theorem expect_eigen [DecidableEq X] {S : Finset X} {K : ℕ → X → X → ℝ} {φ : X → ℝ} {lam : ℝ}
    (h : ∀ t, ∀ x ∈ S, ∑ y ∈ S, K t x y * φ y = lam * φ x) {x : X} (hx : x ∈ S) (n : ℕ) :
    expect S (iterate S K n x) φ = lam ^ n * φ x := by
  induction n with
  | zero => simp [expect, iterate, hx]
  | succ n ih =>
    unfold expect at ih ⊢
    simp only [iterate, comp, Finset.sum_mul]
    rw [Finset.sum_comm]
    simp only [mul_assoc, ← Finset.mul_sum]
    rw [Finset.sum_congr rfl fun z hz => by rw [h n z hz]]
    simp only [mul_left_comm _ lam]
    rw [← Finset.mul_sum, ih]; ring

/-- A test function bounded by one bounds the `L¹` distance from below. -/
theorem expect_le_l1 {S : Finset X} {p q φ : X → ℝ} (hφ : ∀ y ∈ S, |φ y| ≤ 1) :
    |expect S p φ - expect S q φ| ≤ l1 S p q := by
  unfold expect l1
  rw [← Finset.sum_sub_distrib]
  refine (Finset.abs_sum_le_sum_abs _ _).trans (Finset.sum_le_sum fun y hy => ?_)
  rw [← sub_mul, abs_mul]
  exact mul_le_of_le_one_right (abs_nonneg _) (hφ y hy)

/-- A run whose distance to the target stays above a positive number is not ergodic. -/
theorem not_ergodic_of_l1 [DecidableEq X] {S : Finset X} {π : X → ℝ} {K : ℕ → X → X → ℝ} {x : X}
    (hx : x ∈ S) {δ : ℝ} (hδ : 0 < δ) (h : ∀ n, δ ≤ l1 S (iterate S K n x) (target S π)) :
    ¬ Ergodic S π K := by
  rintro ⟨m, hm, c, h0, h1, hc⟩
  have ht := (tendsto_pow_atTop_nhds_zero_of_lt_one h0 h1).const_mul 2
  rw [mul_zero] at ht
  obtain ⟨N, hN⟩ := (ht.eventually (gt_mem_nhds hδ)).exists
  have h2 := hc x hx (m * N)
  rw [Nat.mul_div_cancel_left _ hm, add_zero] at h2
  exact absurd hN (not_lt.2 ((h _).trans h2))

end Discs.Spec

namespace Discs

open Finset Spec

variable {D : ℕ}

/-- Parity of the number of ones of a binary row, as a sign. -/
def signProd (x : Fin D → ℤ) : ℝ := ∏ j, (1 - 2 * (x j : ℝ))

theorem signProd_diff {x y : Fin D → ℤ} (hx : x ∈ validStates 2 D) (hy : y ∈ validStates 2 D) :
    signProd y = (-1) ^ (univ.filter fun j => y j ≠ x j).card * signProd x := by
  have e : (-1 : ℝ) ^ (univ.filter fun j => y j ≠ x j).card = ∏ j, if y j ≠ x j then (-1 : ℝ) else 1 := by
    rw [Finset.prod_ite]; simp
  rw [e]
  unfold signProd
  rw [← Finset.prod_mul_distrib]
  refine Finset.prod_congr rfl fun j _ => ?_
  rw [mem_validStates_two] at hx hy
  rcases hx j with h1 | h1 <;> rcases hy j with h2 | h2 <;> simp [h1, h2] <;> norm_num

theorem signProd_abs {x : Fin D → ℤ} (hx : x ∈ validStates 2 D) : |signProd x| = 1 := by
  unfold signProd
  rw [Finset.abs_prod]
  refine Finset.prod_eq_one fun j _ => ?_
  rw [mem_validStates_two] at hx
  rcases hx j with h | h <;> rw [h] <;> norm_num

/-- Under the uniform distribution both parities are equally likely. -/
theorem sum_signProd (hD : 0 < D) : ∑ x ∈ validStates 2 D, signProd x = 0 := by
  unfold signProd validStates
  have := Finset.prod_univ_sum (fun _ : Fin D => Finset.Ico (0 : ℤ) 2)
    (fun (_ : Fin D) (v : ℤ) => (1 - 2 * (v : ℝ)))
  rw [Nat.cast_ofNat, ← this]
  refine Finset.prod_eq_zero (mem_univ ⟨0, hD⟩) ?_
  have : Finset.Ico (0 : ℤ) 2 = {0, 1} := by decide
  rw [this]; norm_num

section even

variable (hD : 0 < D) {k : ℕ} (hev : Even k) {tiny : ℝ} (ht : 0 ≤ tiny) (h : ℝ → ℝ)
  (f : (Fin D → ℤ) → ℝ) (lr : (Fin D → ℤ) → Fin D → ℝ) (mask : Option (Fin D → ℝ)) (s : ℕ → LBState)

include hev ht in
/-- **C73 (confinement).** The path-auxiliary sampler with a fixed even number of flips never reaches a
state that differs from the start in an odd number of sites, for every model, balancing function, mask
and number of steps. -/
theorem pafs_even_confined {x y : Fin D → ℤ} (hx : x ∈ validStates 2 D) (hy : y ∈ validStates 2 D)
    (hodd : Odd (univ.filter fun j => y j ≠ x j).card) (n : ℕ) :
    iterate (validStates 2 D) (fun t => pafsBinaryKernel k tiny h f lr mask (s t)) n x y = 0 := by
  have hstep : ∀ t, ∀ z ∈ validStates 2 D, ∀ w ∈ validStates 2 D, signProd w ≠ signProd z →
      pafsBinaryKernel k tiny h f lr mask (s t) z w = 0 := by
    intro t z hz w hw hne
    have e := (pafs_isMH k tiny h f lr mask (s t)).lawU_eq ht
      (fun x => pafsIdxLaw (pafsLogProb h lr mask x)) z hz w
    refine e.trans (Finset.sum_eq_zero fun idx _ => ?_)
    beta_reduce
    by_cases hq : pafsIdxLaw (pafsLogProb h lr mask z) idx = 0
    · rw [hq, zero_mul]
    · have hfl := pafs_flips hq z hz
      have hp := signProd_diff hz (gwgPropose_valid hz idx)
      rw [hfl, hev.neg_one_pow, one_mul] at hp
      have h1 : gwgPropose z idx ≠ w := fun hh => hne (hh ▸ hp)
      have h2 : z ≠ w := fun hh => hne (by rw [hh])
      rw [if_neg h1, if_neg h2, add_zero, mul_zero]
  have key : ∀ n, ∀ w ∈ validStates 2 D, signProd w ≠ signProd x →
      iterate (validStates 2 D) (fun t => pafsBinaryKernel k tiny h f lr mask (s t)) n x w = 0 := by
    intro n
    induction n with
    | zero => intro w _ hne; exact if_neg fun hh => hne (by rw [hh])
    | succ n ih =>
      intro w hw hne
      refine Finset.sum_eq_zero fun z hz => ?_
      beta_reduce
      by_cases hzx : signProd z = signProd x
      · rw [hstep n z hz w hw (by rwa [hzx]), mul_zero]
      · rw [ih z hz hzx, zero_mul]
  refine key n y hy ?_
  rw [signProd_diff hx hy, hodd.neg_one_pow]
  have h1 := signProd_abs hx
  intro hh
  have : signProd x = 0 := by linarith
  rw [this, abs_zero] at h1
  exact zero_ne_one h1

include hD hev ht in
/-- **C73 (no convergence).** Hence, from any start, that sampler does not converge to the target: its
law always misses at least the probability of some state. -/
theorem pafs_even_not_ergodic :
    ¬ Ergodic (validStates 2 D) (fun x => Real.exp (f x))
      (fun t => pafsBinaryKernel k tiny h f lr mask (s t)) := by
  let x : Fin D → ℤ := fun _ => 0
  let y : Fin D → ℤ := fun j => if j = ⟨0, hD⟩ then 1 else 0
  have hx : x ∈ validStates 2 D := by rw [mem_validStates_two]; intro j; left; rfl
  have hy : y ∈ validStates 2 D := by
    rw [mem_validStates_two]; intro j; dsimp only [y]; split_ifs <;> simp
  have hcard : (univ.filter fun j => y j ≠ x j) = {⟨0, hD⟩} := by
    ext j; simp [x, y]
  have hZ : 0 < ∑ x ∈ validStates 2 D, Real.exp (f x) := Finset.sum_pos (fun _ _ => Real.exp_pos _) ⟨x, hx⟩
  refine not_ergodic_of_l1 hx (δ := target (validStates 2 D) (fun x => Real.exp (f x)) y)
    (div_pos (Real.exp_pos _) hZ) fun n => ?_
  have h0 := pafs_even_confined hev ht h f lr mask s hx hy
    (by rw [hcard, Finset.card_singleton]; exact odd_one) n
  refine le_trans ?_ (Finset.single_le_sum (f := fun y => |iterate (validStates 2 D)
    (fun t => pafsBinaryKernel k tiny h f lr mask (s t)) n x y -
      target (validStates 2 D) (fun x => Real.exp (f x)) y|) (fun _ _ => abs_nonneg _) hy)
  rw [h0, zero_sub, abs_neg]
  exact le_abs_self _

end even

/-- **C73 (oscillation).** The GWG sampler with one flip per step, on a flat model: the distance to the
(uniform) target after `n` steps is at least `|1 - 2 tiny| ^ n`, that is, it never decreases with an
ideal acceptance test, and decreases by a factor `1 - 2e-24` per step with the code's. -/
theorem gwg_flat_oscillates (hD : 0 < D) {tiny : ℝ} (ht : 0 ≤ tiny) (ht1 : tiny ≤ 1) (h : ℝ → ℝ) (c : ℝ)
    (mask : Option (Fin D → ℝ)) (s : ℕ → LBState) {x : Fin D → ℤ} (hx : x ∈ validStates 2 D) (n : ℕ) :
    |1 - 2 * tiny| ^ n ≤ l1 (validStates 2 D) (iterate (validStates 2 D)
      (fun t => gwgBinaryKernel 1 tiny h (fun _ => c) (fun _ _ => 0) mask (s t)) n x)
      (target (validStates 2 D) fun _ => Real.exp c) := by
  have hst := gwg_pathMH hD 1 h (fun _ => c) (fun _ _ => 0) mask
  have heig : ∀ t, ∀ x ∈ validStates 2 D, ∑ y ∈ validStates 2 D,
      gwgBinaryKernel 1 tiny h (fun _ => c) (fun _ _ => 0) mask (s t) x y * signProd y =
        -(1 - 2 * tiny) * signProd x := by
    intro t x hx
    have e := (gwg_isMH 1 tiny h (fun _ => c) (fun _ _ => 0) mask (s t)).lawU_eq ht
      (gwgDrawLaw h (fun _ _ => 0) mask) x hx
    refine (Finset.sum_congr rfl fun y _ => congrArg (· * signProd y) (e y)).trans ?_
    rw [expect_mhKernel hx fun ω _ => gwgPropose_valid hx ω]
    have hacc : ∀ idx : Fin 1 → Fin D, acceptProb tiny (gwgLogAcc h (fun _ => c) (fun _ _ => 0) mask x idx) =
        1 - tiny := by
      intro idx
      have : gwgLogAcc h (fun _ => c) (fun _ _ => 0) mask x idx = 0 := by
        unfold gwgLogAcc gwgLl gwgDist
        simp
      rw [this]
      unfold acceptProb
      rw [Real.exp_zero, min_eq_right (by linarith), max_eq_right (by linarith)]
    have hflip : ∀ idx : Fin 1 → Fin D, signProd (gwgPropose x idx) = - signProd x := by
      intro idx
      have : (univ.filter fun j => gwgPropose x idx j ≠ x j) = {idx 0} := by
        ext j
        have h1 := mem_validStates_two.1 hx j
        simp only [mem_filter, mem_univ, true_and, mem_singleton, gwgPropose, Fin.exists_fin_one]
        constructor
        · intro hne; by_contra hcon; exact hne (if_neg fun hh => hcon hh.symm)
        · intro hj; rw [if_pos hj.symm]; omega
      rw [signProd_diff hx (gwgPropose_valid hx idx), this, Finset.card_singleton]; ring
    simp only [hacc, hflip]
    rw [← Finset.sum_mul, (hst.prob x hx).2]; ring
  have h1 := expect_eigen heig hx n
  have h2 : Spec.expect (validStates 2 D) (target (validStates 2 D) fun _ => Real.exp c) signProd = 0 := by
    unfold Spec.expect target
    rw [← Finset.mul_sum, sum_signProd hD, mul_zero]
  have h3 := expect_le_l1 (S := validStates 2 D) (p := iterate (validStates 2 D)
      (fun t => gwgBinaryKernel 1 tiny h (fun _ => c) (fun _ _ => 0) mask (s t)) n x)
      (q := target (validStates 2 D) fun _ => Real.exp c) (φ := signProd)
      fun y hy => (signProd_abs hy).le
  rw [h1, h2, sub_zero, abs_mul, signProd_abs hx, mul_one, abs_pow, abs_neg] at h3
  exact h3

/-- **C73 (oscillation, ideal test).** With an ideal acceptance test the one-flip GWG sampler on a flat
model is not ergodic, although it is reversible (C15). -/
theorem gwg_flat_not_ergodic (hD : 0 < D) (h : ℝ → ℝ) (c : ℝ) (mask : Option (Fin D → ℝ))
    (s : ℕ → LBState) :
    ¬ Ergodic (validStates 2 D) (fun _ => Real.exp c)
      (fun t => gwgBinaryKernel 1 0 h (fun _ => c) (fun _ _ => 0) mask (s t)) := by
  have hx : (fun _ => 0 : Fin D → ℤ) ∈ validStates 2 D := by
    rw [mem_validStates_two]; intro j; left; rfl
  refine not_ergodic_of_l1 hx one_pos fun n => ?_
  have := gwg_flat_oscillates hD le_rfl zero_le_one h c mask s hx n
  simpa using this

/-- Instance for C73: four sites, two flips per step; `(0,0,0,0)` and `(1,0,0,0)` differ in one site. -/
example : (2 : ℕ) ≤ 4 ∧ Even 2 ∧ (fun _ => 0 : Fin 4 → ℤ) ∈ validStates 2 4 ∧
    Odd (univ.filter fun j => (![1, 0, 0, 0] : Fin 4 → ℤ) j ≠ (fun _ => 0 : Fin 4 → ℤ) j).card := by
  refine ⟨by norm_num, by decide, by rw [mem_validStates]; decide, by decide⟩

end Discs
