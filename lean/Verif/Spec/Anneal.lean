import Verif.Spec.Convergence

/-!
# Specification vocabulary: search by annealing

Nothing in this file refers to the modelled code.
-/

namespace Discs.Spec

open Finset

variable {X : Type*}

/-- The samples of `S` with the largest score. -/
noncomputable def optima (S : Finset X) (E : X → ℝ) : Finset X :=
  open Classical in S.filter fun x => ∀ y ∈ S, E y ≤ E x

/-- The Boltzmann weights of the score `E` at temperature `T`. -/
noncomputable def boltz (E : X → ℝ) (T : ℝ) (x : X) : ℝ := Real.exp (E x / T)

/-- Probability that a random sample with law `p` is in `A`. -/
def mass (p : X → ℝ) (A : Finset X) : ℝ := ∑ x ∈ A, p x

/-- Probability of the trajectory `v 0, v 1, …` of a run started at `x` whose step `t` has kernel `K t`. -/
def trajProb (K : ℕ → X → X → ℝ) : (L : ℕ) → X → (Fin L → X) → ℝ
  | 0, _, _ => 1
  | L + 1, x, v => K 0 x (v 0) * trajProb (fun t => K (t + 1)) L (v 0) fun i => v i.succ

/-- The trajectories of length `L` inside `S`. -/
noncomputable def paths (S : Finset X) (L : ℕ) : Finset (Fin L → X) := Fintype.piFinset fun _ => S

end Discs.Spec
