import Verif.Spec.Convergence

/-!
# Specification vocabulary: runs from a random initial sample

Nothing in this file refers to the modelled code.
-/

namespace Discs.Spec

open Finset

variable {X : Type*}

/-- `μ` is a probability distribution concentrated on `S`. -/
def IsLawOn (S : Finset X) (μ : X → ℝ) : Prop := (∀ x, 0 ≤ μ x) ∧ ∑ x ∈ S, μ x = 1 ∧ ∀ x, x ∉ S → μ x = 0

/-- Law of the sample after `n` steps when the initial sample has law `μ`. -/
def startLaw [DecidableEq X] (S : Finset X) (μ : X → ℝ) (K : ℕ → X → X → ℝ) (n : ℕ) (y : X) : ℝ :=
  ∑ x ∈ S, μ x * iterate S K n x y

end Discs.Spec
