import Verif.Spec.Convergence

/-!
# Specification vocabulary: forgetting the start

Nothing in this file refers to the modelled code.
-/

namespace Discs.Spec

variable {X : Type*}

/-- Two runs started anywhere in `S` become indistinguishable geometrically: every further `m` steps shrink the distance of
their laws by the factor `c`.  Nothing is said about which law they approach. -/
def Forgets [DecidableEq X] (S : Finset X) (K : ℕ → X → X → ℝ) : Prop :=
  ∃ m, 0 < m ∧ ∃ c : ℝ, 0 ≤ c ∧ c < 1 ∧
    ∀ x ∈ S, ∀ y ∈ S, ∀ n, l1 S (iterate S K n x) (iterate S K n y) ≤ 2 * c ^ (n / m)

end Discs.Spec
