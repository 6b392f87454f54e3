import Verif.Spec.Convergence

/-!
# Specification vocabulary: expectations over whole runs

Nothing in this file refers to the modelled code.
-/

namespace Discs.Spec

open Finset

variable {X : Type*}

/-- Expectation of `G` over the list of the `n` states visited by a chain that starts at `x` (not
included in the list) and uses the kernels `K 0`, `K 1`, … one after the other. -/
def runExpect (S : Finset X) : (ℕ → X → X → ℝ) → ℕ → X → (List X → ℝ) → ℝ
  | _, 0, _, G => G []
  | K, n + 1, x, G => ∑ y ∈ S, K 0 x y * runExpect S (fun t => K (t + 1)) n y fun l => G (y :: l)

/-- The average of `φ` over the states of a run. -/
noncomputable def runAverage (φ : X → ℝ) (l : List X) : ℝ := (l.map φ).sum / l.length

/-- The average of any function along one run estimates its expectation under the target: the mean
squared error is at most `A / n + err` (in units of the square of a bound of the function), wherever the
run starts. -/
def Consistent (S : Finset X) (π : X → ℝ) (K : ℕ → X → X → ℝ) (A err : ℝ) : Prop :=
  ∀ (φ : X → ℝ) (M : ℝ), (∀ y ∈ S, |φ y| ≤ M) → ∀ x ∈ S, ∀ n, 0 < n →
    runExpect S K n x (fun l => (runAverage φ l - expect S (target S π) φ) ^ 2) ≤ (A / n + err) * M ^ 2

end Discs.Spec
