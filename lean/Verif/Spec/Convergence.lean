import Verif.Spec.Markov

/-!
# Specification vocabulary: convergence of a run to the target

Nothing in this file refers to the modelled code.
-/

namespace Discs.Spec

open Finset

variable {X : Type*}

/-- `L¹` distance on `S` (twice the total variation distance of two distributions on `S`). -/
def l1 (S : Finset X) (p q : X → ℝ) : ℝ := ∑ y ∈ S, |p y - q y|

/-- The distribution with weights `π` on `S`. -/
noncomputable def target (S : Finset X) (π : X → ℝ) (y : X) : ℝ := π y / ∑ x ∈ S, π x

/-- Expectation of `φ` under `p`. -/
def expect (S : Finset X) (p φ : X → ℝ) : ℝ := ∑ y ∈ S, p y * φ y

/-- Wherever the run starts in `S`, its law after `n` steps approaches the target geometrically, down
to a floor `err`: every further `m` steps shrink the distance by the factor `c`. -/
def ConvergesWithin [DecidableEq X] (S : Finset X) (π : X → ℝ) (K : ℕ → X → X → ℝ) (m : ℕ) (c err : ℝ) :
    Prop :=
  ∀ x ∈ S, ∀ n, l1 S (iterate S K n x) (target S π) ≤ 2 * c ^ (n / m) + err

/-- Exact geometric convergence at some rate. -/
def Ergodic [DecidableEq X] (S : Finset X) (π : X → ℝ) (K : ℕ → X → X → ℝ) : Prop :=
  ∃ m, 0 < m ∧ ∃ c, 0 ≤ c ∧ c < 1 ∧ ConvergesWithin S π K m c 0

end Discs.Spec
