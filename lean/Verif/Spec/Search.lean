import Verif.Spec.Markov

/-!
# Specification: what a run visits
-/

namespace Discs.Spec

variable {X : Type*} [DecidableEq X]

/-- Probability that none of the samples after steps `t, …, t + n` lies in `Y`, for a run that is at `x` after step `t`
and whose step `i + 1` has kernel `K i`. -/
def avoid (S : Finset X) (K : ℕ → X → X → ℝ) (Y : Finset X) : ℕ → ℕ → X → ℝ
  | 0, _, x => if x ∈ Y then 0 else 1
  | n + 1, t, x => if x ∈ Y then 0 else ∑ z ∈ S, K t x z * avoid S K Y n (t + 1) z

/-- Probability that after none of the steps `t + 1, …, t + n` at which someone looks the sample is in `A`, for a run
that is at `x` after step `t`; step `i + 1` has kernel `K i` and is looked at if `look i`. -/
def missAt (S : Finset X) (K : ℕ → X → X → ℝ) (look : ℕ → Prop) [DecidablePred look] (A : Finset X) :
    ℕ → ℕ → X → ℝ
  | 0, _, _ => 1
  | n + 1, t, x => ∑ z ∈ S, K t x z * if look t ∧ z ∈ A then 0 else missAt S K look A n (t + 1) z

/-- From `x` after step `t`, moves along `R` lead into `A` at a step someone looks at, at the latest after `m` steps. -/
def Reaches (S : Finset X) (R : ℕ → X → X → Prop) (look : ℕ → Prop) (A : Finset X) : ℕ → ℕ → X → Prop
  | 0, _, _ => False
  | m + 1, t, x => ∃ z ∈ S, R t x z ∧ (look t ∧ z ∈ A ∨ Reaches S R look A m (t + 1) z)

end Discs.Spec
