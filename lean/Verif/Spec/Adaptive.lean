import Verif.Spec.Markov
import Mathlib.MeasureTheory.Integral.Bochner.Set

/-!
# Specification: samplers whose state changes with the run

A step draws `ω` and a uniform `u`, and returns the next sample *and* the next sampler state; both are used
by the step after it.
-/

namespace Discs.Spec

open Finset MeasureTheory

variable {X St : Type*} {Ω : St → Type*} [∀ s, Fintype (Ω s)]

/-- Expected value of `φ` at the sample reached after `n` steps from state `s` and sample `x`. -/
noncomputable def adaptiveExpect (p : ∀ s, X → Ω s → ℝ) (step : ∀ s, X → Ω s → ℝ → X × St) (φ : X → ℝ) :
    ℕ → St → X → ℝ
  | 0, _, x => φ x
  | n + 1, s, x => ∑ ω, p s x ω * ∫ u in Set.Ico (0 : ℝ) 1,
      adaptiveExpect p step φ n (step s x ω u).2 (step s x ω u).1

/-- Started at a sample with law proportional to `π` and in state `s₀`, the sample has this law after any
number of steps. -/
def KeepsTarget (S : Finset X) (π : X → ℝ) (p : ∀ s, X → Ω s → ℝ)
    (step : ∀ s, X → Ω s → ℝ → X × St) (s₀ : St) : Prop :=
  ∀ (φ : X → ℝ) (n : ℕ), ∑ x ∈ S, π x * adaptiveExpect p step φ n s₀ x = ∑ x ∈ S, π x * φ x

end Discs.Spec
