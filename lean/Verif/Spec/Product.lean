import Verif.Spec.Markov
import Mathlib.MeasureTheory.Constructions.Pi

/-!
# Specification vocabulary: a batch of independent chains

Nothing in this file refers to the modelled code.
-/

namespace Discs.Spec

open Finset MeasureTheory

variable {X Ω : Type*} {B : ℕ}

/-- Batches of `B` states from `S`. -/
def prodStates [DecidableEq X] (B : ℕ) (S : Finset X) : Finset (Fin B → X) := Fintype.piFinset fun _ => S

/-- Unnormalised weights of `B` independent draws from `π`. -/
def prodTarget (π : X → ℝ) (x : Fin B → X) : ℝ := ∏ b, π (x b)

/-- Transition probabilities of `B` independent chains. -/
def prodKernel (K : X → X → ℝ) (x y : Fin B → X) : ℝ := ∏ b, K (x b) (y b)

/-- Probability that `f ω = y` when the draws `ω b` of the chains are independent with laws `p b`. -/
def batchLaw [Fintype Ω] [DecidableEq Ω] [DecidableEq X] (p : Fin B → Ω → ℝ)
    (f : (Fin B → Ω) → Fin B → X) (y : Fin B → X) : ℝ :=
  ∑ ω : Fin B → Ω, if f ω = y then ∏ b, p b (ω b) else 0

/-- The same when every chain also has its own noise `u b`, uniform on `[0, 1)`, all independent. -/
noncomputable def batchLawU [Fintype Ω] [DecidableEq Ω] (p : Fin B → Ω → ℝ)
    (f : (Fin B → Ω) → (Fin B → ℝ) → Fin B → X) (y : Fin B → X) : ℝ :=
  ∑ ω : Fin B → Ω, (∏ b, p b (ω b)) *
    (volume {u : Fin B → ℝ | (∀ b, u b ∈ Set.Ico (0 : ℝ) 1) ∧ f ω u = y}).toReal

end Discs.Spec
