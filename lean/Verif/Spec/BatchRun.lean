import Mathlib.MeasureTheory.Integral.Bochner.Set
import Mathlib.MeasureTheory.Constructions.Pi
import Mathlib.MeasureTheory.Measure.Lebesgue.Basic

/-!
# Specification: expectations over runs of a batch whose sampler has a state

The chains of the batch draw independently of each other given the state, which all of them share.
-/

namespace Discs.Spec

open MeasureTheory

variable {X St : Type*} {Ω : St → Type*} [∀ s, Fintype (Ω s)] {B : ℕ}

/-- Acceptance noise of a batch. -/
def unitCube (B : ℕ) : Set (Fin B → ℝ) := {u | ∀ b, u b ∈ Set.Ico (0 : ℝ) 1}

/-- Expected value of `Φ` of the list of batches after each of the steps, for a run of `n` more steps that is at the batch
`x` with sampler state `s` after `k` steps, which left the batches `h`.  In step `k + 1` chain `b` draws from
`p k s (x b)`, and there is one uniform number per chain. -/
noncomputable def batchExpect (p : ℕ → ∀ s, X → Ω s → ℝ)
    (step : ℕ → ∀ s, (Fin B → X) → (Fin B → Ω s) → (Fin B → ℝ) → (Fin B → X) × St) (Φ : List (Fin B → X) → ℝ) :
    ℕ → ℕ → St → List (Fin B → X) → (Fin B → X) → ℝ
  | 0, _, _, h, _ => Φ h
  | n + 1, k, s, h, x => ∑ ω : Fin B → Ω s, (∏ b, p k s (x b) (ω b)) * ∫ u in unitCube B,
      batchExpect p step Φ n (k + 1) (step k s x ω u).2 (h ++ [(step k s x ω u).1]) (step k s x ω u).1

end Discs.Spec
