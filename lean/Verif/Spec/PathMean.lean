import Verif.Spec.Adaptive

/-!
# Specification: what is computed from the whole path of a run

The model may change from step to step (annealing), the state of the sampler changes with the run.
-/

namespace Discs.Spec

open Finset MeasureTheory

variable {X St : Type*} {Ω : St → Type*} [∀ s, Fintype (Ω s)]

/-- Expected value of `Φ` of the path, `n` steps before its end: step `k` starts in state `s` at sample `x`, the
samples before it are `h`. -/
noncomputable def pathExpect (p : ℕ → ∀ s, X → Ω s → ℝ) (step : ℕ → ∀ s, X → Ω s → ℝ → X × St)
    (Φ : List X → ℝ) : ℕ → ℕ → St → List X → X → ℝ
  | 0, _, _, h, x => Φ (h ++ [x])
  | n + 1, k, s, h, x => ∑ ω, p k s x ω * ∫ u in Set.Ico (0 : ℝ) 1,
      pathExpect p step Φ n (k + 1) (step k s x ω u).2 (h ++ [x]) (step k s x ω u).1

/-- Expected value of `Φ` of a path of `L` steps that starts in state `s₀` at a sample with weights `exp f`. -/
noncomputable def pathMean (S : Finset X) (f : X → ℝ) (p : ℕ → ∀ s, X → Ω s → ℝ)
    (step : ℕ → ∀ s, X → Ω s → ℝ → X × St) (Φ : List X → ℝ) (L : ℕ) (s₀ : St) : ℝ :=
  (∑ x ∈ S, Real.exp (f x) * pathExpect p step Φ L 0 s₀ [] x) / ∑ x ∈ S, Real.exp (f x)

end Discs.Spec
