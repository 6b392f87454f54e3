import Verif.Props.Factorized

/-!
# Specification vocabulary: independent draws from a finite distribution
-/

namespace Discs.Spec

open Finset

/-- Expectation of `F` over independent draws `ω k`, `k ∈ K`, from the distribution proportional to
`w` on `S`. -/
noncomputable def meanIID {X : Type*} (K : Type*) [Fintype K] [DecidableEq K] (S : Finset X)
    (w : X → ℝ) (F : (K → X) → ℝ) : ℝ :=
  mean (Fintype.piFinset fun _ : K => S) (fun ω => ∏ k, w (ω k)) F

end Discs.Spec
