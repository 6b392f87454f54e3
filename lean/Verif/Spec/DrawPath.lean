import Verif.Spec.Trap
import Mathlib.Algebra.BigOperators.Ring.Finset

/-!
# Specification: the path of a run whose acceptance noise is given

The draws of the proposals are random, the acceptance noise is a parameter.  A bound that holds for every noise holds
for every law of the noise.
-/

namespace Discs.Spec

variable {X St Ω : Type*} [Fintype Ω]

/-- Expected value of `Φ` of the path, `n` steps before its end: step `k` starts in state `s` at sample `x`, the
samples before it are `h`. -/
def drawExpect (p : ℕ → St → X → Ω → ℝ) (step : ℕ → St → X → Ω → X × St) (Φ : List X → ℝ) :
    ℕ → ℕ → St → List X → X → ℝ
  | 0, _, _, h, x => Φ (h ++ [x])
  | n + 1, k, s, h, x => ∑ ω, p k s x ω *
      drawExpect p step Φ n (k + 1) (step k s x ω).2 (h ++ [x]) (step k s x ω).1

/-- From position `i` on each chain of the batch sees at most two different samples, one the complement of the
other. -/
def BatchStuckFrom {B D : ℕ} (i : ℕ) (path : List (Fin B → Fin D → ℤ)) : Prop :=
  ∀ b, StuckFrom i (path.map fun x => x b)

end Discs.Spec
