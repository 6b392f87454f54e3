import Verif.Model.Anneal
import Verif.Model.PathAux

/-!
# Model of annealed combinatorial runs with the path auxiliary sampler
-/

namespace Discs

variable {D : ℕ}

/-- Step `t + 1` of an annealed run of one chain with the binary path auxiliary sampler, fixed number of flips
(`sampling.py:555-568`, `603-616`, `path_auxiliary.py:14-33`); `get_local_dist` uses the gradient
(`approx_with_grad`, lines 71-76); `s t` is the sampler state that enters the step. -/
noncomputable def pafsAnneal (k : ℕ) (tiny : ℝ) (h : ℝ → ℝ) (obj pen : (Fin D → ℤ) → ℝ)
    (g : (Fin D → ℤ) → Fin D → ℝ) (temp : ℕ → ℝ) (s : ℕ → LBState) (t : ℕ) :
    (Fin D → ℤ) → (Fin D → ℤ) → ℝ :=
  pafsBinaryKernel k tiny h (annealEnergy obj pen temp t)
    (fun x j => (1 - 2 * (x j : ℝ)) * annealGrad g temp t x j) none (s t)

end Discs
