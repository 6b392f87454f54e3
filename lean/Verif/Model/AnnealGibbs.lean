import Verif.Model.Anneal
import Verif.Model.Gibbs
import Verif.Model.BlockGibbs

/-!
# Model of annealed combinatorial runs with the Gibbs samplers
-/

namespace Discs

variable {D : ℕ}

/-- Step `t + 1` of an annealed run of one chain with the Gibbs sampler (`sampling.py:555-568`, `603-616`,
`gibbs.py:24-58`); the state that enters it has made `t` updates. -/
noncomputable def gibbsAnneal (obj pen : (Fin D → ℤ) → ℝ) (temp : ℕ → ℝ) (C : ℕ) (t : ℕ) :
    (Fin D → ℤ) → (Fin D → ℤ) → ℝ :=
  gibbsKernel (annealEnergy obj pen temp t) C ((gibbsUpdate C D)^[t] gibbsInit)

/-- The same with block Gibbs (`blockgibbs.py:32-71`). -/
noncomputable def blockGibbsAnneal (obj pen : (Fin D → ℤ) → ℝ) (temp : ℕ → ℝ) (C b : ℕ) (t : ℕ) :
    (Fin D → ℤ) → (Fin D → ℤ) → ℝ :=
  blockGibbsKernel (annealEnergy obj pen temp t) C b ((blockGibbsUpdate C D b)^[t] blockInit)

end Discs
