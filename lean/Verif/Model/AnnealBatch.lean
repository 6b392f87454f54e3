import Verif.Model.AnnealGibbs
import Verif.Model.AnnealGWG
import Verif.Model.AnnealPAFS
import Verif.Model.BatchKernel

/-!
# Model of annealed combinatorial runs of a batch of chains
-/

namespace Discs

variable {D B : ℕ}

/-- Step `t + 1` of an annealed run of `B` chains of one instance with the Gibbs sampler (`sampling.py:555-568`,
`603-616`, `gibbs.py:24-58`). -/
noncomputable def gibbsAnnealBatch (obj pen : (Fin D → ℤ) → ℝ) (temp : ℕ → ℝ) (C : ℕ) (t : ℕ) :
    (Fin B → Fin D → ℤ) → (Fin B → Fin D → ℤ) → ℝ :=
  gibbsBatchKernel (annealEnergy obj pen temp t) C ((gibbsUpdate C D)^[t] gibbsInit)

/-- The same with block Gibbs (`blockgibbs.py:32-71`). -/
noncomputable def blockGibbsAnnealBatch (obj pen : (Fin D → ℤ) → ℝ) (temp : ℕ → ℝ) (C b : ℕ) (t : ℕ) :
    (Fin B → Fin D → ℤ) → (Fin B → Fin D → ℤ) → ℝ :=
  blockGibbsBatchKernel (annealEnergy obj pen temp t) C b ((blockGibbsUpdate C D b)^[t] blockInit)

/-- The same with binary GWG, fixed number of flips (`gwg.py:23-77`). -/
noncomputable def gwgAnnealBatch (k : ℕ) (tiny : ℝ) (h : ℝ → ℝ) (obj pen : (Fin D → ℤ) → ℝ)
    (g : (Fin D → ℤ) → Fin D → ℝ) (temp : ℕ → ℝ) (s : ℕ → LBState) (t : ℕ) :
    (Fin B → Fin D → ℤ) → (Fin B → Fin D → ℤ) → ℝ :=
  gwgBinaryBatchKernel k tiny h (annealEnergy obj pen temp t) (annealGrad g temp t) none (s t)

/-- The same with the binary path auxiliary sampler, fixed number of flips (`path_auxiliary.py:14-33`, `90-174`),
scores from the gradient. -/
noncomputable def pafsAnnealBatch (k : ℕ) (tiny : ℝ) (h : ℝ → ℝ) (obj pen : (Fin D → ℤ) → ℝ)
    (g : (Fin D → ℤ) → Fin D → ℝ) (temp : ℕ → ℝ) (s : ℕ → LBState) (t : ℕ) :
    (Fin B → Fin D → ℤ) → (Fin B → Fin D → ℤ) → ℝ :=
  pafsBinaryBatchKernel k tiny h (annealEnergy obj pen temp t)
    (fun x j => (1 - 2 * (x j : ℝ)) * annealGrad g temp t x j) none (s t)

/-- The same with binary DMALA (`dmala.py`). -/
noncomputable def dmalaAnnealBatch (c : DCfg) (tiny eps : ℝ) (h : ℝ → ℝ) (obj pen : (Fin D → ℤ) → ℝ)
    (g : (Fin D → ℤ) → Fin D → ℝ) (temp : ℕ → ℝ) (s : ℕ → DState) (t : ℕ) :
    (Fin B → Fin D → ℤ) → (Fin B → Fin D → ℤ) → ℝ :=
  dmalaBinaryBatchKernel c tiny eps h (annealEnergy obj pen temp t) (annealGrad g temp t) (s t)

/-- The same with binary DLMC (`dlmc.py`). -/
noncomputable def dlmcAnnealBatch (c : DCfg) (tiny eps : ℝ) (h : ℝ → ℝ) (obj pen : (Fin D → ℤ) → ℝ)
    (g : (Fin D → ℤ) → Fin D → ℝ) (temp : ℕ → ℝ) (s : ℕ → DState) (t : ℕ) :
    (Fin B → Fin D → ℤ) → (Fin B → Fin D → ℤ) → ℝ :=
  dlmcBinaryBatchKernel c tiny eps h (annealEnergy obj pen temp t) (annealGrad g temp t) (s t)

end Discs
