import Verif.Model.Anneal
import Verif.Model.GWG

/-!
# Model of annealed combinatorial runs with GWG
-/

namespace Discs

variable {D : ℕ}

/-- Step `t + 1` of an annealed run of one chain with binary GWG (`sampling.py:555-568`, `603-616`, `gwg.py:45-80`);
`s t` is the sampler state that enters it. -/
noncomputable def gwgAnneal (k : ℕ) (tiny : ℝ) (h : ℝ → ℝ) (obj pen : (Fin D → ℤ) → ℝ)
    (g : (Fin D → ℤ) → Fin D → ℝ) (temp : ℕ → ℝ) (s : ℕ → LBState) (t : ℕ) :
    (Fin D → ℤ) → (Fin D → ℤ) → ℝ :=
  gwgBinaryKernel k tiny h (annealEnergy obj pen temp t) (annealGrad g temp t) none (s t)

/-- The same with adaptive GWG (`gwg.py:83-134`). -/
noncomputable def gwgAdaptiveAnneal (hD : 0 < D) (tgt tiny : ℝ) (h : ℝ → ℝ) (obj pen : (Fin D → ℤ) → ℝ)
    (g : (Fin D → ℤ) → Fin D → ℝ) (temp : ℕ → ℝ) (s : ℕ → LBState) (t : ℕ) :
    (Fin D → ℤ) → (Fin D → ℤ) → ℝ :=
  gwgAdaptiveKernel hD tgt tiny h (annealEnergy obj pen temp t) (annealGrad g temp t) none (s t)

end Discs
