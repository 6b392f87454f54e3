import Verif.Model.Experiment
import Verif.Model.Comb
import Verif.Model.BatchKernel

/-!
# Model of annealed combinatorial runs

`CO_Experiment._compute_chain` (`discs/experiment/sampling.py:524-657`) sets the temperature of the model
before every step.  The loops count their steps from 1, so the step with index `t = 0, 1, …` of a kernel
run is the loops' step `t + 1`.
-/

namespace Discs

variable {X : Type*} {D : ℕ}

/-- The energy step `t + 1` is made for: `cur_temp = t_schedule(step)`,
`params['temperature'] = init_temperature * cur_temp` with `init_temperature = jnp.ones(…)`
(`sampling.py:556-557`, `604-605`, `667`), then `CombEBM.forward` (`comb_ebm.py:26-29`). -/
noncomputable def annealEnergy (obj pen : X → ℝ) (temp : ℕ → ℝ) (t : ℕ) (x : X) : ℝ :=
  combForward obj pen (1 * temp (t + 1)) x

/-- Step `t + 1` of an annealed random-walk run of one chain (`sampling.py:555-568`, `603-616`); `s t` is
the sampler state that enters it. -/
noncomputable def rwAnneal (adaptive : Bool) (tgt tiny : ℝ) (obj pen : (Fin D → ℤ) → ℝ) (temp : ℕ → ℝ)
    (C : ℕ) (s : ℕ → RWState) (t : ℕ) : (Fin D → ℤ) → (Fin D → ℤ) → ℝ :=
  rwKernel adaptive tgt tiny (annealEnergy obj pen temp t) C (s t)

/-- The same for a batch of `B` chains. -/
noncomputable def rwAnnealBatch {B : ℕ} (adaptive : Bool) (tgt tiny : ℝ) (obj pen : (Fin D → ℤ) → ℝ)
    (temp : ℕ → ℝ) (C : ℕ) (s : ℕ → RWState) (t : ℕ) : (Fin B → Fin D → ℤ) → (Fin B → Fin D → ℤ) → ℝ :=
  rwBatchKernel adaptive tgt tiny (annealEnergy obj pen temp t) C (s t)

/-- The gradient the same step uses: automatic differentiation of `CombEBM.forward`
(`comb_ebm.py:26-39`), which divides the score by the temperature; `g` is the gradient of the score. -/
noncomputable def annealGrad (g : X → Fin D → ℝ) (temp : ℕ → ℝ) (t : ℕ) (x : X) (j : Fin D) : ℝ :=
  g x j / (1 * temp (t + 1))

/-- Step `t + 1` of an annealed run with binary DMALA. -/
noncomputable def dmalaAnneal (c : DCfg) (tiny eps : ℝ) (h : ℝ → ℝ) (obj pen : (Fin D → ℤ) → ℝ)
    (g : (Fin D → ℤ) → Fin D → ℝ) (temp : ℕ → ℝ) (s : ℕ → DState) (t : ℕ) :
    (Fin D → ℤ) → (Fin D → ℤ) → ℝ :=
  dmalaBinaryKernel c tiny eps h (annealEnergy obj pen temp t) (annealGrad g temp t) (s t)

/-- Step `t + 1` of an annealed run with binary DLMC. -/
noncomputable def dlmcAnneal (c : DCfg) (tiny eps : ℝ) (h : ℝ → ℝ) (obj pen : (Fin D → ℤ) → ℝ)
    (g : (Fin D → ℤ) → Fin D → ℝ) (temp : ℕ → ℝ) (s : ℕ → DState) (t : ℕ) :
    (Fin D → ℤ) → (Fin D → ℤ) → ℝ :=
  dlmcBinaryKernel c tiny eps h (annealEnergy obj pen temp t) (annealGrad g temp t) (s t)

/-! ### Shipped settings -/

/-- The settings of a schedule in an experiment configuration. -/
structure ScheduleCfg where
  /-- The configuration file. -/
  name : String
  /-- `t_schedule` is `exp_decay` rather than `linear`. -/
  exp : Bool
  /-- `init_temperature`. -/
  init : ℝ
  /-- `decay_rate`. -/
  rate : ℝ
  /-- `final_temperature`. -/
  fin : ℝ
  /-- `chain_length`. -/
  len : ℕ
  /-- `log_every_steps`. -/
  logEvery : ℕ

/-- `discs/experiment/configs/{maxclique,maxcut,mis,normcut}/*.py` (lines 10-17 of each). -/
noncomputable def shippedSchedules : List ScheduleCfg :=
  [⟨"maxclique/rb", true, 1, 0.1, 0.001, 1001, 100⟩,
   ⟨"maxclique/twitter", true, 1, 0.05, 0.01, 1001, 100⟩,
   ⟨"maxcut/ba", true, 1, 0.1, 0.000001, 50000, 100⟩,
   ⟨"maxcut/er", false, 1, 0.1, 0.5, 10000, 100⟩,
   ⟨"maxcut/optsicom", true, 1, 0.05, 0.001, 25000, 100⟩,
   ⟨"mis/er_density", true, 1, 0.005, 0.0001, 400000, 100⟩,
   ⟨"mis/ertest", true, 1, 0.01, 0.0001, 50000, 100⟩,
   ⟨"mis/satlib", true, 1, 0.005, 0.00001, 1000000, 100⟩,
   ⟨"normcut/gap_rand", true, 1, 0.005, 0.0000001, 500000, 100⟩,
   ⟨"normcut/nets", true, 2, 0.15, 0.0000001, 800000, 100⟩]

/-- The schedule these settings select (`sampling.py:504-522`). -/
noncomputable def ScheduleCfg.temp (c : ScheduleCfg) : ℕ → ℝ :=
  if c.exp then expSchedule c.init c.fin c.rate c.len else linearSchedule c.init c.fin c.len

end Discs
