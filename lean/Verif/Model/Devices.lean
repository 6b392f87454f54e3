import Verif.Model.Launcher
import Verif.Model.Experiment

/-!
# Model of the devices a job asks for and of the layout of its chains on them

`discs/xm_launcher.py:58-91, 106-112`, `discs/experiment/sampling.py:17-24, 48-104, 708-717`.
-/

namespace Discs

/-- `num_gpus` (`xm_launcher.py:59, 81-90`): `flag` is the value of `--num_gpus` (default `8`, line 41). -/
def RunConfig.gpus (rc : RunConfig) (flag : ℕ) : ℕ :=
  let n := if rc.graphType.isSome then flag else if rc.model = "text_infilling" then flag else 4
  if rc.model = "maxcut" ∧ rc.graphType = some "optsicom" then 2 else n

/-- `Experiment.parallel` (`sampling.py:20, 23-24`): `devices` is `jax.local_device_count()`. -/
def runsParallel (devices : ℕ) (runParallel : Bool) : Bool := devices ≠ 1 && runParallel

/-- `_prepare_data` for the evaluators other than `co_eval` (`sampling.py:51-66`); `EBM_Experiment.preprocess`
(`sampling.py:711-716`) has the same layout.  `none` is the failing assertion (lines 53, 714).  The parameters are
replicated on the devices, so that there is one instance; `sample_idx` is `None` in these experiments. -/
def plainLayout (parallel : Bool) (devices B : ℕ) : Option Layout :=
  if parallel then
    if B % devices = 0 then some ⟨devices, 1, B / devices, true⟩ else none
  else some ⟨1, 1, B, false⟩

/-- The layout of a configuration on `devices` devices, for a batch of instances with these indices. -/
def Cfg.layout (c : Cfg Key Val) (devices : ℕ) (sampleIdx : List ℤ) : Option Layout :=
  match c .experiment .evaluator, c .experiment .run_parallel, c .experiment .num_models, c .experiment .batch_size with
  | some (.str ev), some (.bool par), some (.int M), some (.int B) =>
    if ev = "co_eval" then coLayout (runsParallel devices par) devices M.toNat B.toNat sampleIdx
    else plainLayout (runsParallel devices par) devices B.toNat
  | _, _, _, _ => none

end Discs
