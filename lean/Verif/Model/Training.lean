import Mathlib.Analysis.Calculus.FDeriv.Basic
import Mathlib.Analysis.SpecialFunctions.Pow.Real
import Verif.Model.Learning

/-!
# Model of the training loss and of the training loop

`discs/learning/rbm/main_rbm_training.py`, `discs/learning/binary_ebm/main_binary_training.py`,
`discs/learning/train.py`.  The network (`forward`), the optimiser (`update`) and the data are
parameters.  `jax.value_and_grad` is read as the derivative.
-/

namespace Discs

open Finset

/-! ### Loss -/

/-- `loss_func` (`main_rbm_training.py:56-66`, `main_binary_training.py:46-56`) on one device:
`jnp.mean(ll_negative - ll_positive)` for `per` data examples and as many negative samples. -/
noncomputable def pcdLoss {Θ X : Type*} {per : ℕ} (forward : Θ → X → ℝ) (pos neg : Fin per → X) (θ : Θ) : ℝ :=
  localMean fun j => forward θ (neg j) - forward θ (pos j)

/-- The gradient handed to the optimiser (`train.py:129-130`): every device differentiates its own loss
and `jax.lax.pmean` averages over the devices. -/
noncomputable def pcdGrad {Θ X : Type*} [NormedAddCommGroup Θ] [NormedSpace ℝ Θ] {dev per : ℕ}
    (forward : Θ → X → ℝ) (pos neg : Fin dev → Fin per → X) (θ : Θ) : Θ →L[ℝ] ℝ :=
  (dev : ℝ)⁻¹ • ∑ d, fderiv ℝ (pcdLoss forward (pos d) (neg d)) θ

/-- `data_preprocess` (`main_rbm_training.py:37-42`) on one pixel: `img > noise`, `noise` uniform. -/
noncomputable def binarise (pixel noise : ℝ) : Bool := decide (noise < pixel / 255)

/-! ### Training loop -/

/-- What `train_loop` does that can be observed from outside. -/
inductive TrainEvent (R β : Type*) where
  /-- `global_update_fn` with this batch; the optimiser uses the learning rate `lr`. -/
  | update (lr : R) (batch : β)
  /-- `logger.write_scalars(step, aux)` with `aux['train/lr'] = lr`. -/
  | log (step : ℕ) (lr : R)
  /-- `fn_plot(step, …)`. -/
  | plot (step : ℕ)
  /-- `save_model(shared_state, step)`; `updates` is the field `step` of the saved state, which
  `global_update_fn` increases by one (`train.py:142`). -/
  | save (step updates : ℕ)
  /-- `ZeroDivisionError` of `step % frequency`; the loop ends. -/
  | raised
  deriving DecidableEq

/-- The frequencies of the configuration. -/
structure TrainFreq where
  /-- `log_every_steps`. -/
  log : ℕ
  /-- `plot_every_steps`. -/
  plot : ℕ
  /-- `save_every_steps`. -/
  save : ℕ

/-- The loop of `train_loop` (`train.py:162-183`): `k` passes are left, the next one has number `step`, the
state has made `done` updates, `loader i` is what the `i`-th call of `next(train_loader)` gives (`none`:
`StopIteration`).  `optax` evaluates the schedule at the number of updates made before, the log at `step`
(`train.py:176`).  Parameters and keys are left out: see `Model/Learning.lean` and `Model/Keys.lean`. -/
def trainLoop {R β : Type*} (f : TrainFreq) (sched : ℕ → R) (loader : ℕ → Option β) :
    ℕ → ℕ → ℕ → List (TrainEvent R β)
  | 0, _, _ => []
  | k + 1, step, done =>
    match loader done with
    | none => []
    | some b =>
      .update (sched done) b :: if f.log = 0 then [.raised] else
        (if step % f.log = 0 then [.log step (sched step)] else []) ++ if f.plot = 0 then [.raised] else
        (if step % f.plot = 0 then [.plot step] else []) ++ if f.save = 0 then [.raised] else
        (if step % f.save = 0 then [.save step (done + 1)] else [])
        ++ trainLoop f sched loader k (step + 1) (done + 1)

/-- `train_loop` for a fresh state (`init_step = 0`, `train.py:28-35, 152, 163`). -/
def trainRun {R β : Type*} (f : TrainFreq) (sched : ℕ → R) (loader : ℕ → Option β) (total : ℕ) :
    List (TrainEvent R β) :=
  trainLoop f sched loader total 1 0

/-- Iterator over a data set of batches (`data_loader.py:25-26, 53-54`, `dataset.repeat()`): with
`repeat` it starts over for ever. -/
def loaderOf {β : Type*} (repeated : Bool) (batches : List β) (i : ℕ) : Option β :=
  if repeated then batches[i % batches.length]? else batches[i]?

/-- Schedule `constant` (`train.py:61-62`). -/
noncomputable def constantLr (lr : ℝ) : ℕ → ℝ := constSchedule lr

/-- Schedule `up_exp_down` (`train.py:70-76`): `optax.warmup_exponential_decay_schedule` by its
documented formula, a linear warm-up joined to an exponential decay. -/
noncomputable def upExpDown (lr warmupFrac : ℝ) (total : ℕ) (step : ℕ) : ℝ :=
  let warmup := (pyInt (warmupFrac * total)).toNat
  joinSchedules (linearSchedule 0.0 lr warmup)
    (expSchedule lr 1e-6 0.9 20000) warmup step

end Discs
