import Mathlib.Algebra.BigOperators.Fin
import Mathlib.Logic.Equiv.Fin.Basic
import Verif.Model.Experiment

/-!
# Model of the training code

`discs/learning/train.py`, `discs/learning/replay_buffer.py`,
`discs/learning/binary_ebm/main_binary_training.py`, `discs/common/data_loader.py` and the helpers of
`discs/common/utils.py` they use.  Optimisers, networks and the data sets are parameters.
-/

namespace Discs

open Finset

/-! ### Exponential moving average -/

/-- `apply_ema` (`utils.py:24-25`) on one array of parameters. -/
noncomputable def applyEma {ι : Type*} (decay : ℝ) (avg new : ι → ℝ) : ι → ℝ :=
  fun i => decay * avg i + (1.0 - decay) * new i

/-- The fields of `TrainState` (`train.py:20-25`) that matter for the average. -/
structure EmaState (ι : Type*) where
  /-- `state.step`. -/
  step : ℕ
  /-- `state.params`. -/
  params : ι → ℝ
  /-- `state.ema_params`. -/
  ema : ι → ℝ

/-- The bookkeeping of `global_update_fn` (`train.py:132-143`): `new` are the parameters after
`optax.apply_updates`. -/
noncomputable def emaUpdate {ι : Type*} (emaDecay : ℝ) (st : EmaState ι) (new : ι → ℝ) : EmaState ι :=
  { step := st.step + 1
    params := new
    ema := applyEma (if st.step = 0 then 0.0 else emaDecay) st.ema new }

/-- Training for `n` updates from `init_host_train_state` (`train.py:28-35`); `p t` are the parameters after
update `t + 1`. -/
noncomputable def emaRun {ι : Type*} (emaDecay : ℝ) (init : ι → ℝ) (p : ℕ → ι → ℝ) (n : ℕ) : EmaState ι :=
  (List.range n).foldl (fun st t => emaUpdate emaDecay st (p t)) ⟨0, init, init⟩

/-! ### Replay buffer -/

/-- `sample` (`replay_buffer.py:31-44`), binary case: `inds` are the sorted distinct indices drawn,
`fresh` the rows `x_reinit`, `reinit` the drawn zeros and ones (one per row). -/
def bufferSample {N n D : ℕ} (buffer : Fin N → Fin D → ℤ) (inds : Fin n → Fin N) (fresh : Fin n → Fin D → ℤ)
    (reinit : Fin n → ℤ) : Fin n → Fin D → ℤ :=
  fun i j => fresh i j * reinit i + buffer (inds i) j * (1 - reinit i)

/-- `update` (`replay_buffer.py:46-47`): NumPy assigns the rows one after the other. -/
def bufferUpdate {V : Type*} {N n : ℕ} (buffer : Fin N → V) (inds : Fin n → Fin N) (x : Fin n → V) : Fin N → V :=
  (List.finRange n).foldl (fun buf i => Function.update buf (inds i) (x i)) buffer

/-- Reshape of a batch of `dev * per` rows to `(dev, per)` (`utils.py:80-87`,
`main_binary_training.py:62`). -/
def shard {V : Type*} {dev per : ℕ} (x : Fin (dev * per) → V) : Fin dev → Fin per → V :=
  fun d j => x (finProdFinEquiv (d, j))

/-- Reshape back to `(dev * per,)` (`main_binary_training.py:72-73`). -/
def unshard {V : Type*} {dev per : ℕ} (x : Fin dev → Fin per → V) : Fin (dev * per) → V :=
  fun b => x (finProdFinEquiv.symm b).1 (finProdFinEquiv.symm b).2

/-- The persistent chains (`main_binary_training.py:63-68`): `pcd` passes of the compiled step, which
`jax.pmap` runs separately on each device with its own sampler state. -/
def pcdSteps {S V : Type*} {dev per : ℕ} (stp : ℕ → Fin dev → (Fin per → V) → S → (Fin per → V) × S) (pcd : ℕ)
    (x : Fin dev → Fin per → V) (s : Fin dev → S) : (Fin dev → Fin per → V) × (Fin dev → S) :=
  (List.range pcd).foldl (fun st t => (fun d => (stp t d (st.1 d) (st.2 d)).1, fun d => (stp t d (st.1 d) (st.2 d)).2))
    (x, s)

/-- `EBMTrainer.batch_processing` (`main_binary_training.py:58-76`): take rows from the buffer, run the
persistent chains on the devices, write them back.  Returns the negative samples used in the loss, the new
sampler states and the new buffer. -/
def batchProcessing {S : Type*} {N D dev per : ℕ}
    (stp : ℕ → Fin dev → (Fin per → Fin D → ℤ) → S → (Fin per → Fin D → ℤ) × S) (pcd : ℕ) (s : Fin dev → S)
    (buffer : Fin N → Fin D → ℤ) (inds : Fin (dev * per) → Fin N) (fresh : Fin (dev * per) → Fin D → ℤ)
    (reinit : Fin (dev * per) → ℤ) :
    (Fin dev → Fin per → Fin D → ℤ) × (Fin dev → S) × (Fin N → Fin D → ℤ) :=
  let out := pcdSteps stp pcd (shard (bufferSample buffer inds fresh reinit)) s
  (out.1, out.2, bufferUpdate buffer inds (unshard out.1))

/-! ### Data-parallel gradients -/

/-- `jnp.mean` over the examples of one device. -/
noncomputable def localMean {per : ℕ} (g : Fin per → ℝ) : ℝ := (∑ j, g j) / per

/-- `jax.lax.pmean` (`train.py:130-131`). -/
noncomputable def pmean {dev : ℕ} (g : Fin dev → ℝ) : ℝ := (∑ d, g d) / dev

/-! ### Learning-rate schedules (`train.py:59-79`)

`optax` schedules by their documented formulas. -/

/-- `optax.join_schedules([s1, s2], [boundary])`. -/
noncomputable def joinSchedules (s1 s2 : ℕ → ℝ) (boundary step : ℕ) : ℝ :=
  if step < boundary then s1 step else s2 (step - boundary)

/-- Schedule `updown` (`train.py:63-69`). -/
noncomputable def updown (lr warmupFrac : ℝ) (total : ℕ) (step : ℕ) : ℝ :=
  let warmup := (pyInt (warmupFrac * total)).toNat
  joinSchedules (linearSchedule 0 lr warmup) (linearSchedule lr (lr * 0.01) (total - warmup)) warmup step

/-! ### Data loading -/

/-- `tf.data.Dataset.batch(k, drop_remainder=True)`. -/
def batchDrop {α : Type*} (k : ℕ) (l : List α) : List (List α) :=
  if _h : 0 < k ∧ k ≤ l.length then l.take k :: batchDrop k (l.drop k) else []
termination_by l.length
decreasing_by simp only [List.length_drop]; omega

/-- `get_per_process_batch_size` (`utils.py:90-98`); `none` is the failing assertion. -/
def perProcessBatch (batch devices procs : ℕ) : Option ℕ :=
  if batch / devices * devices = batch then some (batch / procs) else none

/-- `prepare_dataloader` (`data_loader.py:35-42`) on the examples of one process, with
`drop_remainder=True`: batches of `(local devices, per device)`. -/
def deviceBatches {α : Type*} (procBatch localDev : ℕ) (l : List α) : List (List (List α)) :=
  batchDrop localDev (batchDrop (procBatch / localDev) l)

/-- `get_data_mean` (`train.py:46-56`) of one pixel whose values over the data set are `l`; `none` is the NaN that
`0 / 0` gives for an empty data set (`np.clip` keeps it). -/
noncomputable def dataMean (l : List ℝ) : Option ℝ :=
  if l = [] then none else some (clip (l.sum / l.length / 255) 0.01 0.99)

/-- `RngGen.advance` (`utils.py:122-124`): new counter and the key. -/
def rngAdvance {K : Type*} (foldIn : K → ℕ → K) (base : K) (counter count : ℕ) : ℕ × K :=
  (counter + count, foldIn base (counter + count))

end Discs
