import Mathlib.Algebra.BigOperators.Fin
import Mathlib.Data.Real.Basic
import Mathlib.Algebra.Order.Floor.Ring
import Mathlib.Algebra.Order.Archimedean.Real.Basic
import Mathlib.Analysis.SpecialFunctions.Pow.Real
import Verif.Model.Jax

/-!
# Model of the experiment drivers

`discs/experiment/sampling.py`, `discs/evaluators/ess_eval.py`, the files written by
`discs/common/experiment_saver.py`.  The compiled sampler step, the objective and the random keys are
parameters: the model fixes how the drivers call them and what they do with the results.  Floats are
exact reals.
-/

namespace Discs

/-! ### Python integers -/

/-- Python `range(a, b)`. -/
def pyRange (a b : ℤ) : List ℤ := (List.range (b - a).toNat).map fun i : ℕ => a + i

/-- Python `int(x)` of a float: rounds towards zero. -/
noncomputable def pyInt (x : ℝ) : ℤ := if 0 ≤ x then ⌊x⌋ else ⌈x⌉

/-- `burn_in_length` (`sampling.py:241`, `431`, `553`). -/
noncomputable def burnInLength (L : ℕ) (ratio : ℝ) : ℤ := pyInt (L * ratio) + 1

/-! ### `Sampling_Experiment._compute_chain` (`sampling.py:209-319`) -/

/-- What the driver needs from outside: `fold_in`, the compiled step (`jax.random.split` and the
reshape of the keys are folded into it), the map `get_mapped_samples(·, x0_ess)`, the selection
`new_x.reshape(..)[selected_chains]` and `get_hop`. -/
structure Driver (K X S Y Z : Type*) where
  /-- `jax.random.fold_in`. -/
  foldIn : K → ℤ → K
  /-- `compiled_step`: new samples, new sampler state, acceptance ratio. -/
  stp : K → X → S → X × S × ℝ
  /-- `get_mapped_samples(new_x, x0_ess)` (`sampling.py:341-346`). -/
  mapped : X → Y
  /-- `chains[selected_chains]` (`sampling.py:255-256`). -/
  selected : X → Z
  /-- `_get_hop` (`sampling.py:142-147`). -/
  hop : X → X → ℝ

/-- The variables of the loops. -/
structure ChainVars (K X S Y Z : Type*) where
  /-- The running key. -/
  rng : K
  /-- The current samples. -/
  x : X
  /-- The sampler state. -/
  state : S
  /-- Recorded values for the ESS. -/
  chain : List Y
  /-- Saved samples. -/
  samples : List Z
  /-- Recorded acceptance ratios. -/
  accRatios : List ℝ
  /-- Recorded hops. -/
  hops : List ℝ

variable {K X S Y Z : Type*}

/-- Body of the burn-in loop (`sampling.py:242-264`).  `save` is
`save_samples or get_estimation_error`, `metrics` is `get_additional_metrics`; `saveEvery > 0`
(zero raises in Python). -/
def burnInBody (d : Driver K X S Y Z) (save metrics : Bool) (saveEvery : ℤ)
    (v : ChainVars K X S Y Z) (step : ℤ) : ChainVars K X S Y Z :=
  let rng := d.foldIn v.rng step
  let out := d.stp rng v.x v.state
  { rng := rng
    x := out.1
    state := out.2.1
    chain := v.chain
    samples := if save ∧ step % saveEvery = 0 then v.samples ++ [d.selected out.1] else v.samples
    accRatios := if metrics then v.accRatios ++ [out.2.2] else v.accRatios
    hops := if metrics then v.hops ++ [d.hop v.x out.1] else v.hops }

/-- Body of the recording loop (`sampling.py:266-293`). -/
def mixingBody (d : Driver K X S Y Z) (save metrics : Bool) (saveEvery : ℤ)
    (v : ChainVars K X S Y Z) (step : ℤ) : ChainVars K X S Y Z :=
  let rng := d.foldIn v.rng step
  let out := d.stp rng v.x v.state
  { rng := rng
    x := out.1
    state := out.2.1
    chain := v.chain ++ [d.mapped out.1]
    samples := if save ∧ step % saveEvery = 0 then v.samples ++ [d.selected out.1] else v.samples
    accRatios := if metrics then v.accRatios ++ [out.2.2] else v.accRatios
    hops := if metrics then v.hops ++ [d.hop v.x out.1] else v.hops }

/-- Both loops (`sampling.py:223-293`) from the initial key, samples and sampler state. -/
noncomputable def samplingChain (d : Driver K X S Y Z) (save metrics : Bool) (saveEvery : ℤ) (L : ℕ)
    (ratio : ℝ) (rng : K) (x : X) (s : S) : ChainVars K X S Y Z :=
  let b := burnInLength L ratio
  (pyRange b (1 + L)).foldl (mixingBody d save metrics saveEvery)
    ((pyRange 1 b).foldl (burnInBody d save metrics saveEvery) ⟨rng, x, s, [], [], [], []⟩)

/-! ### `ess_eval.py` -/

/-- `_eval_over_mh_step` (`ess_eval.py:15-17`). -/
noncomputable def essOverSteps (ratio ess : ℝ) (mhSteps : ℕ) : ℝ := ess / (mhSteps * ratio)

/-- `_eval_over_num_ll_calls` (`ess_eval.py:11-13`). -/
noncomputable def essOverCalls (ratio ess : ℝ) (calls : ℕ) : ℝ := ess / (calls * ratio)

/-! ### `CO_Experiment._build_temperature_schedule` (`sampling.py:504-522`)

`optax.linear_schedule` and `optax.exponential_decay` are library code; the definitions below are
their documented formulas (transition_begin 0, no staircase). -/

/-- Schedule `constant` (`sampling.py:508`). -/
noncomputable def constSchedule (init : ℝ) (step : ℕ) : ℝ := step * 0 + init

/-- `optax.linear_schedule(init, end, transition_steps)`. -/
noncomputable def linearSchedule (init fin : ℝ) (L : ℕ) (step : ℕ) : ℝ :=
  if L = 0 then init
  else
    let count := min step L
    let frac := 1 - (count : ℝ) / L
    (init - fin) * frac + fin

/-- `optax.exponential_decay(init, transition_steps, decay_rate, end_value=fin)`. -/
noncomputable def expSchedule (init fin rate : ℝ) (L : ℕ) (step : ℕ) : ℝ :=
  if L = 0 ∨ rate = 0 then init
  else
    let decayed := if step = 0 then init else init * rate ^ ((step : ℝ) / L)
    if rate < 1 then max decayed fin else min decayed fin

/-! ### `CO_Experiment._compute_chain` (`sampling.py:524-657`) -/

/-- `jnp.max(eval_val, axis=-1)` of one row (`sampling.py:571`). -/
noncomputable def rowMax {B : ℕ} [NeZero B] (v : Fin B → ℝ) : ℝ :=
  (List.finRange B).foldl (fun a c => max a (v c)) (v 0)

/-- `jnp.argmax(eval_val, axis=-1)` of one row (`sampling.py:581`): the first maximum. -/
noncomputable def rowArgmax {B : ℕ} [NeZero B] (v : Fin B → ℝ) : Fin B :=
  (List.finRange B).foldl (fun a c => if v a < v c then c else a) 0

/-- What the driver needs from outside: the step takes the temperature; `scores` is
`eval_val.reshape(num_models, -1)` (`sampling.py:569-570`), `rows` is `rnew_x` (`sampling.py:582-586`). -/
structure CODriver (K X S V : Type*) (M B : ℕ) where
  /-- `jax.random.fold_in`. -/
  foldIn : K → ℤ → K
  /-- The compiled step at the given temperature. -/
  stp : ℝ → K → X → S → X × S
  /-- `t_schedule(step)`. -/
  temp : ℤ → ℝ
  /-- Scores of all chains of all instances. -/
  scores : X → Fin M → Fin B → ℝ
  /-- Samples of all chains of all instances. -/
  rows : X → Fin M → Fin B → V
  /-- `self.ref_obj`. -/
  ref : Fin M → ℝ
  /-- `self.sample_idx`. -/
  sampleIdx : Fin M → ℤ

/-- The variables of the loops. -/
structure COVars (K X S V : Type*) (M : ℕ) where
  /-- The running key. -/
  rng : K
  /-- The current samples. -/
  x : X
  /-- The sampler state. -/
  state : S
  /-- `best_ratio`. -/
  best : Fin M → ℝ
  /-- `best_samples`. -/
  bestSamples : Fin M → V
  /-- The logged trajectory. -/
  chain : List (List ℝ)

variable {V : Type*} {M B : ℕ}

/-- `best_ratio[sample_mask]` (`sampling.py:576`, `655`) with `sample_mask = sample_idx >= 0`. -/
def maskedBest (sampleIdx : Fin M → ℤ) (best : Fin M → ℝ) : List ℝ :=
  ((List.finRange M).filter fun m => 0 ≤ sampleIdx m).map best

/-- The logging block (`sampling.py:568-593` and, identically, `617-642`). -/
noncomputable def coLog [NeZero B] (d : CODriver K X S V M B) (v : COVars K X S V M) (newX : X) :
    COVars K X S V M :=
  let ratio := fun m => rowMax (d.scores newX m) / d.ref m
  let best := fun m => max (ratio m) (v.best m)
  { v with
    best := best
    chain := v.chain ++ [maskedBest d.sampleIdx best]
    bestSamples := fun m =>
      if ratio m > v.best m then d.rows newX m (rowArgmax (d.scores newX m)) else v.bestSamples m }

/-- Body of either loop (`sampling.py:555-601` and `603-650`; they differ only in timing).
`logEvery > 0` (zero raises in Python). -/
noncomputable def coBody [NeZero B] (d : CODriver K X S V M B) (logEvery : ℤ) (v : COVars K X S V M)
    (step : ℤ) : COVars K X S V M :=
  let rng := d.foldIn v.rng step
  let out := d.stp (d.temp step) rng v.x v.state
  let v' := if step % logEvery = 0 then coLog d v out.1 else v
  { v' with rng := rng, x := out.1, state := out.2 }

/-- Both loops (`sampling.py:538-650`); `zero` is a row of `best_samples`' initial zeros. -/
noncomputable def coChain [NeZero B] (d : CODriver K X S V M B) (logEvery : ℤ) (L : ℕ) (ratio : ℝ)
    (zero : V) (rng : K) (x : X) (s : S) : COVars K X S V M :=
  let b := burnInLength L ratio
  (pyRange b (1 + L)).foldl (coBody d logEvery)
    ((pyRange 1 b).foldl (coBody d logEvery)
      ⟨rng, x, s, fun _ => 1 * -1000000000, fun _ => zero, []⟩)

/-! ### Device layout (`Experiment._prepare_data`, `sampling.py:67-104`, evaluator `co_eval`) -/

/-- Leading shape `(devices, models, chains)` of the samples, and whether `params` is replicated on the
devices (`device_put_replicated`) rather than reshaped. -/
structure Layout where
  /-- Size of the device axis. -/
  dev : ℕ
  /-- Instances per device. -/
  mods : ℕ
  /-- Chains per device and instance. -/
  chains : ℕ
  /-- `use_put_replicated`. -/
  replicated : Bool

/-- `_prepare_data` for `co_eval` (`sampling.py:67-91`).  `none` is an exception: a failing assertion
(lines 70, 77), or line 84, where the truth value of the array `sample_idx` is taken, which raises for
more than one instance; for one instance whose index is not `0` line 85 makes `sample_idx` an array of
`devices` entries and the reshape of line 574 raises at the first logged step. -/
def coLayout (parallel : Bool) (devices M B : ℕ) (sampleIdx : List ℤ) : Option Layout :=
  if parallel then
    if devices ≤ M then
      if M % devices = 0 then some ⟨devices, M / devices, B, false⟩ else none
    else if B % devices = 0 then
      if sampleIdx = [0] then some ⟨devices, M, B / devices, true⟩ else none
    else none
  else some ⟨1, M, B, false⟩

/-- Row-major position of entry `(d, j, c)` of an array whose leading shape is the layout; this is what
`reshape` preserves. -/
def Layout.flat (l : Layout) (d j c : ℕ) : ℕ := (d * l.mods + j) * l.chains + c

/-- The instance whose parameters the chains at `(d, j)` are run and scored with: the stack of `M`
parameters is either replicated on every device or reshaped to `(devices, models)`
(`sampling.py:92-99`). -/
def Layout.inst (l : Layout) (d j : ℕ) : ℕ := if l.replicated then j else d * l.mods + j

/-! ### Files written by a combinatorial run -/

/-- The content of `results.pkl` written by `save_co_resuts` (`experiment_saver.py:121-129`). -/
structure COResults (V : Type*) where
  /-- `trajectory`. -/
  trajectory : List (List ℝ)
  /-- `best_ratio`. -/
  bestRatio : List ℝ
  /-- `best_samples`; empty unless they are saved. -/
  bestSamples : List V

/-- `_dump_dict` (`experiment_saver.py:24-33`): `open(path, 'wb')` truncates. -/
def dumpDict {C : Type*} (fs : String → Option C) (key : String) (content : C) : String → Option C :=
  Function.update fs (key ++ ".pkl") (some content)

/-- `CO_Experiment.get_results` (`sampling.py:481-484`): one `save_co_resuts` per batch of instances.
`run` is the outcome of `_compute_chain` on a batch. -/
def coGetResults {β : Type*} (run : β → COResults V) (fs : String → Option (COResults V))
    (batches : List β) : String → Option (COResults V) :=
  batches.foldl (fun fs b => dumpDict fs "results" (run b)) fs

/-! ### `EBM_Experiment._compute_chain` (`sampling.py:727-775`) -/

/-- The variables of the loop; `temp` is `params['temperature']`. -/
structure AISVars (B : ℕ) where
  /-- The current inverse temperature. -/
  temp : ℝ
  /-- `log_w`. -/
  logW : Fin B → ℝ
  /-- `logz_finals`. -/
  logZ : List ℝ

/-- One pass of the loop (`sampling.py:746-773`).  `xs k` is the batch held after `k` steps, so the
samples entering step `step` are `xs (step - 1)`; they are the outcome of the sampler steps. -/
noncomputable def aisBody {B : ℕ} (score : ℝ → X → ℝ) (L : ℕ) (xs : ℕ → Fin B → X) (v : AISVars B)
    (step : ℕ) : AISVars B :=
  let x := xs (step - 1)
  let oldVal := fun b => score v.temp (x b)
  let temp := (step : ℝ) * 1 / L
  let logW := fun b => v.logW b + score temp (x b) - oldVal b
  { temp := temp
    logW := logW
    logZ := v.logZ ++ [logsumexp logW - Real.log B] }

/-- The loop up to step `n` (`sampling.py:741-773`); the run is `n = L`. -/
noncomputable def aisLoop {B : ℕ} (score : ℝ → X → ℝ) (L : ℕ) (xs : ℕ → Fin B → X) (n : ℕ) : AISVars B :=
  (List.range' 1 n).foldl (aisBody score L xs) ⟨0, fun _ => 0, []⟩

/-- `ImageEBM.forward` (`resnet.py:111-123`) of one binary image; `net` is the network output.  With
`temperature` absent from `params` the value is `net x + base`.  The constants `1e-20` are `eps`. -/
noncomputable def imageForward {D : ℕ} (eps : ℝ) (mean : Option (Fin D → ℝ)) (net : (Fin D → ℤ) → ℝ)
    (beta : Option ℝ) (x : Fin D → ℤ) : ℝ :=
  match mean with
  | none => net x
  | some m =>
    let base := ∑ i, ((x i : ℝ) * Real.log (m i + eps) + (1 - (x i : ℝ)) * Real.log (1 + (- m i + eps)))
    let energy := net x + base
    match beta with
    | none => energy
    | some β => base * (1 - β) + energy * β

end Discs
