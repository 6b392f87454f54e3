import Verif.Model.Devices
import Verif.Model.BernEval

/-!
# Model of the files a sampling run leaves and of the plot of estimation errors

`discs/experiment/sampling.py:17-24, 48-66, 209-319`, `discs/common/experiment_saver.py:25-35, 106-126`,
`discs/evaluators/bernoulli_eval.py:75-108`, `discs/plot_results/plot_estimation_error.py`.  Real arithmetic.
-/

namespace Discs

/-- An array: its shape and its entries in row-major order. -/
structure NDArr (α : Type*) where
  /-- The dimensions. -/
  shape : List ℕ
  /-- The entries. -/
  data : List α

namespace NDArr

variable {α : Type*}

/-- The number of entries is that of the shape. -/
def WF (a : NDArr α) : Prop := a.data.length = a.shape.prod

/-- `a[0]`; `none` for a scalar, which cannot be indexed.  The leading dimension is not zero in the theorems. -/
def first (a : NDArr α) : Option (NDArr α) :=
  match a.shape with
  | [] => none
  | _ :: s => some ⟨s, a.data.take s.prod⟩

/-- `a.reshape(s)`; `none` if the number of entries differs. -/
def reshape (a : NDArr α) (s : List ℕ) : Option (NDArr α) := if a.data.length = s.prod then some ⟨s, a.data⟩ else none

/-- `jax.device_put_replicated` on `n` devices: a new leading axis with a copy for each. -/
def replicated (n : ℕ) (a : NDArr α) : NDArr α := ⟨n :: a.shape, (List.replicate n a.data).flatten⟩

/-- The rows of `a.reshape(B, -1)`; `B` divides the number of entries of the samples. -/
def rows (a : NDArr α) (B : ℕ) : List (List α) :=
  (List.range B).map fun i => (a.data.drop (i * (a.data.length / B))).take (a.data.length / B)

/-- The shape of a broadcast, dimensions in reverse order; `none` if the shapes do not fit. -/
def bcastRev : List ℕ → List ℕ → Option (List ℕ)
  | [], s => some s
  | s, [] => some s
  | a :: s, b :: t =>
    if a = b ∨ b = 1 then (bcastRev s t).map (a :: ·) else if a = 1 then (bcastRev s t).map (b :: ·) else none

/-- The place of the entry of an array that an index of the broadcast reads, both in reverse order. -/
def offRev : List ℕ → List ℕ → ℕ
  | d :: s, i :: is => (if d = 1 then 0 else i) + d * offRev s is
  | _, _ => 0

/-- All indices of a shape, both in reverse order. -/
def idxRev : List ℕ → List (List ℕ)
  | [] => [[]]
  | d :: s => (idxRev s).flatMap fun is => (List.range d).map (· :: is)

/-- `jnp.mean((a - b) ** 2)`; `none` if the shapes do not fit. -/
noncomputable def mse (a b : NDArr ℝ) : Option ℝ :=
  (bcastRev a.shape.reverse b.shape.reverse).map fun s =>
    ((idxRev s).map fun is =>
      (a.data.getD (offRev a.shape.reverse is) 0 - b.data.getD (offRev b.shape.reverse is) 0) ^ 2).sum / (s.prod : ℝ)

end NDArr

/-! ### The run -/

/-- `self.num_saved_samples` (`sampling.py:22`): `top` holds the entries of the configuration outside of its sections. -/
def numSavedSamples (top : String → Option ℕ) : ℕ := (top "nun_saved_samples").getD 4

/-- `selected_chains` (`sampling.py:234-240`): `jax.random.choice` without replacement takes the first entries of a
permutation of the chains; `none` is the error if there are too few. -/
def selectedChains (B k : ℕ) (perm : List ℕ) : Option (List ℕ) := if B < k then none else some (perm.take k)

/-- The entries of the configuration that decide what the run leaves. -/
structure EECfg where
  /-- `config.experiment.get_estimation_error`. -/
  est : Bool
  /-- `config.experiment.save_samples`. -/
  save : Bool
  /-- `config.model.name`. -/
  model : String
  /-- `config.model.shape`. -/
  shape : List ℕ
  /-- `config.experiment.batch_size`. -/
  B : ℕ
  /-- `jax.local_device_count()`. -/
  devices : ℕ
  /-- `config.experiment.run_parallel`. -/
  runParallel : Bool
  /-- `config.experiment.get_additional_metrics`. -/
  metrics : Bool
  /-- `config.experiment.save_every_steps`. -/
  saveEvery : ℕ
  /-- `config.experiment.chain_length`. -/
  L : ℕ
  /-- `config.experiment.ess_ratio`. -/
  ratio : ℝ

/-- `samples.pkl` and `params.pkl` in the folder of the run; `none` if there is no such file. -/
structure RunFiles where
  /-- `trajectory`: saved steps, chains, sites. -/
  samples : Option (List (List (List ℤ)))
  /-- The parameters of the model. -/
  params : Option (NDArr ℝ)

/-- How a run ends: the files it leaves and whether it raised. -/
structure RunEnd where
  /-- The files. -/
  files : RunFiles
  /-- An exception ended the run. -/
  raised : Bool

/-- The parameters in the variable `params` of `_compute_chain` (`sampling.py:53-66, 97-100`). -/
def runParams (parallel : Bool) (devices : ℕ) (p : NDArr ℝ) : NDArr ℝ := if parallel then p.replicated devices else p

/-- The end of `_compute_chain` (`sampling.py:305-318`) with `Saver.dump_samples` and `Saver.dump_params`
(`experiment_saver.py:25-35, 106-126`); `visualize` is `False`. -/
def dumpFiles (c : EECfg) (samples : List (List (List ℤ))) (params : NDArr ℝ) : RunEnd :=
  if c.save ∧ c.model ∈ ["rbm", "resnet"] then ⟨⟨some samples, none⟩, false⟩
  else if c.est ∧ c.model = "bernoulli" then
    match params.first.bind (·.reshape c.shape) with
    | none => ⟨⟨some samples, none⟩, true⟩
    | some p => ⟨⟨some samples, some p⟩, false⟩
  else ⟨⟨none, none⟩, false⟩

/-- A run of `Sampling_Experiment` as far as these files go: the layout (`sampling.py:51-66`), the selected chains, the
loops and the files.  `d` is the driver of the loops apart from `chains[selected_chains]`, `p` the parameters of the
model, `x` the initial samples.  The metrics (`sampling.py:295-304`) do not raise in this model. -/
noncomputable def sampleRun {K S Y : Type*} (c : EECfg) (top : String → Option ℕ) (perm : List ℕ)
    (d : Driver K (NDArr ℤ) S Y (List (List ℤ))) (p : NDArr ℝ) (k : K) (x : NDArr ℤ) (s : S) : RunEnd :=
  let parallel := runsParallel c.devices c.runParallel
  match plainLayout parallel c.devices c.B, selectedChains c.B (numSavedSamples top) perm with
  | some _, some sel =>
    let d := { d with selected := fun x => sel.map fun i => (x.rows c.B).getD i [] }
    let v := samplingChain d (c.save || c.est) c.metrics c.saveEvery c.L c.ratio k x s
    dumpFiles c v.samples (runParams parallel c.devices p)
  | _, _ => ⟨⟨none, none⟩, true⟩

/-- The entries of the configuration of a job (`Model/Launcher.lean`). -/
def Cfg.eeFlags (c : Cfg Key Val) : Option (Bool × Bool × String) := do
  let est ← (c .experiment .get_estimation_error).bind Val.bool?
  let save ← (c .experiment .save_samples).bind Val.bool?
  let name ← (c .model .name).bind Val.str?
  pure (est, save, name)

/-! ### The plot -/

/-- `_get_sample_mean` on a window (`bernoulli_eval.py:27-29`): the mean over the steps, of shape chains by sites. -/
noncomputable def windowMean (win : List (List (List ℤ))) : NDArr ℝ :=
  let k := (win.headD []).length
  let D := ((win.headD []).headD []).length
  ⟨[k, D], (List.range k).flatMap fun b => (List.range D).map fun i =>
    (win.map fun x => (((x.getD b []).getD i 0 : ℤ) : ℝ)).sum / win.length⟩

/-- `Bernoulli.get_expected_val` (`bernoulli.py:63-65`) on an array. -/
noncomputable def expectedArr (p : NDArr ℝ) : NDArr ℝ :=
  ⟨p.shape, p.data.map fun v => Real.exp v / (Real.exp v + 1)⟩

/-- The curve of one run (`plot_estimation_error.py:104-111`, `bernoulli_eval.py:83-103`): `none` if a file is missing or
the shapes do not fit.  Its points are drawn at `1, 2, …`. -/
noncomputable def eeCurve (size stride : ℕ) (f : RunFiles) : Option (List ℝ) := do
  let samples ← f.samples
  let params ← f.params
  (bWindows samples size stride).mapM fun win => (windowMean win).mse (expectedArr params)

/-- The plot of a directory of results (`plot_estimation_error.py:97-114`): all folders or nothing. -/
noncomputable def eePlot (size stride : ℕ) (folders : List RunFiles) : Option (List (List ℝ)) :=
  folders.mapM (eeCurve size stride)

/-- The label of a run in the plot (`plot_estimation_error.py:54-80, 103`), from the keys and texts in the name of its
folder; `none` if there is no `name`. -/
def eeLabel (kw : List (Key × String)) : Option String := do
  let name ← kw.lookup .name
  let name := if name = "hammingball" then "hb-10-1" else if name = "blockgibbs" then "bg-2"
    else if name = "randomwalk" then "rmw" else if name = "path_auxiliary" then "pafs" else name
  let name := if kw.lookup .solver = some "euler_forward" then name ++ "f" else name
  let name := match kw.lookup .balancing_fn_type with
    | some "SQRT" => name ++ "$\\sqrt{t}$"
    | some "RATIO" => name ++ "$\\frac{t}{t+1}$"
    | some "MIN" => name ++ "(min)"
    | some "MAX" => name ++ "(max)"
    | _ => name
  pure name

/-- The keys and texts in the name of the folder of a job (`xm_launcher.py:147-160`, `plot_estimation_error.py:30-52`).
The value of a tuple is cut at its comma; no label depends on it. -/
def folderKeys (kw : List Arg) : List (Key × String) := kw.map fun a => (a.1.2, a.2.text)

end Discs
