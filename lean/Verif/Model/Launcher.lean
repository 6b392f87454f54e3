import Verif.Model.MainConfig
import Verif.Model.GraphConfig
import Verif.Model.Build

/-!
# Model of the launcher: from a sweep to the configuration of a job

`discs/xm_launcher.py:54-82, 139-180`, the flags of `discs/experiment/main_sampling.py:11-17` and
`get_main_config` (`Model/MainConfig.lean`).

A configuration flag of `ml_collections` (`config_flags`) is a file and overrides `--<flag>.<key>=<value>`: an
override needs a key that the file has, and its text is read with the type of the value in the file.  Left out:
overrides on the command line of the launcher itself (`xm_launcher.py:89-95`), the resources and the packaging of
the job, and keys outside the three sections.
-/

namespace Discs

/-- The keys of the shipped configuration files. -/
inductive Key
  | shape | num_categories | init_sigma | name | save_dir_name | sigma | alpha | beta | lambdaa
  | external_field_type | mu | graph_type | cfg_str | data_root | penalty | stype | visualize | data_path
  | bert_model | random_init_sample | num_of_sentences | min_sentence_len | max_sentence_len | block_size
  | adaptive | target_acceptance_rate | balancing_fn_type | schedule_step | reset_z_est | solver | n | step_size
  | num_flips | use_fast_path | approx_with_grad | batch_size | t_schedule | chain_length | log_every_steps
  | init_temperature | decay_rate | final_temperature | save_root | save_every_steps | evaluator | max_n_grams
  | num_same_resample | topk_num | use_topk | run_parallel | num_models | ess_ratio | get_additional_metrics
  | shuffle_buffer_size | plot_every_steps | fig_folder | save_samples | get_estimation_error | use_tqdm
  | co_opt_prob | window_size | window_stride | max_num_nodes | max_num_edges | num_instances | rand_type
  | tolerance
  deriving DecidableEq, Repr

/-- The values of the shipped configuration files. -/
inductive Val
  | int (z : ℤ)
  | float (q : ℚ)
  | str (s : String)
  | bool (b : Bool)
  | tuple (l : List ℕ)
  deriving DecidableEq, Repr

/-- Truth value (`if config.model.get('graph_type', None)`). -/
def Val.truthy : Val → Bool
  | .int z => z ≠ 0
  | .float q => q ≠ 0
  | .str s => s ≠ ""
  | .bool b => b
  | .tuple l => !l.isEmpty

/-- The text of a value on the command line; floats and tuples only up to their format. -/
def Val.text : Val → String
  | .int z => toString z
  | .float q => toString q.num ++ "/" ++ toString q.den
  | .str s => s
  | .bool b => if b then "True" else "False"
  | .tuple l => "(" ++ String.intercalate ", " (l.map toString) ++ ")"

/-- An override of a value `old` of the file: the parser is chosen by the type of `old`; the parser for floats
reads integers too, the parser for strings takes the text as it is. -/
def Val.parseAs (old new : Val) : Option Val :=
  match old, new with
  | .int _, .int z => some (.int z)
  | .float _, .float q => some (.float q)
  | .float _, .int z => some (.float z)
  | .bool _, .bool b => some (.bool b)
  | .tuple _, .tuple l => some (.tuple l)
  | .str _, v => some (.str v.text)
  | _, _ => none

/-- A section given by its entries. -/
def Sec.ofList (l : List (Key × Val)) : Sec Key Val := fun k => l.lookup k

/-- One override: `none` if the file has no such key or the text cannot be read. -/
def Sec.override (s : Sec Key Val) (a : Key × Val) : Option (Sec Key Val) := do
  let old ← s a.1
  let v ← Val.parseAs old a.2
  return fun k => if k = a.1 then some v else s k

/-- All overrides of a flag. -/
def Sec.overrides (s : Sec Key Val) (as : List (Key × Val)) : Option (Sec Key Val) :=
  as.foldlM (Sec.override) s

/-- An override with the section of its flag: `model_config.<key>`, `sampler_config.<key>` or
`config.experiment.<key>`. -/
abbrev Arg := (Section × Key) × Val

/-- A run configuration (`discs/run_configs`): `model`, `sampler`, `graph_type` and `sweep`; `file` and `dir` say
where it is. -/
structure RunConfig where
  file : String
  dir : String
  model : String
  sampler : String
  graphType : Option String
  sweep : List (List ((Section × Key) × List Val))

/-- The configuration files. -/
structure Repo where
  /-- `discs/models/configs/<model>_config.py` -/
  model : String → Option (Sec Key Val)
  /-- `discs/samplers/configs/<sampler>_config.py` -/
  sampler : String → Option (Sec Key Val)
  /-- `discs/experiment/configs/<model>/<graph_type>.py` -/
  experiment : String → String → Option (Cfg Key Val)
  /-- `discs/experiment/configs/lm_experiment.py` -/
  lm : Cfg Key Val
  /-- `discs/common/configs.py` -/
  common : Cfg Key Val
  /-- `discs/experiment/configs/co_experiment.py` -/
  coDefault : Sec Key Val
  /-- `discs/models/configs/<model>/<graph_type>.py` -/
  graph : Val → Val → Val → Option (Sec Key Val)

/-- The keys used by `get_main_config`. -/
def launchKeys : ConfigKeys Key :=
  ⟨.name, .graph_type, .bert_model, .cfg_str, .num_models, .save_dir_name, .save_root⟩

/-- `job_config.get('graph_type', None)` as a condition. -/
def RunConfig.graph? (rc : RunConfig) : Option String := rc.graphType.filter (· ≠ "")

/-- `executable_args['config']` (`xm_launcher.py:68-82`). -/
def RunConfig.experimentFile (R : Repo) (rc : RunConfig) : Option (Cfg Key Val) :=
  match rc.graph? with
  | some g => R.experiment rc.model g
  | none => if rc.model = "text_infilling" then some R.lm else some R.common

/-- The overrides set for all jobs (`xm_launcher.py:68-77, 121`). -/
def RunConfig.baseArgs (rc : RunConfig) (saveDir : String) : List Arg :=
  (match rc.graph? with
    | some g => [((.model, .graph_type), .str g), ((.model, .data_root), .str "/gcs/xcloud-shared/hadai/data/sco")]
    | none => []) ++ [((.experiment, .save_root), .str saveDir)]

/-- `args.update(kwargs)` and the folder of the job (`xm_launcher.py:139-168`): the keys of `kwargs` replace those set
for all jobs, then the name of the folder is appended to `save_root`. -/
def jobArgs (rc : RunConfig) (saveDir folder : String) (kwargs : List Arg) : List Arg :=
  ((rc.baseArgs saveDir).filter (fun a => a.1 ∉ kwargs.map Prod.fst) ++ kwargs).map fun a =>
    match a with
    | ((.experiment, .save_root), .str s) => ((.experiment, .save_root), .str (s ++ "/" ++ folder))
    | a => a

/-- The overrides of one flag. -/
def argsOf (s : Section) (args : List Arg) : List (Key × Val) :=
  args.filterMap fun a => if a.1.1 = s then some (a.1.2, a.2) else none

/-- The name of the sampler file (`xm_launcher.py:142-145`). -/
def jobSampler (rc : RunConfig) (args : List Arg) : String :=
  match args.lookup (.sampler, .name) with
  | some v => v.text
  | none => rc.sampler

/-- The configuration with which a job starts; `none` if it raises before the model is built: a file that does not
exist, an override that is not accepted, or `get_main_config`. -/
def launch (R : Repo) (rc : RunConfig) (saveDir folder : String) (kwargs : List Arg) :
    Option (Cfg Key Val) := do
  let args := jobArgs rc saveDir folder kwargs
  let mf ← R.model rc.model
  let sf ← R.sampler (jobSampler rc args)
  let ef ← rc.experimentFile R
  let m ← mf.overrides (argsOf .model args)
  let s ← sf.overrides (argsOf .sampler args)
  let e ← (ef .experiment).overrides (argsOf .experiment args)
  mainConfig launchKeys Val.truthy R.graph R.coDefault R.common
    (fun t => if t = .experiment then e else ef t) s m

/-- The jobs of a run configuration (`xm_launcher.py:172-178`). -/
def RunConfig.jobs (rc : RunConfig) : Option (List (List Arg)) := allSweeps rc.sweep

/-! ### What the sampler is built from -/

def Val.nat? : Val → Option ℕ
  | .int z => some z.toNat
  | _ => none

def Val.int? : Val → Option ℤ
  | .int z => some z
  | _ => none

def Val.rat? : Val → Option ℚ
  | .float q => some q
  | .int z => some z
  | _ => none

def Val.str? : Val → Option String
  | .str s => some s
  | _ => none

def Val.bool? : Val → Option Bool
  | .bool b => some b
  | _ => none

/-- The fields read by `build_sampler` (`Model/Build.lean`) in the configuration of a job.  `shape` is
`config.model.shape` after the model was built (models of graphs and learned models set it, `utils.py:195-205`,
`rbm.py`, `resnet.py`). -/
def Cfg.runCfg (c : Cfg Key Val) (shape : List ℕ) : RunCfg where
  shape := some shape
  numCategories := (c .model .num_categories).bind Val.nat?
  coOpt := (c .experiment .co_opt_prob).bind Val.bool?
  name := ((c .sampler .name).bind Val.str?).getD ""
  adaptive := (c .sampler .adaptive).bind Val.bool?
  target := (c .sampler .target_acceptance_rate).bind Val.rat?
  balancing := (c .sampler .balancing_fn_type).bind Val.str?
  numFlips := (c .sampler .num_flips).bind Val.nat?
  blockSize := (c .sampler .block_size).bind Val.nat?
  stepSize := (c .sampler .step_size).bind Val.rat?
  scheduleStep := (c .sampler .schedule_step).bind Val.int?
  resetZ := (c .sampler .reset_z_est).bind Val.int?
  n := (c .sampler .n).bind Val.rat?
  solver := (c .sampler .solver).bind Val.str?
  useFastPath := (c .sampler .use_fast_path).bind Val.bool?
  approxWithGrad := (c .sampler .approx_with_grad).bind Val.bool?

/-- The entries of a graph configuration. -/
def GraphModelCfg.sec (g : GraphModelCfg) : Sec Key Val := fun
  | .name => g.name.map fun n => .str (String.ofList n)
  | .num_models => some (.int g.numModels)
  | .max_num_nodes => some (.int g.maxNodes)
  | .max_num_edges => some (.int g.maxEdges)
  | .num_instances => g.numInstances.map fun n => .int n
  | .num_categories => some (.int g.numCategories)
  | .shape => some (.tuple [0])
  | .rand_type => some (.str (String.ofList g.randType))
  | .penalty => g.penalty.map .float
  | .tolerance => g.tolerance.map .float
  | _ => none

end Discs
