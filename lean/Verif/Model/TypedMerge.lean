import Verif.Model.Launcher

/-!
# Model of the configuration merge with the type checks of `ml_collections`

`discs/experiment/main_sampling.py:27-57` once more, with sections that are type safe as those of
`config_dict.ConfigDict` are by default (`discs/common/configs.py:40`): a field keeps the type of the value it was made
with.  An assignment to a field converts integers to floats where the field is a float, accepts instances of the type of
the field (truth values are integers in Python), and raises a `TypeError` otherwise; a new field takes the type of its
value.  The rules are written from the documentation of `ml_collections`; no shipped file has a value `None`, for which
there are further rules.
-/

namespace Discs

/-- Assignment of `new` to a field that holds `old`: the value stored, `none` for a `TypeError`
(used by every `update` of `main_sampling.py:27-57`). -/
def Val.cast (old new : Val) : Option Val :=
  match old, new with
  | .int _, .int z => some (.int z)
  | .int _, .bool b => some (.bool b)
  | .float _, .float q => some (.float q)
  | .float _, .int z => some (.float z)
  | .float _, .bool b => some (.float (if b then 1 else 0))
  | .bool _, .bool b => some (.bool b)
  | .str _, .str s => some (.str s)
  | .tuple _, .tuple l => some (.tuple l)
  | _, _ => none

/-- All keys. -/
def Key.all : List Key :=
  [.shape, .num_categories, .init_sigma, .name, .save_dir_name, .sigma, .alpha, .beta, .lambdaa,
   .external_field_type, .mu, .graph_type, .cfg_str, .data_root, .penalty, .stype, .visualize, .data_path,
   .bert_model, .random_init_sample, .num_of_sentences, .min_sentence_len, .max_sentence_len, .block_size,
   .adaptive, .target_acceptance_rate, .balancing_fn_type, .schedule_step, .reset_z_est, .solver, .n, .step_size,
   .num_flips, .use_fast_path, .approx_with_grad, .batch_size, .t_schedule, .chain_length, .log_every_steps,
   .init_temperature, .decay_rate, .final_temperature, .save_root, .save_every_steps, .evaluator, .max_n_grams,
   .num_same_resample, .topk_num, .use_topk, .run_parallel, .num_models, .ess_ratio, .get_additional_metrics,
   .shuffle_buffer_size, .plot_every_steps, .fig_folder, .save_samples, .get_estimation_error, .use_tqdm,
   .co_opt_prob, .window_size, .window_stride, .max_num_nodes, .max_num_edges, .num_instances, .rand_type,
   .tolerance]

/-- The value of one field after an update; the outer `none` is a `TypeError`. -/
def fieldUpdate (old new : Option Val) : Option (Option Val) :=
  match old, new with
  | o, none => some o
  | none, some v => some (some v)
  | some o, some v => (o.cast v).map some

/-- `a.update(b)` of type safe sections. -/
def Sec.updateT (a b : Sec Key Val) : Option (Sec Key Val) :=
  if Key.all.all fun k => (fieldUpdate (a k) (b k)).isSome then
    some fun k => (fieldUpdate (a k) (b k)).getD none
  else none

/-- `config.<section>.update(sec)`. -/
def Cfg.updateSecT (a : Cfg Key Val) (s : Section) (b : Sec Key Val) : Option (Cfg Key Val) :=
  (Sec.updateT (a s) b).map fun sec t => if t = s then sec else a t

/-- `config.update(other)`: the sections one after another. -/
def Cfg.updateT (a b : Cfg Key Val) : Option (Cfg Key Val) := do
  let a ← a.updateSecT .model (b .model)
  let a ← a.updateSecT .sampler (b .sampler)
  a.updateSecT .experiment (b .experiment)

/-- `config.<section>.<k> = v`. -/
def Cfg.setKeyT (a : Cfg Key Val) (s : Section) (k : Key) (v : Val) : Option (Cfg Key Val) :=
  (fieldUpdate (a s k) (some v)).map fun r t k' => if t = s ∧ k' = k then r else a t k'

/-- The first update (`main_sampling.py:29-34`). -/
def mergeStartT (common exp : Cfg Key Val) (modelCfg : Sec Key Val) : Option (Cfg Key Val) :=
  if (modelCfg .graph_type).isNone && (modelCfg .bert_model).isNone then common.updateT exp else some common

/-- The updates of a graph model (`main_sampling.py:37-50`). -/
def mergeGraphT (graphCfg : Val → Val → Val → Option (Sec Key Val)) (coDefault : Sec Key Val) (exp c : Cfg Key Val) :
    Option (Cfg Key Val) :=
  if getTrue Val.truthy (c .model) .graph_type then do
    let nm ← c .model .name
    let gt ← c .model .graph_type
    let cs ← c .model .cfg_str
    let g ← graphCfg nm gt cs
    let c ← c.updateSecT .model g
    let c ← c.updateSecT .experiment coDefault
    let c ← c.updateT exp
    let n ← c .model .num_models
    c.setKeyT .experiment .num_models n
  else some c

/-- The update of a language model (`main_sampling.py:52-53`). -/
def mergeBertT (exp c : Cfg Key Val) : Option (Cfg Key Val) :=
  if getTrue Val.truthy (c .model) .bert_model then c.updateT exp else some c

/-- `get_main_config` (`main_sampling.py:27-55`) with type checks; `none` if it raises. -/
def mainConfigT (graphCfg : Val → Val → Val → Option (Sec Key Val)) (coDefault : Sec Key Val) (common exp : Cfg Key Val)
    (samplerCfg modelCfg : Sec Key Val) : Option (Cfg Key Val) := do
  let c ← mergeStartT common exp modelCfg
  let c ← c.updateSecT .sampler samplerCfg
  let c ← c.updateSecT .model modelCfg
  let c ← mergeGraphT graphCfg coDefault exp c
  mergeBertT exp c

/-- The configuration with which a job starts, with type checks in the merge; see `launch`. -/
def launchT (R : Repo) (rc : RunConfig) (saveDir folder : String) (kwargs : List Arg) : Option (Cfg Key Val) := do
  let args := jobArgs rc saveDir folder kwargs
  let mf ← R.model rc.model
  let sf ← R.sampler (jobSampler rc args)
  let ef ← rc.experimentFile R
  let m ← mf.overrides (argsOf .model args)
  let s ← sf.overrides (argsOf .sampler args)
  let e ← (ef .experiment).overrides (argsOf .experiment args)
  mainConfigT R.graph R.coDefault R.common (fun t => if t = .experiment then e else ef t) s m

end Discs
