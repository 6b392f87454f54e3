import Verif.Model.JobFolder
import Verif.Model.Labels

/-!
# Model of the settings of a launched job as the plots read them

`discs/xm_launcher.py:150-166` writes the swept settings into the name of the result folder;
`discs/plot_results/plot_utils.py:19-94` reads them back and makes the label.
-/

namespace Discs

/-- The name of a key as it is written in the run configurations, after its section. -/
def Key.text : Key → List Char
  | .shape => "shape".toList
  | .num_categories => "num_categories".toList
  | .init_sigma => "init_sigma".toList
  | .name => "name".toList
  | .save_dir_name => "save_dir_name".toList
  | .sigma => "sigma".toList
  | .alpha => "alpha".toList
  | .beta => "beta".toList
  | .lambdaa => "lambdaa".toList
  | .external_field_type => "external_field_type".toList
  | .mu => "mu".toList
  | .graph_type => "graph_type".toList
  | .cfg_str => "cfg_str".toList
  | .data_root => "data_root".toList
  | .penalty => "penalty".toList
  | .stype => "stype".toList
  | .visualize => "visualize".toList
  | .data_path => "data_path".toList
  | .bert_model => "bert_model".toList
  | .random_init_sample => "random_init_sample".toList
  | .num_of_sentences => "num_of_sentences".toList
  | .min_sentence_len => "min_sentence_len".toList
  | .max_sentence_len => "max_sentence_len".toList
  | .block_size => "block_size".toList
  | .adaptive => "adaptive".toList
  | .target_acceptance_rate => "target_acceptance_rate".toList
  | .balancing_fn_type => "balancing_fn_type".toList
  | .schedule_step => "schedule_step".toList
  | .reset_z_est => "reset_z_est".toList
  | .solver => "solver".toList
  | .n => "n".toList
  | .step_size => "step_size".toList
  | .num_flips => "num_flips".toList
  | .use_fast_path => "use_fast_path".toList
  | .approx_with_grad => "approx_with_grad".toList
  | .batch_size => "batch_size".toList
  | .t_schedule => "t_schedule".toList
  | .chain_length => "chain_length".toList
  | .log_every_steps => "log_every_steps".toList
  | .init_temperature => "init_temperature".toList
  | .decay_rate => "decay_rate".toList
  | .final_temperature => "final_temperature".toList
  | .save_root => "save_root".toList
  | .save_every_steps => "save_every_steps".toList
  | .evaluator => "evaluator".toList
  | .max_n_grams => "max_n_grams".toList
  | .num_same_resample => "num_same_resample".toList
  | .topk_num => "topk_num".toList
  | .use_topk => "use_topk".toList
  | .run_parallel => "run_parallel".toList
  | .num_models => "num_models".toList
  | .ess_ratio => "ess_ratio".toList
  | .get_additional_metrics => "get_additional_metrics".toList
  | .shuffle_buffer_size => "shuffle_buffer_size".toList
  | .plot_every_steps => "plot_every_steps".toList
  | .fig_folder => "fig_folder".toList
  | .save_samples => "save_samples".toList
  | .get_estimation_error => "get_estimation_error".toList
  | .use_tqdm => "use_tqdm".toList
  | .co_opt_prob => "co_opt_prob".toList
  | .window_size => "window_size".toList
  | .window_stride => "window_stride".toList
  | .max_num_nodes => "max_num_nodes".toList
  | .max_num_edges => "max_num_edges".toList
  | .num_instances => "num_instances".toList
  | .rand_type => "rand_type".toList
  | .tolerance => "tolerance".toList

/-- The prefix of a section in the run configurations (`xm_launcher.py:152-157`). -/
def Section.prefix : Section → List Char
  | .model => "model_config.".toList
  | .sampler => "sampler_config.".toList
  | .experiment => "config.experiment.".toList

/-- Decimal digits of a fraction below one; at most as many as the first argument. -/
def decimals : ℕ → ℚ → List Char
  | 0, _ => []
  | f + 1, q => if q = 0 then [] else Nat.digitChar (q * 10).floor.toNat :: decimals f (q * 10 - (q * 10).floor)

/-- Number of the first decimal that is not zero, at most the first argument. -/
def leadingZeros : ℕ → ℚ → ℕ
  | 0, _ => 0
  | f + 1, q => if 1 ≤ q then 0 else leadingZeros f (q * 10) + 1

/-- A number in decimals, with a fraction part if `frac`. -/
def decimalText (frac : Bool) (q : ℚ) : List Char :=
  Nat.toDigits 10 q.floor.toNat ++
    (if q = q.floor then (if frac then ".0".toList else []) else '.' :: decimals 17 (q - q.floor))

/-- `repr` of a float (used by `f'{v!r}'`, `xm_launcher.py:161`), for numbers below `10^16` with at most seventeen
decimals, which the swept ones are: Python writes numbers below `0.0001` with an exponent of at least two digits. -/
def floatRepr (q : ℚ) : List Char :=
  (if q < 0 then ['-'] else []) ++
    if q ≠ 0 ∧ |q| < 1 / 10000 then
      let e := leadingZeros 30 |q|
      decimalText false (|q| * 10 ^ e) ++ "e-".toList ++ (if e < 10 then ['0'] else []) ++ Nat.toDigits 10 e
    else decimalText true |q|

/-- The digits of an integer. -/
def intRepr (z : ℤ) : List Char := (if z < 0 then ['-'] else []) ++ Nat.toDigits 10 z.natAbs

/-- The text of a shape in the run configurations, such as `(1000,)` and `(50, 50)`. -/
def shapeText : List ℕ → List Char
  | [a] => '(' :: (Nat.toDigits 10 a ++ ",)".toList)
  | l => '(' :: ((", ".toList).intercalate (l.map (Nat.toDigits 10)) ++ [')'])

/-- A swept value as it goes into the folder name (`xm_launcher.py:158-161`).  Shapes are swept as text. -/
def Val.sweep : Val → SweepVal
  | .int z => .other (intRepr z)
  | .float q => .other (floatRepr q)
  | .str s => .str s.toList
  | .bool b => .other (if b then "True".toList else "False".toList)
  | .tuple l => .str (shapeText l)

/-- A swept setting as it goes into the folder name (`xm_launcher.py:151`). -/
def argSweep (a : Arg) : List Char × SweepVal := (a.1.1.prefix ++ a.1.2.text, a.2.sweep)

/-- The dictionary under which the plots show a launched job: label and other keys
(`xm_launcher.py:150-168`, then `plot_results.py:396-397`, `plot_utils.py:71-94` and `plot_utils.py:19-69`). -/
def jobDict (workUnit : ℕ) (kw : List Arg) : Option ExpDict :=
  ((jobFolder workUnit (kw.map argSweep)).bind experimentConfig).bind processKeys

/-- The dictionary by which `plot_results.py:396-399` groups a run. -/
def resultDict (workUnit : ℕ) (kw : List Arg) : Option ExpDict :=
  (jobDict workUnit kw).map fun d => dictDel d "save_samples".toList

end Discs
