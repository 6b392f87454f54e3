import Verif.Model.Launcher

/-!
# The shipped configuration files and sweeps

The contents of `discs/models/configs`, `discs/samplers/configs`, `discs/experiment/configs`,
`discs/common/configs.py` and `discs/run_configs`, as data.  Paths of data sets and checkpoints are kept as they are.
A shape, given as text such as `'(50, 50)'` in a sweep, is the tuple it denotes.
-/

namespace Discs

/-- `discs/models/configs/<model>_config.py`, `get_config()`. -/
def modelFiles : List (String × List (Key × Val)) :=
  [("bernoulli", [(.shape, .tuple [10000]), (.num_categories, .int 2), (.init_sigma, .float (1 / 2)),
   (.name, .str "bernoulli"), (.save_dir_name, .str "bernoulli_hightemp")]),
   ("categorical", [(.shape, .tuple [2000]), (.num_categories, .int 4), (.init_sigma, .float (3 / 2)),
   (.name, .str "categorical"), (.save_dir_name, .str "categorical_4")]),
   ("fhmm", [(.shape, .tuple [200, 50]), (.num_categories, .int 2), (.sigma, .int 2), (.alpha, .float (1 / 10)),
   (.beta, .float (4 / 5)), (.name, .str "fhmm"), (.save_dir_name, .str "fhmm")]),
   ("ising", [(.shape, .tuple [50, 50]), (.num_categories, .int 2), (.lambdaa, .float (1 / 2)),
   (.external_field_type, .int 1), (.mu, .float (1 / 2)), (.init_sigma, .float (3 / 2)), (.name, .str "ising"),
   (.save_dir_name, .str "ising_hightemp")]),
   ("maxclique", [(.name, .str "maxclique"), (.graph_type, .str "rb"), (.cfg_str, .str "_"),
   (.data_root, .str "./sco/"), (.save_dir_name, .str "maxclique")]),
   ("maxcut", [(.name, .str "maxcut"), (.graph_type, .str "ba"), (.cfg_str, .str "r-ba-4-n-16-20"),
   (.data_root, .str "./sco/"), (.save_dir_name, .str "maxcut")]),
   ("mis", [(.name, .str "mis"), (.graph_type, .str "ertest"), (.cfg_str, .str "r-800"), (.data_root, .str "./sco/"),
   (.penalty, .float (1001 / 1000)), (.save_dir_name, .str "mis")]),
   ("normcut", [(.name, .str "normcut"), (.graph_type, .str "nets"), (.cfg_str, .str "r-INCEPTION"),
   (.data_root, .str "./sco/"), (.stype, .str "quad"), (.save_dir_name, .str "normcut")]),
   ("potts", [(.shape, .tuple [30, 30]), (.lambdaa, .int 1), (.init_sigma, .float (3 / 2)),
   (.num_categories, .int 4), (.external_field_type, .int 1), (.mu, .float (1 / 2)), (.name, .str "potts"),
   (.save_dir_name, .str "potts_4")]),
   ("rbm", [(.name, .str "rbm"), (.visualize, .bool true), (.data_path, .str "./RBM_DATA/fashion_mnist-4-50/"),
   (.num_categories, .int 4)]),
   ("resnet", [(.name, .str "resnet"), (.visualize, .bool true), (.data_path, .str "./BINARY_EBM/dynamic_mnist-64/"),
   (.num_categories, .int 2)]),
   ("text_infilling", [(.shape, .tuple [4]), (.num_categories, .int 30522), (.name, .str "text_infilling"),
   (.bert_model, .str "./text_infilling_models/bert-base-uncased"), (.data_root, .str "./text_infilling_data/"),
   (.random_init_sample, .bool false), (.num_of_sentences, .int 10), (.min_sentence_len, .int 15),
   (.max_sentence_len, .int 25), (.save_dir_name, .str "text_infilling")])]

/-- `discs/samplers/configs/<sampler>_config.py`, `get_config()`. -/
def samplerFiles : List (String × List (Key × Val)) :=
  [("blockgibbs", [(.block_size, .int 2), (.name, .str "blockgibbs")]),
   ("dlmc", [(.name, .str "dlmc"), (.adaptive, .bool true), (.target_acceptance_rate, .float (287 / 500)),
   (.balancing_fn_type, .str "SQRT"), (.schedule_step, .int 200), (.reset_z_est, .int 20),
   (.solver, .str "interpolate"), (.n, .float 3)]),
   ("dmala", [(.name, .str "dmala"), (.adaptive, .bool true), (.target_acceptance_rate, .float (287 / 500)),
   (.balancing_fn_type, .str "SQRT"), (.schedule_step, .int 100), (.reset_z_est, .int 20),
   (.step_size, .float (1 / 5))]),
   ("gibbs", [(.name, .str "gibbs")]),
   ("gwg", [(.name, .str "gwg"), (.num_flips, .int 1), (.adaptive, .bool true),
   (.target_acceptance_rate, .float (287 / 500)), (.balancing_fn_type, .str "SQRT")]),
   ("hammingball", [(.name, .str "hammingball"), (.block_size, .int 10)]),
   ("locallybalanced", [(.balancing_fn_type, .str "SQRT"), (.name, .str "locallybalanced")]),
   ("path_auxiliary", [(.name, .str "path_auxiliary"), (.use_fast_path, .bool true), (.num_flips, .int 1),
   (.adaptive, .bool true), (.target_acceptance_rate, .float (287 / 500)), (.balancing_fn_type, .str "SQRT"),
   (.approx_with_grad, .bool true)]),
   ("randomwalk", [(.adaptive, .bool true), (.target_acceptance_rate, .float (237 / 1000)),
   (.name, .str "randomwalk")])]

/-- `discs/experiment/configs/<model>/<graph_type>.py`, `get_config()['experiment']`. -/
def experimentFiles : List ((String × String) × List (Key × Val)) :=
  [(("maxclique", "rb"), [(.batch_size, .int 16), (.t_schedule, .str "exp_decay"), (.chain_length, .int 1001),
   (.log_every_steps, .int 100), (.init_temperature, .float 1), (.decay_rate, .float (1 / 10)),
   (.final_temperature, .float (1 / 1000)), (.save_root, .str "")]),
   (("maxclique", "twitter"), [(.batch_size, .int 16), (.t_schedule, .str "exp_decay"), (.chain_length, .int 1001),
   (.log_every_steps, .int 100), (.init_temperature, .float 1), (.decay_rate, .float (1 / 20)),
   (.final_temperature, .float (1 / 100)), (.save_root, .str "")]),
   (("maxcut", "ba"), [(.batch_size, .int 32), (.t_schedule, .str "exp_decay"), (.chain_length, .int 50000),
   (.log_every_steps, .int 100), (.init_temperature, .float 1), (.decay_rate, .float (1 / 10)),
   (.final_temperature, .float (1 / 1000000)), (.save_root, .str "")]),
   (("maxcut", "er"), [(.batch_size, .int 16), (.t_schedule, .str "linear"), (.chain_length, .int 10000),
   (.log_every_steps, .int 100), (.init_temperature, .float 1), (.decay_rate, .float (1 / 10)),
   (.final_temperature, .float (1 / 2)), (.save_root, .str "")]),
   (("maxcut", "optsicom"), [(.batch_size, .int 32), (.t_schedule, .str "exp_decay"), (.chain_length, .int 25000),
   (.log_every_steps, .int 100), (.init_temperature, .float 1), (.decay_rate, .float (1 / 20)),
   (.final_temperature, .float (1 / 1000)), (.save_root, .str "")]),
   (("mis", "er_density"), [(.batch_size, .int 32), (.t_schedule, .str "exp_decay"), (.chain_length, .int 400000),
   (.log_every_steps, .int 100), (.save_every_steps, .int 100), (.decay_rate, .float (1 / 200)),
   (.final_temperature, .float (1 / 10000)), (.init_temperature, .int 1), (.save_root, .str "")]),
   (("mis", "ertest"), [(.batch_size, .int 32), (.t_schedule, .str "exp_decay"), (.chain_length, .int 50000),
   (.log_every_steps, .int 100), (.save_every_steps, .int 100), (.init_temperature, .int 1),
   (.decay_rate, .float (1 / 100)), (.final_temperature, .float (1 / 10000)), (.save_root, .str "")]),
   (("mis", "satlib"), [(.batch_size, .int 32), (.t_schedule, .str "exp_decay"), (.chain_length, .int 1000000),
   (.log_every_steps, .int 100), (.init_temperature, .int 1), (.decay_rate, .float (1 / 200)),
   (.final_temperature, .float (1 / 100000)), (.save_root, .str "")]),
   (("normcut", "gap_rand"), [(.batch_size, .int 8), (.t_schedule, .str "exp_decay"), (.chain_length, .int 500000),
   (.log_every_steps, .int 100), (.save_every_steps, .int 100), (.init_temperature, .int 1),
   (.decay_rate, .float (1 / 200)), (.final_temperature, .float (1 / 10000000)), (.save_root, .str "")]),
   (("normcut", "nets"), [(.batch_size, .int 32), (.t_schedule, .str "exp_decay"), (.chain_length, .int 800000),
   (.log_every_steps, .int 100), (.save_every_steps, .int 100), (.init_temperature, .int 2),
   (.decay_rate, .float (3 / 20)), (.final_temperature, .float (1 / 10000000)), (.save_root, .str "")])]

/-- `discs/experiment/configs/lm_experiment.py:5-21`. -/
def lmFile : List (Key × Val) :=
  [(.evaluator, .str "lm_eval"), (.name, .str "Text_Infilling_Experiment"), (.batch_size, .int 1),
  (.chain_length, .int 50), (.max_n_grams, .int 4), (.num_same_resample, .int 25), (.topk_num, .int 5),
  (.use_topk, .bool false), (.run_parallel, .bool false), (.save_root, .str "")]

/-- The section `experiment` of `discs/common/configs.py:16-37`. -/
def commonExperiment : List (Key × Val) :=
  [(.name, .str "Sampling_Experiment"), (.evaluator, .str "ess_eval"), (.num_models, .int 1),
  (.batch_size, .int 100), (.chain_length, .int 100000), (.ess_ratio, .float (1 / 2)), (.run_parallel, .bool true),
  (.get_additional_metrics, .bool false), (.shuffle_buffer_size, .int 0), (.log_every_steps, .int 1000),
  (.plot_every_steps, .int 10), (.save_root, .str "./discs/results"), (.fig_folder, .str ""),
  (.save_every_steps, .int 10000), (.save_samples, .bool false), (.get_estimation_error, .bool false),
  (.use_tqdm, .bool false), (.co_opt_prob, .bool false), (.window_size, .int 10), (.window_stride, .int 10)]

/-- The section `model` of `discs/common/configs.py:9-12`. -/
def commonModel : List (Key × Val) :=
  [(.name, .str ""), (.data_root, .str "sco")]

/-- The section `sampler` of `discs/common/configs.py:13-15`. -/
def commonSampler : List (Key × Val) :=
  [(.name, .str "")]

/-- `discs/experiment/configs/co_experiment.py:5-11`. -/
def coFile : List (Key × Val) :=
  [(.evaluator, .str "co_eval"), (.name, .str "CO_Experiment"), (.co_opt_prob, .bool true)]

/-- A configuration from its sections. -/
def cfgOf (model sampler experiment : List (Key × Val)) : Cfg Key Val := fun
  | .model => Sec.ofList model
  | .sampler => Sec.ofList sampler
  | .experiment => Sec.ofList experiment

/-- `get_model_config` of the module named by the model and the graph type (`main_sampling.py:38-43`). -/
def shippedGraph (name graphType cfgStr : Val) : Option (Sec Key Val) :=
  match name, graphType, cfgStr with
  | .str m, .str g, .str s => (graphConfig m.toList g.toList s.toList).map GraphModelCfg.sec
  | _, _, _ => none

/-- The shipped configuration files. -/
def shippedRepo : Repo where
  model m := (modelFiles.lookup m).map Sec.ofList
  sampler s := (samplerFiles.lookup s).map Sec.ofList
  experiment m g := (experimentFiles.lookup (m, g)).map fun e => cfgOf [] [] e
  lm := cfgOf [] [] lmFile
  common := cfgOf commonModel commonSampler commonExperiment
  coDefault := Sec.ofList coFile
  graph := shippedGraph

/-! ### Sweeps -/

/-- `discs/run_configs/classical_models/bernoulli/chain_length_sweep.py`. -/
def swBernoulliChainLengthSweep : RunConfig where
  file := "classical_models/bernoulli/chain_length_sweep.py"
  dir := "bernoulli"
  model := "bernoulli"
  sampler := "path_auxiliary"
  graphType := none
  sweep := [
    [((.experiment, .chain_length), [.int 100, .int 1000, .int 10000, .int 100000]),
      ((.sampler, .name), [.str "randomwalk", .str "blockgibbs", .str "hammingball"])],
    [((.experiment, .chain_length), [.int 100, .int 1000, .int 10000, .int 100000]),
      ((.sampler, .name), [.str "dmala", .str "path_auxiliary", .str "gwg"]),
      ((.sampler, .balancing_fn_type), [.str "SQRT"])],
    [((.experiment, .chain_length), [.int 100, .int 1000, .int 10000, .int 100000]),
      ((.sampler, .name), [.str "dlmc"]), ((.sampler, .solver), [.str "interpolate", .str "euler_forward"]),
      ((.sampler, .balancing_fn_type), [.str "SQRT"])]]

/-- `discs/run_configs/classical_models/bernoulli/estimation_error.py`. -/
def swBernoulliEstimationError : RunConfig where
  file := "classical_models/bernoulli/estimation_error.py"
  dir := "bernoulli"
  model := "bernoulli"
  sampler := "path_auxiliary"
  graphType := none
  sweep := [
    [((.experiment, .save_every_steps), [.int 1]), ((.model, .shape), [.tuple [1000]]),
      ((.model, .init_sigma), [.float (1 / 2), .float (3 / 2)]),
      ((.sampler, .name), [.str "randomwalk", .str "blockgibbs", .str "hammingball"])],
    [((.experiment, .save_every_steps), [.int 1]), ((.model, .shape), [.tuple [1000]]),
      ((.model, .init_sigma), [.float (1 / 2), .float (3 / 2)]),
      ((.sampler, .name), [.str "dmala", .str "path_auxiliary", .str "gwg"]),
      ((.sampler, .balancing_fn_type), [.str "SQRT", .str "RATIO"])],
    [((.experiment, .save_every_steps), [.int 1]), ((.model, .shape), [.tuple [1000]]),
      ((.model, .init_sigma), [.float (1 / 2), .float (3 / 2)]), ((.sampler, .name), [.str "dlmc"]),
      ((.sampler, .balancing_fn_type), [.str "SQRT", .str "RATIO"]),
      ((.sampler, .solver), [.str "interpolate", .str "euler_forward"])]]

/-- `discs/run_configs/classical_models/bernoulli/lbf_sweep.py`. -/
def swBernoulliLbfSweep : RunConfig where
  file := "classical_models/bernoulli/lbf_sweep.py"
  dir := "bernoulli"
  model := "bernoulli"
  sampler := "path_auxiliary"
  graphType := none
  sweep := [
    [((.experiment, .chain_length), [.int 100000]),
      ((.sampler, .name), [.str "dmala", .str "path_auxiliary", .str "gwg"]),
      ((.sampler, .balancing_fn_type), [.str "SQRT", .str "RATIO", .str "MAX", .str "MIN"])],
    [((.experiment, .chain_length), [.int 100000]), ((.sampler, .name), [.str "dlmc"]),
      ((.sampler, .solver), [.str "interpolate", .str "euler_forward"]),
      ((.sampler, .balancing_fn_type), [.str "SQRT", .str "RATIO", .str "MAX", .str "MIN"])]]

/-- `discs/run_configs/classical_models/bernoulli/model_config_sweep.py`. -/
def swBernoulliModelConfigSweep : RunConfig where
  file := "classical_models/bernoulli/model_config_sweep.py"
  dir := "bernoulli"
  model := "bernoulli"
  sampler := "path_auxiliary"
  graphType := none
  sweep := [
    [((.model, .init_sigma), [.float (1 / 2), .float (3 / 2)]),
      ((.sampler, .name), [.str "randomwalk", .str "blockgibbs", .str "hammingball"])],
    [((.model, .init_sigma), [.float (1 / 2), .float (3 / 2)]),
      ((.sampler, .name), [.str "dmala", .str "path_auxiliary", .str "gwg"]),
      ((.sampler, .balancing_fn_type), [.str "SQRT", .str "RATIO"])],
    [((.model, .init_sigma), [.float (1 / 2), .float (3 / 2)]), ((.sampler, .name), [.str "dlmc"]),
      ((.sampler, .balancing_fn_type), [.str "SQRT", .str "RATIO"]),
      ((.sampler, .solver), [.str "interpolate", .str "euler_forward"])]]

/-- `discs/run_configs/classical_models/bernoulli/shape_sweep.py`. -/
def swBernoulliShapeSweep : RunConfig where
  file := "classical_models/bernoulli/shape_sweep.py"
  dir := "bernoulli"
  model := "bernoulli"
  sampler := "path_auxiliary"
  graphType := none
  sweep := [
    [((.experiment, .chain_length), [.int 1000000]),
      ((.model, .shape), [.tuple [2000], .tuple [10000], .tuple [100000], .tuple [500000]]),
      ((.sampler, .name), [.str "randomwalk", .str "blockgibbs", .str "hammingball"])],
    [((.experiment, .chain_length), [.int 1000000]),
      ((.model, .shape), [.tuple [2000], .tuple [10000], .tuple [100000], .tuple [500000]]),
      ((.sampler, .name), [.str "dmala", .str "path_auxiliary", .str "gwg"]),
      ((.sampler, .balancing_fn_type), [.str "SQRT"])],
    [((.experiment, .chain_length), [.int 1000000]),
      ((.model, .shape), [.tuple [2000], .tuple [10000], .tuple [100000], .tuple [500000]]),
      ((.sampler, .name), [.str "dlmc"]), ((.sampler, .solver), [.str "interpolate", .str "euler_forward"]),
      ((.sampler, .balancing_fn_type), [.str "SQRT"])]]

/-- `discs/run_configs/classical_models/categorical/chain_length_sweep.py`. -/
def swCategoricalChainLengthSweep : RunConfig where
  file := "classical_models/categorical/chain_length_sweep.py"
  dir := "categorical"
  model := "categorical"
  sampler := "path_auxiliary"
  graphType := none
  sweep := [
    [((.experiment, .chain_length), [.int 100, .int 1000, .int 10000, .int 100000]),
      ((.sampler, .name), [.str "randomwalk", .str "blockgibbs", .str "hammingball"])],
    [((.experiment, .chain_length), [.int 100, .int 1000, .int 10000, .int 100000]),
      ((.sampler, .name), [.str "dmala", .str "path_auxiliary", .str "gwg"]),
      ((.sampler, .balancing_fn_type), [.str "SQRT"])],
    [((.experiment, .chain_length), [.int 100, .int 1000, .int 10000, .int 100000]),
      ((.sampler, .name), [.str "dlmc"]), ((.sampler, .solver), [.str "interpolate", .str "euler_forward"]),
      ((.sampler, .balancing_fn_type), [.str "SQRT"])]]

/-- `discs/run_configs/classical_models/categorical/lbf_sweep.py`. -/
def swCategoricalLbfSweep : RunConfig where
  file := "classical_models/categorical/lbf_sweep.py"
  dir := "categorical"
  model := "categorical"
  sampler := "path_auxiliary"
  graphType := none
  sweep := [
    [((.experiment, .chain_length), [.int 100000]),
      ((.sampler, .name), [.str "dmala", .str "path_auxiliary", .str "gwg"]),
      ((.sampler, .balancing_fn_type), [.str "SQRT", .str "RATIO", .str "MAX", .str "MIN"])],
    [((.experiment, .chain_length), [.int 100000]), ((.sampler, .name), [.str "dlmc"]),
      ((.sampler, .solver), [.str "interpolate", .str "euler_forward"]),
      ((.sampler, .balancing_fn_type), [.str "SQRT", .str "RATIO", .str "MAX", .str "MIN"])]]

/-- `discs/run_configs/classical_models/categorical/model_config_sweep.py`. -/
def swCategoricalModelConfigSweep : RunConfig where
  file := "classical_models/categorical/model_config_sweep.py"
  dir := "categorical"
  model := "categorical"
  sampler := "path_auxiliary"
  graphType := none
  sweep := [
    [((.sampler, .name), [.str "randomwalk", .str "blockgibbs", .str "hammingball"]),
      ((.model, .init_sigma), [.float (3 / 2)]), ((.model, .num_categories), [.int 4, .int 8])],
    [((.sampler, .name), [.str "dmala", .str "path_auxiliary", .str "gwg"]),
      ((.model, .init_sigma), [.float (3 / 2)]), ((.model, .num_categories), [.int 4, .int 8]),
      ((.sampler, .balancing_fn_type), [.str "SQRT", .str "RATIO"])],
    [((.sampler, .name), [.str "dlmc"]), ((.sampler, .solver), [.str "interpolate", .str "euler_forward"]),
      ((.model, .init_sigma), [.float (3 / 2)]), ((.model, .num_categories), [.int 4, .int 8]),
      ((.sampler, .balancing_fn_type), [.str "SQRT", .str "RATIO"])]]

/-- `discs/run_configs/classical_models/categorical/num_categories_sweep.py`. -/
def swCategoricalNumCategoriesSweep : RunConfig where
  file := "classical_models/categorical/num_categories_sweep.py"
  dir := "categorical"
  model := "categorical"
  sampler := "path_auxiliary"
  graphType := none
  sweep := [
    [((.experiment, .chain_length), [.int 1000000]),
      ((.sampler, .name), [.str "randomwalk", .str "blockgibbs", .str "hammingball"]),
      ((.model, .num_categories), [.int 4, .int 16, .int 64, .int 256])],
    [((.experiment, .chain_length), [.int 1000000]),
      ((.sampler, .name), [.str "dmala", .str "path_auxiliary", .str "gwg"]),
      ((.model, .num_categories), [.int 4, .int 16, .int 64, .int 256]),
      ((.sampler, .balancing_fn_type), [.str "SQRT"])],
    [((.experiment, .chain_length), [.int 1000000]), ((.sampler, .name), [.str "dlmc"]),
      ((.sampler, .solver), [.str "interpolate", .str "euler_forward"]),
      ((.model, .num_categories), [.int 4, .int 16, .int 64, .int 256]),
      ((.sampler, .balancing_fn_type), [.str "SQRT"])]]

/-- `discs/run_configs/classical_models/categorical/shape_sweep.py`. -/
def swCategoricalShapeSweep : RunConfig where
  file := "classical_models/categorical/shape_sweep.py"
  dir := "categorical"
  model := "categorical"
  sampler := "path_auxiliary"
  graphType := none
  sweep := [
    [((.experiment, .chain_length), [.int 1000000]),
      ((.model, .shape), [.tuple [250], .tuple [2000], .tuple [32000], .tuple [512000]]),
      ((.sampler, .name), [.str "randomwalk", .str "blockgibbs", .str "hammingball"])],
    [((.experiment, .chain_length), [.int 1000000]),
      ((.model, .shape), [.tuple [250], .tuple [2000], .tuple [32000], .tuple [512000]]),
      ((.sampler, .name), [.str "dmala", .str "path_auxiliary", .str "gwg"]),
      ((.sampler, .balancing_fn_type), [.str "SQRT"])],
    [((.experiment, .chain_length), [.int 1000000]),
      ((.model, .shape), [.tuple [250], .tuple [2000], .tuple [32000], .tuple [512000]]),
      ((.sampler, .name), [.str "dlmc"]), ((.sampler, .solver), [.str "interpolate", .str "euler_forward"]),
      ((.sampler, .balancing_fn_type), [.str "SQRT"])]]

/-- `discs/run_configs/classical_models/fhmm/binary_sweep.py`. -/
def swFhmmBinarySweep : RunConfig where
  file := "classical_models/fhmm/binary_sweep.py"
  dir := "fhmm"
  model := "fhmm"
  sampler := "path_auxiliary"
  graphType := none
  sweep := [
    [((.model, .num_categories), [.int 2]), ((.model, .shape), [.tuple [200, 50], .tuple [1000, 10]]),
      ((.sampler, .name), [.str "randomwalk", .str "blockgibbs", .str "hammingball"])],
    [((.model, .num_categories), [.int 2]), ((.model, .shape), [.tuple [200, 50], .tuple [1000, 10]]),
      ((.sampler, .name), [.str "dmala", .str "path_auxiliary", .str "gwg"]),
      ((.sampler, .balancing_fn_type), [.str "SQRT", .str "RATIO"])],
    [((.model, .num_categories), [.int 2]), ((.model, .shape), [.tuple [200, 50], .tuple [1000, 10]]),
      ((.sampler, .name), [.str "dlmc"]), ((.sampler, .balancing_fn_type), [.str "SQRT", .str "RATIO"]),
      ((.sampler, .solver), [.str "interpolate", .str "euler_forward"])]]

/-- `discs/run_configs/classical_models/fhmm/categ_sweep.py`. -/
def swFhmmCategSweep : RunConfig where
  file := "classical_models/fhmm/categ_sweep.py"
  dir := "fhmm"
  model := "fhmm"
  sampler := "path_auxiliary"
  graphType := none
  sweep := [
    [((.sampler, .name), [.str "randomwalk", .str "blockgibbs", .str "hammingball"]),
      ((.model, .num_categories), [.int 4, .int 8]), ((.model, .shape), [.tuple [200, 10]])],
    [((.sampler, .name), [.str "dmala", .str "path_auxiliary", .str "gwg"]),
      ((.sampler, .balancing_fn_type), [.str "SQRT", .str "RATIO"]), ((.model, .num_categories), [.int 4, .int 8]),
      ((.model, .shape), [.tuple [200, 10]])],
    [((.sampler, .name), [.str "dlmc"]), ((.sampler, .balancing_fn_type), [.str "SQRT", .str "RATIO"]),
      ((.sampler, .solver), [.str "interpolate", .str "euler_forward"]),
      ((.model, .num_categories), [.int 4, .int 8]), ((.model, .shape), [.tuple [200, 10]])]]

/-- `discs/run_configs/classical_models/ising/chian_length_sweep.py`. -/
def swIsingChianLengthSweep : RunConfig where
  file := "classical_models/ising/chian_length_sweep.py"
  dir := "ising"
  model := "ising"
  sampler := "path_auxiliary"
  graphType := none
  sweep := [
    [((.experiment, .chain_length), [.int 100, .int 1000, .int 10000, .int 100000]),
      ((.sampler, .name), [.str "randomwalk", .str "blockgibbs", .str "hammingball"]),
      ((.model, .mu), [.float (1 / 2)]), ((.model, .lambdaa), [.float (1 / 2)]),
      ((.model, .init_sigma), [.float (3 / 2)])],
    [((.experiment, .chain_length), [.int 100, .int 1000, .int 10000, .int 100000]),
      ((.sampler, .name), [.str "dmala", .str "path_auxiliary", .str "gwg"]), ((.model, .mu), [.float (1 / 2)]),
      ((.model, .lambdaa), [.float (1 / 2)]), ((.model, .init_sigma), [.float (3 / 2)]),
      ((.sampler, .balancing_fn_type), [.str "SQRT"])],
    [((.experiment, .chain_length), [.int 100, .int 1000, .int 10000, .int 100000]),
      ((.sampler, .name), [.str "dlmc"]), ((.model, .mu), [.float (1 / 2)]), ((.model, .lambdaa), [.float (1 / 2)]),
      ((.model, .init_sigma), [.float (3 / 2)]), ((.sampler, .balancing_fn_type), [.str "SQRT"]),
      ((.sampler, .solver), [.str "interpolate", .str "euler_forward"])]]

/-- `discs/run_configs/classical_models/ising/lamdasweep_bigger.py`. -/
def swIsingLamdasweepBigger : RunConfig where
  file := "classical_models/ising/lamdasweep_bigger.py"
  dir := "ising"
  model := "ising"
  sampler := "path_auxiliary"
  graphType := none
  sweep := [
    [((.experiment, .chain_length), [.int 1000000]),
      ((.sampler, .name), [.str "randomwalk", .str "blockgibbs", .str "hammingball"]),
      ((.model, .shape), [.tuple [100, 100]]), ((.model, .mu), [.int 0]), ((.model, .init_sigma), [.int 0]),
      ((.model, .lambdaa), [.float (1607 / 10000), .float (2007 / 10000), .float (2407 / 10000), .float (2807 / 10000), .float (3207 / 10000), .float (3607 / 10000), .float (4007 / 10000), .float (4407 / 10000), .float (4807 / 10000), .float (5207 / 10000), .float (5607 / 10000), .float (6007 / 10000), .float (6407 / 10000), .float (6807 / 10000), .float (7207 / 10000), .float (7607 / 10000)])],
    [((.experiment, .chain_length), [.int 1000000]),
      ((.sampler, .name), [.str "dmala", .str "path_auxiliary", .str "gwg"]), ((.model, .shape), [.tuple [100, 100]]),
      ((.model, .mu), [.int 0]), ((.model, .init_sigma), [.int 0]),
      ((.model, .lambdaa), [.float (1607 / 10000), .float (2007 / 10000), .float (2407 / 10000), .float (2807 / 10000), .float (3207 / 10000), .float (3607 / 10000), .float (4007 / 10000), .float (4407 / 10000), .float (4807 / 10000), .float (5207 / 10000), .float (5607 / 10000), .float (6007 / 10000), .float (6407 / 10000), .float (6807 / 10000), .float (7207 / 10000), .float (7607 / 10000)]),
      ((.sampler, .balancing_fn_type), [.str "SQRT", .str "RATIO"])],
    [((.experiment, .chain_length), [.int 1000000]), ((.model, .shape), [.tuple [100, 100]]),
      ((.sampler, .name), [.str "dlmc"]), ((.model, .mu), [.int 0]), ((.model, .init_sigma), [.int 0]),
      ((.model, .lambdaa), [.float (1607 / 10000), .float (2007 / 10000), .float (2407 / 10000), .float (2807 / 10000), .float (3207 / 10000), .float (3607 / 10000), .float (4007 / 10000), .float (4407 / 10000), .float (4807 / 10000), .float (5207 / 10000), .float (5607 / 10000), .float (6007 / 10000), .float (6407 / 10000), .float (6807 / 10000), .float (7207 / 10000), .float (7607 / 10000)]),
      ((.sampler, .balancing_fn_type), [.str "SQRT", .str "RATIO"]),
      ((.sampler, .solver), [.str "interpolate", .str "euler_forward"])]]

/-- `discs/run_configs/classical_models/ising/lamdasweep_small.py`. -/
def swIsingLamdasweepSmall : RunConfig where
  file := "classical_models/ising/lamdasweep_small.py"
  dir := "ising"
  model := "ising"
  sampler := "path_auxiliary"
  graphType := none
  sweep := [
    [((.experiment, .chain_length), [.int 400000]),
      ((.sampler, .name), [.str "randomwalk", .str "blockgibbs", .str "hammingball"]), ((.model, .mu), [.int 0]),
      ((.model, .init_sigma), [.int 0]),
      ((.model, .lambdaa), [.float (1607 / 10000), .float (2007 / 10000), .float (2407 / 10000), .float (2807 / 10000), .float (3207 / 10000), .float (3607 / 10000), .float (4007 / 10000), .float (4407 / 10000), .float (4807 / 10000), .float (5207 / 10000), .float (5607 / 10000), .float (6007 / 10000), .float (6407 / 10000), .float (6807 / 10000), .float (7207 / 10000), .float (7607 / 10000)])],
    [((.experiment, .chain_length), [.int 400000]),
      ((.sampler, .name), [.str "dmala", .str "path_auxiliary", .str "gwg"]), ((.model, .mu), [.int 0]),
      ((.model, .init_sigma), [.int 0]),
      ((.model, .lambdaa), [.float (1607 / 10000), .float (2007 / 10000), .float (2407 / 10000), .float (2807 / 10000), .float (3207 / 10000), .float (3607 / 10000), .float (4007 / 10000), .float (4407 / 10000), .float (4807 / 10000), .float (5207 / 10000), .float (5607 / 10000), .float (6007 / 10000), .float (6407 / 10000), .float (6807 / 10000), .float (7207 / 10000), .float (7607 / 10000)]),
      ((.sampler, .balancing_fn_type), [.str "SQRT", .str "RATIO"])],
    [((.experiment, .chain_length), [.int 400000]), ((.sampler, .name), [.str "dlmc"]), ((.model, .mu), [.int 0]),
      ((.model, .init_sigma), [.int 0]),
      ((.model, .lambdaa), [.float (1607 / 10000), .float (2007 / 10000), .float (2407 / 10000), .float (2807 / 10000), .float (3207 / 10000), .float (3607 / 10000), .float (4007 / 10000), .float (4407 / 10000), .float (4807 / 10000), .float (5207 / 10000), .float (5607 / 10000), .float (6007 / 10000), .float (6407 / 10000), .float (6807 / 10000), .float (7207 / 10000), .float (7607 / 10000)]),
      ((.sampler, .balancing_fn_type), [.str "SQRT", .str "RATIO"]),
      ((.sampler, .solver), [.str "interpolate", .str "euler_forward"])]]

/-- `discs/run_configs/classical_models/ising/lbf_sweep.py`. -/
def swIsingLbfSweep : RunConfig where
  file := "classical_models/ising/lbf_sweep.py"
  dir := "ising"
  model := "ising"
  sampler := "path_auxiliary"
  graphType := none
  sweep := [
    [((.experiment, .chain_length), [.int 100000]),
      ((.sampler, .name), [.str "dmala", .str "path_auxiliary", .str "gwg"]), ((.model, .mu), [.float (1 / 2)]),
      ((.model, .lambdaa), [.float (1 / 2)]), ((.model, .init_sigma), [.float (3 / 2)]),
      ((.sampler, .balancing_fn_type), [.str "SQRT", .str "RATIO", .str "MAX", .str "MIN"])],
    [((.experiment, .chain_length), [.int 100000]), ((.sampler, .name), [.str "dlmc"]),
      ((.model, .mu), [.float (1 / 2)]), ((.model, .lambdaa), [.float (1 / 2)]),
      ((.model, .init_sigma), [.float (3 / 2)]),
      ((.sampler, .balancing_fn_type), [.str "SQRT", .str "RATIO", .str "MAX", .str "MIN"]),
      ((.sampler, .solver), [.str "interpolate", .str "euler_forward"])]]

/-- `discs/run_configs/classical_models/ising/model_config_sweep.py`. -/
def swIsingModelConfigSweep : RunConfig where
  file := "classical_models/ising/model_config_sweep.py"
  dir := "ising"
  model := "ising"
  sampler := "path_auxiliary"
  graphType := none
  sweep := [
    [((.experiment, .chain_length), [.int 100000]),
      ((.sampler, .name), [.str "randomwalk", .str "blockgibbs", .str "hammingball"]),
      ((.model, .mu), [.float (1 / 2)]), ((.model, .lambdaa), [.float (1 / 2)]),
      ((.model, .init_sigma), [.float (3 / 2)])],
    [((.experiment, .chain_length), [.int 100000]),
      ((.sampler, .name), [.str "randomwalk", .str "blockgibbs", .str "hammingball"]), ((.model, .mu), [.int 1]),
      ((.model, .lambdaa), [.int 1]), ((.model, .init_sigma), [.int 3])],
    [((.experiment, .chain_length), [.int 100000]),
      ((.sampler, .name), [.str "dmala", .str "path_auxiliary", .str "gwg"]), ((.model, .mu), [.float (1 / 2)]),
      ((.model, .lambdaa), [.float (1 / 2)]), ((.model, .init_sigma), [.float (3 / 2)]),
      ((.sampler, .balancing_fn_type), [.str "SQRT", .str "RATIO"])],
    [((.experiment, .chain_length), [.int 100000]),
      ((.sampler, .name), [.str "dmala", .str "path_auxiliary", .str "gwg"]), ((.model, .mu), [.int 1]),
      ((.model, .lambdaa), [.int 1]), ((.model, .init_sigma), [.int 3]),
      ((.sampler, .balancing_fn_type), [.str "SQRT", .str "RATIO"])],
    [((.experiment, .chain_length), [.int 100000]), ((.sampler, .name), [.str "dlmc"]),
      ((.model, .mu), [.float (1 / 2)]), ((.model, .lambdaa), [.float (1 / 2)]),
      ((.model, .init_sigma), [.float (3 / 2)]), ((.sampler, .balancing_fn_type), [.str "SQRT", .str "RATIO"]),
      ((.sampler, .solver), [.str "interpolate", .str "euler_forward"])],
    [((.experiment, .chain_length), [.int 100000]), ((.sampler, .name), [.str "dlmc"]), ((.model, .mu), [.int 1]),
      ((.model, .lambdaa), [.int 1]), ((.model, .init_sigma), [.int 3]),
      ((.sampler, .balancing_fn_type), [.str "SQRT", .str "RATIO"]),
      ((.sampler, .solver), [.str "interpolate", .str "euler_forward"])]]

/-- `discs/run_configs/classical_models/ising/shape_sweep.py`. -/
def swIsingShapeSweep : RunConfig where
  file := "classical_models/ising/shape_sweep.py"
  dir := "ising"
  model := "ising"
  sampler := "path_auxiliary"
  graphType := none
  sweep := [
    [((.experiment, .chain_length), [.int 1000000]),
      ((.model, .shape), [.tuple [25, 25], .tuple [50, 50], .tuple [100, 100], .tuple [250, 250]]),
      ((.sampler, .name), [.str "randomwalk", .str "blockgibbs", .str "hammingball"]),
      ((.model, .mu), [.float (1 / 2)]), ((.model, .lambdaa), [.float (1 / 2)]),
      ((.model, .init_sigma), [.float (3 / 2)])],
    [((.experiment, .chain_length), [.int 1000000]),
      ((.model, .shape), [.tuple [25, 25], .tuple [50, 50], .tuple [100, 100], .tuple [250, 250]]),
      ((.sampler, .name), [.str "dmala", .str "path_auxiliary", .str "gwg"]), ((.model, .mu), [.float (1 / 2)]),
      ((.model, .lambdaa), [.float (1 / 2)]), ((.model, .init_sigma), [.float (3 / 2)]),
      ((.sampler, .balancing_fn_type), [.str "SQRT"])],
    [((.experiment, .chain_length), [.int 1000000]),
      ((.model, .shape), [.tuple [25, 25], .tuple [50, 50], .tuple [100, 100], .tuple [250, 250]]),
      ((.sampler, .name), [.str "dlmc"]), ((.model, .mu), [.float (1 / 2)]), ((.model, .lambdaa), [.float (1 / 2)]),
      ((.model, .init_sigma), [.float (3 / 2)]), ((.sampler, .balancing_fn_type), [.str "SQRT"]),
      ((.sampler, .solver), [.str "interpolate", .str "euler_forward"])]]

/-- `discs/run_configs/classical_models/potts/chain_length_sweep.py`. -/
def swPottsChainLengthSweep : RunConfig where
  file := "classical_models/potts/chain_length_sweep.py"
  dir := "potts"
  model := "potts"
  sampler := "path_auxiliary"
  graphType := none
  sweep := [
    [((.experiment, .chain_length), [.int 100, .int 1000, .int 10000, .int 100000]),
      ((.sampler, .name), [.str "randomwalk", .str "blockgibbs", .str "hammingball"])],
    [((.experiment, .chain_length), [.int 100, .int 1000, .int 10000, .int 100000]),
      ((.sampler, .name), [.str "dmala", .str "path_auxiliary", .str "gwg"]),
      ((.sampler, .balancing_fn_type), [.str "SQRT"])],
    [((.experiment, .chain_length), [.int 100, .int 1000, .int 10000, .int 100000]),
      ((.sampler, .name), [.str "dlmc"]), ((.sampler, .balancing_fn_type), [.str "SQRT"]),
      ((.sampler, .solver), [.str "interpolate", .str "euler_forward"])]]

/-- `discs/run_configs/classical_models/potts/lbf_sweep.py`. -/
def swPottsLbfSweep : RunConfig where
  file := "classical_models/potts/lbf_sweep.py"
  dir := "potts"
  model := "potts"
  sampler := "path_auxiliary"
  graphType := none
  sweep := [
    [((.experiment, .chain_length), [.int 100000]),
      ((.sampler, .name), [.str "dmala", .str "path_auxiliary", .str "gwg"]),
      ((.sampler, .balancing_fn_type), [.str "SQRT", .str "RATIO", .str "MAX", .str "MIN"])],
    [((.experiment, .chain_length), [.int 100000]), ((.sampler, .name), [.str "dlmc"]),
      ((.sampler, .balancing_fn_type), [.str "SQRT", .str "RATIO", .str "MAX", .str "MIN"]),
      ((.sampler, .solver), [.str "interpolate", .str "euler_forward"])]]

/-- `discs/run_configs/classical_models/potts/model_config_sweep.py`. -/
def swPottsModelConfigSweep : RunConfig where
  file := "classical_models/potts/model_config_sweep.py"
  dir := "potts"
  model := "potts"
  sampler := "path_auxiliary"
  graphType := none
  sweep := [
    [((.experiment, .chain_length), [.int 100000]),
      ((.sampler, .name), [.str "randomwalk", .str "blockgibbs", .str "hammingball"]),
      ((.model, .num_categories), [.int 4, .int 8])],
    [((.experiment, .chain_length), [.int 100000]),
      ((.sampler, .name), [.str "dmala", .str "path_auxiliary", .str "gwg"]),
      ((.model, .num_categories), [.int 4, .int 8]), ((.sampler, .balancing_fn_type), [.str "SQRT", .str "RATIO"])],
    [((.experiment, .chain_length), [.int 100000]), ((.sampler, .name), [.str "dlmc"]),
      ((.model, .num_categories), [.int 4, .int 8]), ((.sampler, .balancing_fn_type), [.str "SQRT", .str "RATIO"]),
      ((.sampler, .solver), [.str "interpolate", .str "euler_forward"])]]

/-- `discs/run_configs/classical_models/potts/num_categories_sweep.py`. -/
def swPottsNumCategoriesSweep : RunConfig where
  file := "classical_models/potts/num_categories_sweep.py"
  dir := "potts"
  model := "categorical"
  sampler := "path_auxiliary"
  graphType := none
  sweep := [
    [((.experiment, .chain_length), [.int 1000000]),
      ((.sampler, .name), [.str "randomwalk", .str "blockgibbs", .str "hammingball"]),
      ((.model, .num_categories), [.int 4, .int 16, .int 64, .int 256])],
    [((.experiment, .chain_length), [.int 1000000]),
      ((.sampler, .name), [.str "dmala", .str "path_auxiliary", .str "gwg"]),
      ((.model, .num_categories), [.int 4, .int 16, .int 64, .int 256]),
      ((.sampler, .balancing_fn_type), [.str "SQRT"])],
    [((.experiment, .chain_length), [.int 1000000]), ((.sampler, .name), [.str "dlmc"]),
      ((.sampler, .solver), [.str "interpolate", .str "euler_forward"]),
      ((.model, .num_categories), [.int 4, .int 16, .int 64, .int 256]),
      ((.sampler, .balancing_fn_type), [.str "SQRT"])]]

/-- `discs/run_configs/classical_models/potts/shape_sweep.py`. -/
def swPottsShapeSweep : RunConfig where
  file := "classical_models/potts/shape_sweep.py"
  dir := "potts"
  model := "potts"
  sampler := "path_auxiliary"
  graphType := none
  sweep := [
    [((.experiment, .chain_length), [.int 1000000]),
      ((.sampler, .name), [.str "randomwalk", .str "blockgibbs", .str "hammingball"]),
      ((.model, .shape), [.tuple [10, 10], .tuple [30, 30], .tuple [100, 100], .tuple [300, 300]])],
    [((.experiment, .chain_length), [.int 1000000]),
      ((.sampler, .name), [.str "dmala", .str "path_auxiliary", .str "gwg"]),
      ((.sampler, .balancing_fn_type), [.str "SQRT"]),
      ((.model, .shape), [.tuple [10, 10], .tuple [30, 30], .tuple [100, 100], .tuple [300, 300]])],
    [((.experiment, .chain_length), [.int 1000000]), ((.sampler, .name), [.str "dlmc"]),
      ((.sampler, .balancing_fn_type), [.str "SQRT"]),
      ((.sampler, .solver), [.str "interpolate", .str "euler_forward"]),
      ((.model, .shape), [.tuple [10, 10], .tuple [30, 30], .tuple [100, 100], .tuple [300, 300]])]]

/-- `discs/run_configs/co/maxclique/rb_sampler_sweep.py`. -/
def swMaxcliqueRbSamplerSweep : RunConfig where
  file := "co/maxclique/rb_sampler_sweep.py"
  dir := "maxclique"
  model := "maxclique"
  sampler := "path_auxiliary"
  graphType := some "rb"
  sweep := [
    [((.sampler, .name), [.str "randomwalk", .str "blockgibbs", .str "hammingball"]),
      ((.experiment, .log_every_steps), [.int 100]), ((.experiment, .decay_rate), [.float (1 / 10)]),
      ((.experiment, .t_schedule), [.str "exp_decay"]), ((.experiment, .batch_size), [.int 16]),
      ((.experiment, .init_temperature), [.float 1]), ((.experiment, .chain_length), [.int 20001])],
    [((.sampler, .name), [.str "dmala", .str "path_auxiliary"]), ((.experiment, .log_every_steps), [.int 100]),
      ((.sampler, .balancing_fn_type), [.str "SQRT"]), ((.experiment, .decay_rate), [.float (1 / 10)]),
      ((.experiment, .t_schedule), [.str "exp_decay"]), ((.experiment, .batch_size), [.int 16]),
      ((.experiment, .init_temperature), [.float 1]), ((.experiment, .chain_length), [.int 20001])],
    [((.sampler, .name), [.str "gwg"]), ((.experiment, .log_every_steps), [.int 100]),
      ((.sampler, .balancing_fn_type), [.str "SQRT"]), ((.experiment, .decay_rate), [.float (1 / 10)]),
      ((.experiment, .t_schedule), [.str "exp_decay"]), ((.experiment, .batch_size), [.int 16]),
      ((.experiment, .init_temperature), [.float 1]), ((.experiment, .chain_length), [.int 20001]),
      ((.sampler, .adaptive), [.bool false])],
    [((.sampler, .name), [.str "dlmc"]), ((.experiment, .log_every_steps), [.int 100]),
      ((.sampler, .balancing_fn_type), [.str "SQRT"]), ((.experiment, .decay_rate), [.float (1 / 10)]),
      ((.experiment, .t_schedule), [.str "exp_decay"]), ((.experiment, .batch_size), [.int 16]),
      ((.experiment, .init_temperature), [.float 1]), ((.experiment, .chain_length), [.int 20001]),
      ((.sampler, .solver), [.str "interpolate", .str "euler_forward"])]]

/-- `discs/run_configs/co/maxclique/twitter_sampler_sweep.py`. -/
def swMaxcliqueTwitterSamplerSweep : RunConfig where
  file := "co/maxclique/twitter_sampler_sweep.py"
  dir := "maxclique"
  model := "maxclique"
  sampler := "path_auxiliary"
  graphType := some "twitter"
  sweep := [
    [((.sampler, .name), [.str "randomwalk", .str "blockgibbs", .str "hammingball"]),
      ((.experiment, .log_every_steps), [.int 100])],
    [((.sampler, .name), [.str "dmala", .str "path_auxiliary"]), ((.experiment, .log_every_steps), [.int 100]),
      ((.sampler, .balancing_fn_type), [.str "SQRT"])],
    [((.sampler, .adaptive), [.bool false]), ((.sampler, .name), [.str "gwg"]),
      ((.experiment, .log_every_steps), [.int 100]), ((.sampler, .balancing_fn_type), [.str "SQRT"])],
    [((.sampler, .name), [.str "dlmc"]), ((.experiment, .log_every_steps), [.int 100]),
      ((.sampler, .balancing_fn_type), [.str "SQRT"]),
      ((.sampler, .solver), [.str "interpolate", .str "euler_forward"])]]

/-- `discs/run_configs/co/maxcut/ba_sampler_sweep.py`. -/
def swMaxcutBaSamplerSweep : RunConfig where
  file := "co/maxcut/ba_sampler_sweep.py"
  dir := "maxcut"
  model := "maxcut"
  sampler := "path_auxiliary"
  graphType := some "ba"
  sweep := [
    [((.sampler, .name), [.str "randomwalk", .str "blockgibbs", .str "hammingball"]),
      ((.model, .cfg_str), [.str "r-ba-4-n-1024-1100", .str "r-ba-4-n-512-600", .str "r-ba-4-n-256-300", .str "r-ba-4-n-128-150", .str "r-ba-4-n-64-75", .str "r-ba-4-n-32-40", .str "r-ba-4-n-16-20"]),
      ((.experiment, .log_every_steps), [.int 100]), ((.experiment, .chain_length), [.int 100000])],
    [((.sampler, .name), [.str "dmala", .str "path_auxiliary"]),
      ((.model, .cfg_str), [.str "r-ba-4-n-1024-1100", .str "r-ba-4-n-512-600", .str "r-ba-4-n-256-300", .str "r-ba-4-n-128-150", .str "r-ba-4-n-64-75", .str "r-ba-4-n-32-40", .str "r-ba-4-n-16-20"]),
      ((.experiment, .log_every_steps), [.int 100]), ((.sampler, .balancing_fn_type), [.str "SQRT"]),
      ((.experiment, .chain_length), [.int 100000])],
    [((.sampler, .name), [.str "gwg"]),
      ((.model, .cfg_str), [.str "r-ba-4-n-1024-1100", .str "r-ba-4-n-512-600", .str "r-ba-4-n-256-300", .str "r-ba-4-n-128-150", .str "r-ba-4-n-64-75", .str "r-ba-4-n-32-40", .str "r-ba-4-n-16-20"]),
      ((.experiment, .log_every_steps), [.int 100]), ((.sampler, .balancing_fn_type), [.str "SQRT"]),
      ((.sampler, .adaptive), [.bool false]), ((.experiment, .chain_length), [.int 100000])],
    [((.sampler, .name), [.str "dlmc"]),
      ((.model, .cfg_str), [.str "r-ba-4-n-1024-1100", .str "r-ba-4-n-512-600", .str "r-ba-4-n-256-300", .str "r-ba-4-n-128-150", .str "r-ba-4-n-64-75", .str "r-ba-4-n-32-40", .str "r-ba-4-n-16-20"]),
      ((.experiment, .log_every_steps), [.int 100]), ((.sampler, .balancing_fn_type), [.str "SQRT"]),
      ((.sampler, .solver), [.str "interpolate", .str "euler_forward"]), ((.experiment, .chain_length), [.int 100000])]]

/-- `discs/run_configs/co/maxcut/er_sampler_sweep.py`. -/
def swMaxcutErSamplerSweep : RunConfig where
  file := "co/maxcut/er_sampler_sweep.py"
  dir := "maxcut"
  model := "maxcut"
  sampler := "path_auxiliary"
  graphType := some "er"
  sweep := [
    [((.experiment, .chain_length), [.int 50000]),
      ((.sampler, .name), [.str "randomwalk", .str "blockgibbs", .str "hammingball"]),
      ((.model, .cfg_str), [.str "r-er-0.15-n-1024-1100", .str "r-er-0.15-n-512-600", .str "r-er-0.15-n-256-300"]),
      ((.experiment, .log_every_steps), [.int 100])],
    [((.experiment, .chain_length), [.int 50000]), ((.sampler, .name), [.str "dmala"]),
      ((.model, .cfg_str), [.str "r-er-0.15-n-1024-1100", .str "r-er-0.15-n-512-600", .str "r-er-0.15-n-256-300"]),
      ((.experiment, .log_every_steps), [.int 100]), ((.sampler, .balancing_fn_type), [.str "SQRT"])],
    [((.experiment, .chain_length), [.int 50000]), ((.sampler, .adaptive), [.bool false]),
      ((.sampler, .name), [.str "gwg"]),
      ((.model, .cfg_str), [.str "r-er-0.15-n-1024-1100", .str "r-er-0.15-n-512-600", .str "r-er-0.15-n-256-300"]),
      ((.experiment, .log_every_steps), [.int 100]), ((.sampler, .balancing_fn_type), [.str "SQRT"])],
    [((.experiment, .chain_length), [.int 50000]), ((.sampler, .name), [.str "dlmc"]),
      ((.model, .cfg_str), [.str "r-er-0.15-n-1024-1100", .str "r-er-0.15-n-512-600", .str "r-er-0.15-n-256-300"]),
      ((.experiment, .log_every_steps), [.int 100]), ((.sampler, .balancing_fn_type), [.str "SQRT"]),
      ((.sampler, .solver), [.str "interpolate", .str "euler_forward"])],
    [((.experiment, .chain_length), [.int 50000]), ((.sampler, .name), [.str "path_auxiliary"]),
      ((.sampler, .approx_with_grad), [.bool true]),
      ((.model, .cfg_str), [.str "r-er-0.15-n-1024-1100", .str "r-er-0.15-n-512-600", .str "r-er-0.15-n-256-300"]),
      ((.experiment, .log_every_steps), [.int 100]), ((.sampler, .balancing_fn_type), [.str "SQRT"])]]

/-- `discs/run_configs/co/maxcut/optsicom_sampler_sweep.py`. -/
def swMaxcutOptsicomSamplerSweep : RunConfig where
  file := "co/maxcut/optsicom_sampler_sweep.py"
  dir := "maxcut"
  model := "maxcut"
  sampler := "path_auxiliary"
  graphType := some "optsicom"
  sweep := [
    [((.sampler, .name), [.str "randomwalk", .str "blockgibbs", .str "hammingball"]),
      ((.model, .cfg_str), [.str "r-b"]), ((.experiment, .log_every_steps), [.int 100]),
      ((.experiment, .num_models), [.int 10]), ((.experiment, .batch_size), [.int 16])],
    [((.experiment, .num_models), [.int 10]), ((.experiment, .batch_size), [.int 16]),
      ((.sampler, .name), [.str "dmala", .str "path_auxiliary"]), ((.model, .cfg_str), [.str "r-b"]),
      ((.experiment, .log_every_steps), [.int 100]), ((.sampler, .balancing_fn_type), [.str "SQRT"])],
    [((.experiment, .num_models), [.int 10]), ((.experiment, .batch_size), [.int 16]),
      ((.sampler, .name), [.str "gwg"]), ((.model, .cfg_str), [.str "r-b"]),
      ((.experiment, .log_every_steps), [.int 100]), ((.sampler, .balancing_fn_type), [.str "SQRT"]),
      ((.sampler, .adaptive), [.bool false])],
    [((.experiment, .num_models), [.int 10]), ((.experiment, .batch_size), [.int 16]),
      ((.sampler, .name), [.str "dlmc"]), ((.model, .cfg_str), [.str "r-b"]),
      ((.experiment, .log_every_steps), [.int 100]), ((.sampler, .balancing_fn_type), [.str "SQRT"]),
      ((.sampler, .solver), [.str "interpolate", .str "euler_forward"])]]

/-- `discs/run_configs/co/mis/er_800_015_penalty.py`. -/
def swMisEr800015Penalty : RunConfig where
  file := "co/mis/er_800_015_penalty.py"
  dir := "mis"
  model := "mis"
  sampler := "path_auxiliary"
  graphType := some "ertest"
  sweep := [
    [((.experiment, .decay_rate), [.float (1 / 20)]), ((.experiment, .chain_length), [.int 50000]),
      ((.sampler, .name), [.str "randomwalk", .str "blockgibbs", .str "hammingball"]),
      ((.model, .cfg_str), [.str "r-800"]), ((.experiment, .log_every_steps), [.int 100]),
      ((.model, .penalty), [.float (1001 / 1000), .float (101 / 100), .float (11 / 10), .int 2])],
    [((.experiment, .decay_rate), [.float (1 / 20)]), ((.experiment, .chain_length), [.int 50000]),
      ((.sampler, .name), [.str "dmala", .str "path_auxiliary"]), ((.model, .cfg_str), [.str "r-800"]),
      ((.experiment, .log_every_steps), [.int 100]), ((.sampler, .balancing_fn_type), [.str "SQRT"]),
      ((.model, .penalty), [.float (1001 / 1000), .float (101 / 100), .float (11 / 10), .int 2])],
    [((.experiment, .decay_rate), [.float (1 / 20)]), ((.experiment, .chain_length), [.int 50000]),
      ((.sampler, .name), [.str "gwg"]), ((.model, .cfg_str), [.str "r-800"]),
      ((.experiment, .log_every_steps), [.int 100]), ((.sampler, .balancing_fn_type), [.str "SQRT"]),
      ((.sampler, .adaptive), [.bool false]),
      ((.model, .penalty), [.float (1001 / 1000), .float (101 / 100), .float (11 / 10), .int 2])],
    [((.experiment, .decay_rate), [.float (1 / 20)]), ((.experiment, .chain_length), [.int 50000]),
      ((.sampler, .name), [.str "dlmc"]), ((.model, .cfg_str), [.str "r-800"]),
      ((.experiment, .log_every_steps), [.int 100]), ((.sampler, .balancing_fn_type), [.str "SQRT"]),
      ((.sampler, .solver), [.str "interpolate", .str "euler_forward"]),
      ((.model, .penalty), [.float (1001 / 1000), .float (101 / 100), .float (11 / 10), .int 2])]]

/-- `discs/run_configs/co/mis/er_density_penalty.py`. -/
def swMisErDensityPenalty : RunConfig where
  file := "co/mis/er_density_penalty.py"
  dir := "mis"
  model := "mis"
  sampler := "path_auxiliary"
  graphType := some "er_density"
  sweep := [
    [((.experiment, .decay_rate), [.float (1 / 20)]), ((.experiment, .chain_length), [.int 50000]),
      ((.sampler, .name), [.str "randomwalk", .str "blockgibbs", .str "hammingball"]),
      ((.model, .cfg_str), [.str "r-0.05", .str "r-0.10", .str "r-0.20", .str "r-0.25"]),
      ((.experiment, .log_every_steps), [.int 100]),
      ((.model, .penalty), [.float (1001 / 1000), .float (101 / 100), .float (11 / 10), .int 2])],
    [((.experiment, .decay_rate), [.float (1 / 20)]), ((.experiment, .chain_length), [.int 50000]),
      ((.sampler, .name), [.str "dmala", .str "path_auxiliary"]),
      ((.model, .cfg_str), [.str "r-0.05", .str "r-0.10", .str "r-0.20", .str "r-0.25"]),
      ((.experiment, .log_every_steps), [.int 100]), ((.sampler, .balancing_fn_type), [.str "SQRT"]),
      ((.model, .penalty), [.float (1001 / 1000), .float (101 / 100), .float (11 / 10), .int 2])],
    [((.experiment, .decay_rate), [.float (1 / 20)]), ((.experiment, .chain_length), [.int 50000]),
      ((.sampler, .name), [.str "gwg"]),
      ((.model, .cfg_str), [.str "r-0.05", .str "r-0.10", .str "r-0.20", .str "r-0.25"]),
      ((.experiment, .log_every_steps), [.int 100]), ((.sampler, .balancing_fn_type), [.str "SQRT"]),
      ((.sampler, .adaptive), [.bool false]),
      ((.model, .penalty), [.float (1001 / 1000), .float (101 / 100), .float (11 / 10), .int 2])],
    [((.experiment, .decay_rate), [.float (1 / 20)]), ((.experiment, .chain_length), [.int 50000]),
      ((.sampler, .name), [.str "dlmc"]),
      ((.model, .cfg_str), [.str "r-0.05", .str "r-0.10", .str "r-0.20", .str "r-0.25"]),
      ((.experiment, .log_every_steps), [.int 100]), ((.sampler, .balancing_fn_type), [.str "SQRT"]),
      ((.sampler, .solver), [.str "interpolate", .str "euler_forward"]),
      ((.model, .penalty), [.float (1001 / 1000), .float (101 / 100), .float (11 / 10), .int 2])]]

/-- `discs/run_configs/co/mis/er_density_sampler_sweep.py`. -/
def swMisErDensitySamplerSweep : RunConfig where
  file := "co/mis/er_density_sampler_sweep.py"
  dir := "mis"
  model := "mis"
  sampler := "path_auxiliary"
  graphType := some "er_density"
  sweep := [
    [((.experiment, .decay_rate), [.float (1 / 20)]), ((.experiment, .chain_length), [.int 50000]),
      ((.sampler, .name), [.str "randomwalk", .str "blockgibbs", .str "hammingball"]),
      ((.model, .cfg_str), [.str "r-0.05", .str "r-0.10", .str "r-0.20", .str "r-0.25"]),
      ((.experiment, .log_every_steps), [.int 100])],
    [((.experiment, .decay_rate), [.float (1 / 20)]), ((.experiment, .chain_length), [.int 50000]),
      ((.sampler, .name), [.str "dmala", .str "path_auxiliary"]),
      ((.model, .cfg_str), [.str "r-0.05", .str "r-0.10", .str "r-0.20", .str "r-0.25"]),
      ((.experiment, .log_every_steps), [.int 100]), ((.sampler, .balancing_fn_type), [.str "SQRT"])],
    [((.experiment, .decay_rate), [.float (1 / 20)]), ((.experiment, .chain_length), [.int 50000]),
      ((.sampler, .name), [.str "gwg"]),
      ((.model, .cfg_str), [.str "r-0.05", .str "r-0.10", .str "r-0.20", .str "r-0.25"]),
      ((.experiment, .log_every_steps), [.int 100]), ((.sampler, .balancing_fn_type), [.str "SQRT"]),
      ((.sampler, .adaptive), [.bool false])],
    [((.experiment, .decay_rate), [.float (1 / 20)]), ((.experiment, .chain_length), [.int 50000]),
      ((.sampler, .name), [.str "dlmc"]),
      ((.model, .cfg_str), [.str "r-0.05", .str "r-0.10", .str "r-0.20", .str "r-0.25"]),
      ((.experiment, .log_every_steps), [.int 100]), ((.sampler, .balancing_fn_type), [.str "SQRT"]),
      ((.sampler, .solver), [.str "interpolate", .str "euler_forward"])]]

/-- `discs/run_configs/co/mis/ertest_sampler_sweep.py`. -/
def swMisErtestSamplerSweep : RunConfig where
  file := "co/mis/ertest_sampler_sweep.py"
  dir := "mis"
  model := "mis"
  sampler := "path_auxiliary"
  graphType := some "ertest"
  sweep := [
    [((.sampler, .name), [.str "randomwalk", .str "blockgibbs", .str "hammingball"]),
      ((.model, .cfg_str), [.str "r-10k", .str "r-800"]), ((.experiment, .log_every_steps), [.int 100])],
    [((.sampler, .name), [.str "dmala", .str "path_auxiliary"]), ((.model, .cfg_str), [.str "r-10k", .str "r-800"]),
      ((.experiment, .log_every_steps), [.int 100]), ((.sampler, .balancing_fn_type), [.str "SQRT"])],
    [((.sampler, .name), [.str "gwg"]), ((.model, .cfg_str), [.str "r-10k", .str "r-800"]),
      ((.experiment, .log_every_steps), [.int 100]), ((.sampler, .balancing_fn_type), [.str "SQRT"]),
      ((.sampler, .adaptive), [.bool false])],
    [((.sampler, .name), [.str "dlmc"]), ((.model, .cfg_str), [.str "r-10k", .str "r-800"]),
      ((.experiment, .log_every_steps), [.int 100]), ((.sampler, .balancing_fn_type), [.str "SQRT"]),
      ((.sampler, .solver), [.str "interpolate", .str "euler_forward"])]]

/-- `discs/run_configs/co/mis/satlib_sampler_sweep.py`. -/
def swMisSatlibSamplerSweep : RunConfig where
  file := "co/mis/satlib_sampler_sweep.py"
  dir := "mis"
  model := "mis"
  sampler := "path_auxiliary"
  graphType := some "satlib"
  sweep := [
    [((.sampler, .name), [.str "randomwalk", .str "blockgibbs", .str "hammingball"]),
      ((.experiment, .log_every_steps), [.int 100]), ((.experiment, .decay_rate), [.float (1 / 20)]),
      ((.experiment, .final_temperature), [.float (1 / 100000)]), ((.experiment, .init_temperature), [.int 1]),
      ((.experiment, .chain_length), [.int 500000])],
    [((.sampler, .name), [.str "dmala", .str "path_auxiliary"]), ((.experiment, .log_every_steps), [.int 100]),
      ((.experiment, .decay_rate), [.float (1 / 20)]), ((.experiment, .final_temperature), [.float (1 / 100000)]),
      ((.experiment, .init_temperature), [.int 1]), ((.experiment, .chain_length), [.int 500000]),
      ((.sampler, .balancing_fn_type), [.str "SQRT"])],
    [((.sampler, .adaptive), [.bool false]), ((.sampler, .name), [.str "gwg"]),
      ((.experiment, .log_every_steps), [.int 100]), ((.experiment, .decay_rate), [.float (1 / 20)]),
      ((.experiment, .final_temperature), [.float (1 / 100000)]), ((.experiment, .init_temperature), [.int 1]),
      ((.experiment, .chain_length), [.int 500000]), ((.sampler, .balancing_fn_type), [.str "SQRT"])],
    [((.sampler, .name), [.str "dlmc"]), ((.experiment, .log_every_steps), [.int 100]),
      ((.experiment, .decay_rate), [.float (1 / 20)]), ((.experiment, .final_temperature), [.float (1 / 100000)]),
      ((.experiment, .init_temperature), [.int 1]), ((.experiment, .chain_length), [.int 500000]),
      ((.sampler, .balancing_fn_type), [.str "SQRT"]),
      ((.sampler, .solver), [.str "interpolate", .str "euler_forward"])]]

/-- `discs/run_configs/co/normcut/alexnet.py`. -/
def swNormcutAlexnet : RunConfig where
  file := "co/normcut/alexnet.py"
  dir := "normcut"
  model := "normcut"
  sampler := "path_auxiliary"
  graphType := some "nets"
  sweep := [
    [((.experiment, .batch_size), [.int 32]), ((.experiment, .chain_length), [.int 500000]),
      ((.experiment, .decay_rate), [.float (1 / 20)]), ((.experiment, .init_temperature), [.int 5]),
      ((.sampler, .name), [.str "randomwalk", .str "blockgibbs", .str "hammingball"]),
      ((.model, .cfg_str), [.str "r-ALEXNET"]), ((.model, .stype), [.str "quad"]),
      ((.experiment, .log_every_steps), [.int 100])],
    [((.experiment, .batch_size), [.int 32]), ((.experiment, .chain_length), [.int 500000]),
      ((.experiment, .decay_rate), [.float (1 / 20)]), ((.experiment, .init_temperature), [.int 5]),
      ((.model, .cfg_str), [.str "r-ALEXNET"]), ((.sampler, .name), [.str "dmala"]),
      ((.model, .stype), [.str "quad"]), ((.experiment, .log_every_steps), [.int 100]),
      ((.sampler, .adaptive), [.bool true, .bool false])],
    [((.experiment, .batch_size), [.int 32]), ((.experiment, .chain_length), [.int 500000]),
      ((.experiment, .decay_rate), [.float (1 / 20)]), ((.experiment, .init_temperature), [.int 5]),
      ((.model, .cfg_str), [.str "r-ALEXNET"]), ((.sampler, .name), [.str "path_auxiliary"]),
      ((.model, .stype), [.str "quad"]), ((.experiment, .log_every_steps), [.int 100]),
      ((.sampler, .adaptive), [.bool true])],
    [((.experiment, .batch_size), [.int 32]), ((.experiment, .chain_length), [.int 500000]),
      ((.experiment, .decay_rate), [.float (1 / 20)]), ((.experiment, .init_temperature), [.int 5]),
      ((.model, .cfg_str), [.str "r-ALEXNET"]), ((.sampler, .name), [.str "path_auxiliary"]),
      ((.model, .stype), [.str "quad"]), ((.experiment, .log_every_steps), [.int 100]),
      ((.sampler, .adaptive), [.bool false]), ((.sampler, .num_flips), [.int 2])],
    [((.experiment, .batch_size), [.int 32]), ((.experiment, .chain_length), [.int 500000]),
      ((.experiment, .decay_rate), [.float (1 / 20)]), ((.experiment, .init_temperature), [.int 5]),
      ((.model, .cfg_str), [.str "r-ALEXNET"]), ((.sampler, .name), [.str "gwg"]), ((.model, .stype), [.str "quad"]),
      ((.experiment, .log_every_steps), [.int 100])],
    [((.experiment, .batch_size), [.int 32]), ((.experiment, .chain_length), [.int 500000]),
      ((.experiment, .decay_rate), [.float (1 / 20)]), ((.experiment, .init_temperature), [.int 5]),
      ((.model, .cfg_str), [.str "r-ALEXNET"]), ((.sampler, .name), [.str "dlmc"]), ((.model, .stype), [.str "quad"]),
      ((.experiment, .log_every_steps), [.int 100]), ((.sampler, .solver), [.str "interpolate"]),
      ((.sampler, .adaptive), [.bool false]), ((.sampler, .n), [.int 500])],
    [((.experiment, .batch_size), [.int 32]), ((.experiment, .chain_length), [.int 500000]),
      ((.experiment, .decay_rate), [.float (1 / 20)]), ((.experiment, .init_temperature), [.int 5]),
      ((.model, .cfg_str), [.str "r-ALEXNET"]), ((.sampler, .name), [.str "dlmc"]), ((.model, .stype), [.str "quad"]),
      ((.experiment, .log_every_steps), [.int 100]), ((.sampler, .solver), [.str "euler_forward"]),
      ((.sampler, .adaptive), [.bool false]), ((.sampler, .n), [.int 10000])],
    [((.experiment, .batch_size), [.int 32]), ((.experiment, .chain_length), [.int 500000]),
      ((.experiment, .decay_rate), [.float (1 / 20)]), ((.experiment, .init_temperature), [.int 5]),
      ((.model, .cfg_str), [.str "r-ALEXNET"]), ((.sampler, .name), [.str "dlmc"]), ((.model, .stype), [.str "quad"]),
      ((.experiment, .log_every_steps), [.int 100]),
      ((.sampler, .solver), [.str "interpolate", .str "euler_forward"]), ((.sampler, .adaptive), [.bool true])]]

/-- `discs/run_configs/co/normcut/gap_rand_sampler_sweep.py`. -/
def swNormcutGapRandSamplerSweep : RunConfig where
  file := "co/normcut/gap_rand_sampler_sweep.py"
  dir := "normcut"
  model := "normcut"
  sampler := "path_auxiliary"
  graphType := some "gap_rand"
  sweep := [
    [((.sampler, .name), [.str "randomwalk", .str "blockgibbs", .str "hammingball"]),
      ((.model, .cfg_str), [.str "r-INCEPTION", .str "r-VGG", .str "r-RESNET", .str "r-AlexNet", .str "r-MNIST", .str "r-BABELFISH", .str "r-NMT", .str "r-TRANSFORMER", .str "r-TTS"]),
      ((.model, .stype), [.str "quad", .str "span"]), ((.experiment, .log_every_steps), [.int 100])],
    [((.model, .cfg_str), [.str "r-INCEPTION", .str "r-VGG", .str "r-RESNET", .str "r-AlexNet", .str "r-MNIST", .str "r-BABELFISH", .str "r-NMT", .str "r-TRANSFORMER", .str "r-TTS"]),
      ((.sampler, .name), [.str "dmala", .str "path_auxiliary", .str "gwg", .str "dlmc"]),
      ((.model, .stype), [.str "quad", .str "span"]), ((.experiment, .log_every_steps), [.int 100]),
      ((.sampler, .balancing_fn_type), [.str "SQRT"])]]

/-- `discs/run_configs/co/normcut/inception.py`. -/
def swNormcutInception : RunConfig where
  file := "co/normcut/inception.py"
  dir := "normcut"
  model := "normcut"
  sampler := "path_auxiliary"
  graphType := some "nets"
  sweep := [
    [((.experiment, .batch_size), [.int 32]), ((.experiment, .chain_length), [.int 800000]),
      ((.experiment, .decay_rate), [.float (3 / 20)]),
      ((.sampler, .name), [.str "randomwalk", .str "blockgibbs", .str "hammingball"]),
      ((.model, .cfg_str), [.str "r-INCEPTION"]), ((.model, .stype), [.str "quad"]),
      ((.experiment, .log_every_steps), [.int 100])],
    [((.experiment, .batch_size), [.int 32]), ((.experiment, .chain_length), [.int 800000]),
      ((.experiment, .decay_rate), [.float (3 / 20)]), ((.model, .cfg_str), [.str "r-INCEPTION"]),
      ((.sampler, .name), [.str "dmala"]), ((.model, .stype), [.str "quad"]),
      ((.experiment, .log_every_steps), [.int 100]), ((.sampler, .adaptive), [.bool true, .bool false])],
    [((.experiment, .batch_size), [.int 32]), ((.experiment, .chain_length), [.int 800000]),
      ((.experiment, .decay_rate), [.float (3 / 20)]), ((.model, .cfg_str), [.str "r-INCEPTION"]),
      ((.sampler, .name), [.str "path_auxiliary"]), ((.model, .stype), [.str "quad"]),
      ((.experiment, .log_every_steps), [.int 100]), ((.sampler, .adaptive), [.bool true])],
    [((.experiment, .batch_size), [.int 32]), ((.experiment, .chain_length), [.int 800000]),
      ((.experiment, .decay_rate), [.float (3 / 20)]), ((.model, .cfg_str), [.str "r-INCEPTION"]),
      ((.sampler, .name), [.str "path_auxiliary"]), ((.model, .stype), [.str "quad"]),
      ((.experiment, .log_every_steps), [.int 100]), ((.sampler, .adaptive), [.bool false]),
      ((.sampler, .num_flips), [.int 2])],
    [((.experiment, .batch_size), [.int 32]), ((.experiment, .chain_length), [.int 800000]),
      ((.experiment, .decay_rate), [.float (3 / 20)]), ((.model, .cfg_str), [.str "r-INCEPTION"]),
      ((.sampler, .name), [.str "gwg"]), ((.model, .stype), [.str "quad"]),
      ((.experiment, .log_every_steps), [.int 100])],
    [((.experiment, .batch_size), [.int 32]), ((.experiment, .chain_length), [.int 800000]),
      ((.experiment, .decay_rate), [.float (3 / 20)]), ((.model, .cfg_str), [.str "r-INCEPTION"]),
      ((.sampler, .name), [.str "dlmc"]), ((.model, .stype), [.str "quad"]),
      ((.experiment, .log_every_steps), [.int 100]), ((.sampler, .solver), [.str "interpolate"]),
      ((.sampler, .adaptive), [.bool false]), ((.sampler, .n), [.int 500])],
    [((.experiment, .batch_size), [.int 32]), ((.experiment, .chain_length), [.int 800000]),
      ((.experiment, .decay_rate), [.float (3 / 20)]), ((.model, .cfg_str), [.str "r-INCEPTION"]),
      ((.sampler, .name), [.str "dlmc"]), ((.model, .stype), [.str "quad"]),
      ((.experiment, .log_every_steps), [.int 100]), ((.sampler, .solver), [.str "euler_forward"]),
      ((.sampler, .adaptive), [.bool false]), ((.sampler, .n), [.int 10000])],
    [((.experiment, .batch_size), [.int 32]), ((.experiment, .chain_length), [.int 800000]),
      ((.experiment, .decay_rate), [.float (3 / 20)]), ((.model, .cfg_str), [.str "r-INCEPTION"]),
      ((.sampler, .name), [.str "dlmc"]), ((.model, .stype), [.str "quad"]),
      ((.experiment, .log_every_steps), [.int 100]),
      ((.sampler, .solver), [.str "interpolate", .str "euler_forward"]), ((.sampler, .adaptive), [.bool true])]]

/-- `discs/run_configs/co/normcut/mnist.py`. -/
def swNormcutMnist : RunConfig where
  file := "co/normcut/mnist.py"
  dir := "normcut"
  model := "normcut"
  sampler := "path_auxiliary"
  graphType := some "nets"
  sweep := [
    [((.experiment, .batch_size), [.int 32]), ((.experiment, .chain_length), [.int 500000]),
      ((.experiment, .decay_rate), [.float (1 / 20)]), ((.experiment, .init_temperature), [.int 5]),
      ((.sampler, .name), [.str "randomwalk", .str "blockgibbs", .str "hammingball"]),
      ((.model, .cfg_str), [.str "r-MNIST"]), ((.model, .stype), [.str "quad"]),
      ((.experiment, .log_every_steps), [.int 100])],
    [((.experiment, .batch_size), [.int 32]), ((.experiment, .chain_length), [.int 500000]),
      ((.experiment, .decay_rate), [.float (1 / 20)]), ((.experiment, .init_temperature), [.int 5]),
      ((.model, .cfg_str), [.str "r-MNIST"]), ((.sampler, .name), [.str "dmala"]), ((.model, .stype), [.str "quad"]),
      ((.experiment, .log_every_steps), [.int 100]), ((.sampler, .adaptive), [.bool true, .bool false])],
    [((.experiment, .batch_size), [.int 32]), ((.experiment, .chain_length), [.int 500000]),
      ((.experiment, .decay_rate), [.float (1 / 20)]), ((.experiment, .init_temperature), [.int 5]),
      ((.model, .cfg_str), [.str "r-MNIST"]), ((.sampler, .name), [.str "path_auxiliary"]),
      ((.model, .stype), [.str "quad"]), ((.experiment, .log_every_steps), [.int 100]),
      ((.sampler, .adaptive), [.bool true])],
    [((.experiment, .batch_size), [.int 32]), ((.experiment, .chain_length), [.int 500000]),
      ((.experiment, .decay_rate), [.float (1 / 20)]), ((.experiment, .init_temperature), [.int 5]),
      ((.model, .cfg_str), [.str "r-MNIST"]), ((.sampler, .name), [.str "path_auxiliary"]),
      ((.model, .stype), [.str "quad"]), ((.experiment, .log_every_steps), [.int 100]),
      ((.sampler, .adaptive), [.bool false]), ((.sampler, .num_flips), [.int 2])],
    [((.experiment, .batch_size), [.int 32]), ((.experiment, .chain_length), [.int 500000]),
      ((.experiment, .decay_rate), [.float (1 / 20)]), ((.experiment, .init_temperature), [.int 5]),
      ((.model, .cfg_str), [.str "r-MNIST"]), ((.sampler, .name), [.str "gwg"]), ((.model, .stype), [.str "quad"]),
      ((.experiment, .log_every_steps), [.int 100])],
    [((.experiment, .batch_size), [.int 32]), ((.experiment, .chain_length), [.int 500000]),
      ((.experiment, .decay_rate), [.float (1 / 20)]), ((.experiment, .init_temperature), [.int 5]),
      ((.model, .cfg_str), [.str "r-MNIST"]), ((.sampler, .name), [.str "dlmc"]), ((.model, .stype), [.str "quad"]),
      ((.experiment, .log_every_steps), [.int 100]), ((.sampler, .solver), [.str "interpolate"]),
      ((.sampler, .adaptive), [.bool false]), ((.sampler, .n), [.int 500])],
    [((.experiment, .batch_size), [.int 32]), ((.experiment, .chain_length), [.int 500000]),
      ((.experiment, .decay_rate), [.float (1 / 20)]), ((.experiment, .init_temperature), [.int 5]),
      ((.model, .cfg_str), [.str "r-MNIST"]), ((.sampler, .name), [.str "dlmc"]), ((.model, .stype), [.str "quad"]),
      ((.experiment, .log_every_steps), [.int 100]), ((.sampler, .solver), [.str "euler_forward"]),
      ((.sampler, .adaptive), [.bool false]), ((.sampler, .n), [.int 10000])],
    [((.experiment, .batch_size), [.int 32]), ((.experiment, .chain_length), [.int 500000]),
      ((.experiment, .decay_rate), [.float (1 / 20)]), ((.experiment, .init_temperature), [.int 5]),
      ((.model, .cfg_str), [.str "r-MNIST"]), ((.sampler, .name), [.str "dlmc"]), ((.model, .stype), [.str "quad"]),
      ((.experiment, .log_every_steps), [.int 100]),
      ((.sampler, .solver), [.str "interpolate", .str "euler_forward"]), ((.sampler, .adaptive), [.bool true])]]

/-- `discs/run_configs/co/normcut/resnet.py`. -/
def swNormcutResnet : RunConfig where
  file := "co/normcut/resnet.py"
  dir := "normcut"
  model := "normcut"
  sampler := "path_auxiliary"
  graphType := some "nets"
  sweep := [
    [((.experiment, .batch_size), [.int 32]), ((.experiment, .chain_length), [.int 800000]),
      ((.experiment, .decay_rate), [.float (1 / 10)]),
      ((.sampler, .name), [.str "randomwalk", .str "blockgibbs", .str "hammingball"]),
      ((.model, .cfg_str), [.str "r-RESNET"]), ((.model, .stype), [.str "quad"]),
      ((.experiment, .log_every_steps), [.int 100])],
    [((.experiment, .batch_size), [.int 32]), ((.experiment, .chain_length), [.int 800000]),
      ((.experiment, .decay_rate), [.float (1 / 10)]), ((.model, .cfg_str), [.str "r-RESNET"]),
      ((.sampler, .name), [.str "dmala"]), ((.model, .stype), [.str "quad"]),
      ((.experiment, .log_every_steps), [.int 100]), ((.sampler, .adaptive), [.bool true, .bool false])],
    [((.experiment, .batch_size), [.int 32]), ((.experiment, .chain_length), [.int 800000]),
      ((.experiment, .decay_rate), [.float (1 / 10)]), ((.model, .cfg_str), [.str "r-RESNET"]),
      ((.sampler, .name), [.str "path_auxiliary"]), ((.model, .stype), [.str "quad"]),
      ((.experiment, .log_every_steps), [.int 100]), ((.sampler, .adaptive), [.bool true])],
    [((.experiment, .batch_size), [.int 32]), ((.experiment, .chain_length), [.int 800000]),
      ((.experiment, .decay_rate), [.float (1 / 10)]), ((.model, .cfg_str), [.str "r-RESNET"]),
      ((.sampler, .name), [.str "path_auxiliary"]), ((.model, .stype), [.str "quad"]),
      ((.experiment, .log_every_steps), [.int 100]), ((.sampler, .adaptive), [.bool false]),
      ((.sampler, .num_flips), [.int 2])],
    [((.experiment, .batch_size), [.int 32]), ((.experiment, .chain_length), [.int 800000]),
      ((.experiment, .decay_rate), [.float (1 / 10)]), ((.model, .cfg_str), [.str "r-RESNET"]),
      ((.sampler, .name), [.str "gwg"]), ((.model, .stype), [.str "quad"]),
      ((.experiment, .log_every_steps), [.int 100])],
    [((.experiment, .batch_size), [.int 32]), ((.experiment, .chain_length), [.int 800000]),
      ((.experiment, .decay_rate), [.float (1 / 10)]), ((.model, .cfg_str), [.str "r-RESNET"]),
      ((.sampler, .name), [.str "dlmc"]), ((.model, .stype), [.str "quad"]),
      ((.experiment, .log_every_steps), [.int 100]), ((.sampler, .solver), [.str "interpolate"]),
      ((.sampler, .adaptive), [.bool false]), ((.sampler, .n), [.int 500])],
    [((.experiment, .batch_size), [.int 32]), ((.experiment, .chain_length), [.int 800000]),
      ((.experiment, .decay_rate), [.float (1 / 10)]), ((.model, .cfg_str), [.str "r-RESNET"]),
      ((.sampler, .name), [.str "dlmc"]), ((.model, .stype), [.str "quad"]),
      ((.experiment, .log_every_steps), [.int 100]), ((.sampler, .solver), [.str "euler_forward"]),
      ((.sampler, .adaptive), [.bool false]), ((.sampler, .n), [.int 10000])],
    [((.experiment, .batch_size), [.int 32]), ((.experiment, .chain_length), [.int 800000]),
      ((.experiment, .decay_rate), [.float (1 / 10)]), ((.model, .cfg_str), [.str "r-RESNET"]),
      ((.sampler, .name), [.str "dlmc"]), ((.model, .stype), [.str "quad"]),
      ((.experiment, .log_every_steps), [.int 100]),
      ((.sampler, .solver), [.str "interpolate", .str "euler_forward"]), ((.sampler, .adaptive), [.bool true])]]

/-- `discs/run_configs/co/normcut/vgg.py`. -/
def swNormcutVgg : RunConfig where
  file := "co/normcut/vgg.py"
  dir := "normcut"
  model := "normcut"
  sampler := "path_auxiliary"
  graphType := some "nets"
  sweep := [
    [((.experiment, .batch_size), [.int 32]), ((.experiment, .chain_length), [.int 800000]),
      ((.experiment, .decay_rate), [.float (1 / 20)]), ((.experiment, .init_temperature), [.int 5]),
      ((.sampler, .name), [.str "randomwalk", .str "blockgibbs", .str "hammingball"]),
      ((.model, .cfg_str), [.str "r-VGG"]), ((.model, .stype), [.str "quad"]),
      ((.experiment, .log_every_steps), [.int 100])],
    [((.experiment, .batch_size), [.int 32]), ((.experiment, .chain_length), [.int 800000]),
      ((.experiment, .decay_rate), [.float (1 / 20)]), ((.experiment, .init_temperature), [.int 5]),
      ((.model, .cfg_str), [.str "r-VGG"]), ((.sampler, .name), [.str "dmala"]), ((.model, .stype), [.str "quad"]),
      ((.experiment, .log_every_steps), [.int 100]), ((.sampler, .adaptive), [.bool true, .bool false])],
    [((.experiment, .batch_size), [.int 32]), ((.experiment, .chain_length), [.int 800000]),
      ((.experiment, .decay_rate), [.float (1 / 20)]), ((.experiment, .init_temperature), [.int 5]),
      ((.model, .cfg_str), [.str "r-VGG"]), ((.sampler, .name), [.str "path_auxiliary"]),
      ((.model, .stype), [.str "quad"]), ((.experiment, .log_every_steps), [.int 100]),
      ((.sampler, .adaptive), [.bool true])],
    [((.experiment, .batch_size), [.int 32]), ((.experiment, .chain_length), [.int 800000]),
      ((.experiment, .decay_rate), [.float (1 / 20)]), ((.experiment, .init_temperature), [.int 5]),
      ((.model, .cfg_str), [.str "r-VGG"]), ((.sampler, .name), [.str "path_auxiliary"]),
      ((.model, .stype), [.str "quad"]), ((.experiment, .log_every_steps), [.int 100]),
      ((.sampler, .adaptive), [.bool false]), ((.sampler, .num_flips), [.int 2])],
    [((.experiment, .batch_size), [.int 32]), ((.experiment, .chain_length), [.int 800000]),
      ((.experiment, .decay_rate), [.float (1 / 20)]), ((.experiment, .init_temperature), [.int 5]),
      ((.model, .cfg_str), [.str "r-VGG"]), ((.sampler, .name), [.str "gwg"]), ((.model, .stype), [.str "quad"]),
      ((.experiment, .log_every_steps), [.int 100])],
    [((.experiment, .batch_size), [.int 32]), ((.experiment, .chain_length), [.int 800000]),
      ((.experiment, .decay_rate), [.float (1 / 20)]), ((.experiment, .init_temperature), [.int 5]),
      ((.model, .cfg_str), [.str "r-VGG"]), ((.sampler, .name), [.str "dlmc"]), ((.model, .stype), [.str "quad"]),
      ((.experiment, .log_every_steps), [.int 100]), ((.sampler, .solver), [.str "interpolate"]),
      ((.sampler, .adaptive), [.bool false]), ((.sampler, .n), [.int 500])],
    [((.experiment, .batch_size), [.int 32]), ((.experiment, .chain_length), [.int 800000]),
      ((.experiment, .decay_rate), [.float (1 / 20)]), ((.experiment, .init_temperature), [.int 5]),
      ((.model, .cfg_str), [.str "r-VGG"]), ((.sampler, .name), [.str "dlmc"]), ((.model, .stype), [.str "quad"]),
      ((.experiment, .log_every_steps), [.int 100]), ((.sampler, .solver), [.str "euler_forward"]),
      ((.sampler, .adaptive), [.bool false]), ((.sampler, .n), [.int 10000])],
    [((.experiment, .batch_size), [.int 32]), ((.experiment, .chain_length), [.int 800000]),
      ((.experiment, .decay_rate), [.float (1 / 20)]), ((.experiment, .init_temperature), [.int 5]),
      ((.model, .cfg_str), [.str "r-VGG"]), ((.sampler, .name), [.str "dlmc"]), ((.model, .stype), [.str "quad"]),
      ((.experiment, .log_every_steps), [.int 100]),
      ((.sampler, .solver), [.str "interpolate", .str "euler_forward"]), ((.sampler, .adaptive), [.bool true])]]

/-- `discs/run_configs/ebm/binray_ebm/logz.py`. -/
def swBinrayEbmLogz : RunConfig where
  file := "ebm/binray_ebm/logz.py"
  dir := "binray_ebm"
  model := "resnet"
  sampler := "path_auxiliary"
  graphType := none
  sweep := [
    [((.experiment, .name), [.str "EBM_Experiment"]), ((.experiment, .chain_length), [.int 10000]),
      ((.model, .data_path), [.str "/gcs/xcloud-shared/kgoshvadi/data/BINARY_EBM/caltech-64/", .str "/gcs/xcloud-shared/kgoshvadi/data/BINARY_EBM/dynamic_mnist-64/", .str "/gcs/xcloud-shared/kgoshvadi/data/BINARY_EBM/omniglot-64/"]),
      ((.sampler, .name), [.str "randomwalk", .str "blockgibbs", .str "hammingball"])],
    [((.experiment, .name), [.str "EBM_Experiment"]), ((.experiment, .chain_length), [.int 10000]),
      ((.model, .data_path), [.str "/gcs/xcloud-shared/kgoshvadi/data/BINARY_EBM/caltech-64/", .str "/gcs/xcloud-shared/kgoshvadi/data/BINARY_EBM/dynamic_mnist-64/", .str "/gcs/xcloud-shared/kgoshvadi/data/BINARY_EBM/omniglot-64/"]),
      ((.sampler, .name), [.str "path_auxiliary", .str "gwg", .str "dmala"]),
      ((.sampler, .balancing_fn_type), [.str "SQRT"])],
    [((.experiment, .name), [.str "EBM_Experiment"]), ((.experiment, .chain_length), [.int 10000]),
      ((.model, .data_path), [.str "/gcs/xcloud-shared/kgoshvadi/data/BINARY_EBM/caltech-64/", .str "/gcs/xcloud-shared/kgoshvadi/data/BINARY_EBM/dynamic_mnist-64/", .str "/gcs/xcloud-shared/kgoshvadi/data/BINARY_EBM/omniglot-64/"]),
      ((.sampler, .name), [.str "dlmc"]), ((.sampler, .balancing_fn_type), [.str "SQRT"]),
      ((.sampler, .solver), [.str "interpolate", .str "euler_forward"])]]

/-- `discs/run_configs/ebm/binray_ebm/sampler_sweep.py`. -/
def swBinrayEbmSamplerSweep : RunConfig where
  file := "ebm/binray_ebm/sampler_sweep.py"
  dir := "binray_ebm"
  model := "resnet"
  sampler := "path_auxiliary"
  graphType := none
  sweep := [
    [((.experiment, .chain_length), [.int 10000]), ((.experiment, .save_samples), [.bool true]),
      ((.experiment, .save_every_steps), [.int 1000]),
      ((.model, .data_path), [.str "/gcs/xcloud-shared/kgoshvadi/data/BINARY_EBM/caltech-64/", .str "/gcs/xcloud-shared/kgoshvadi/data/BINARY_EBM/dynamic_mnist-64/", .str "/gcs/xcloud-shared/kgoshvadi/data/BINARY_EBM/omniglot-64/"]),
      ((.sampler, .name), [.str "randomwalk", .str "blockgibbs", .str "hammingball"])],
    [((.experiment, .chain_length), [.int 10000]), ((.experiment, .save_samples), [.bool true]),
      ((.experiment, .save_every_steps), [.int 1000]),
      ((.model, .data_path), [.str "/gcs/xcloud-shared/kgoshvadi/data/BINARY_EBM/caltech-64/", .str "/gcs/xcloud-shared/kgoshvadi/data/BINARY_EBM/dynamic_mnist-64/", .str "/gcs/xcloud-shared/kgoshvadi/data/BINARY_EBM/omniglot-64/"]),
      ((.sampler, .name), [.str "path_auxiliary", .str "gwg", .str "dmala"]),
      ((.sampler, .balancing_fn_type), [.str "SQRT"])],
    [((.experiment, .chain_length), [.int 10000]), ((.experiment, .save_samples), [.bool true]),
      ((.experiment, .save_every_steps), [.int 1000]),
      ((.model, .data_path), [.str "/gcs/xcloud-shared/kgoshvadi/data/BINARY_EBM/caltech-64/", .str "/gcs/xcloud-shared/kgoshvadi/data/BINARY_EBM/dynamic_mnist-64/", .str "/gcs/xcloud-shared/kgoshvadi/data/BINARY_EBM/omniglot-64/"]),
      ((.sampler, .name), [.str "dlmc"]), ((.sampler, .balancing_fn_type), [.str "SQRT"]),
      ((.sampler, .solver), [.str "interpolate", .str "euler_forward"])]]

/-- `discs/run_configs/ebm/lm/base_bert_sampler_sweep.py`. -/
def swLmBaseBertSamplerSweep : RunConfig where
  file := "ebm/lm/base_bert_sampler_sweep.py"
  dir := "lm"
  model := "text_infilling"
  sampler := "path_auxiliary"
  graphType := none
  sweep := [
    [((.experiment, .chain_length), [.int 50]), ((.experiment, .use_topk), [.bool true]),
      ((.experiment, .num_same_resample), [.int 25]),
      ((.model, .data_root), [.str "/gcs/xcloud-shared/kgoshvadi/data/text_infilling_data/"]),
      ((.model, .bert_model), [.str "/gcs/xcloud-shared/kgoshvadi/data/text_infilling_models/bert-base-uncased/"]),
      ((.sampler, .name), [.str "randomwalk"])],
    [((.experiment, .chain_length), [.int 50]), ((.experiment, .use_topk), [.bool true]),
      ((.experiment, .num_same_resample), [.int 25]),
      ((.model, .data_root), [.str "/gcs/xcloud-shared/kgoshvadi/data/text_infilling_data/"]),
      ((.model, .bert_model), [.str "/gcs/xcloud-shared/kgoshvadi/data/text_infilling_models/bert-base-uncased/"]),
      ((.sampler, .adaptive), [.bool true, .bool false]), ((.sampler, .name), [.str "dmala"]),
      ((.sampler, .balancing_fn_type), [.str "SQRT", .str "RATIO"])],
    [((.experiment, .chain_length), [.int 50]), ((.experiment, .use_topk), [.bool true]),
      ((.experiment, .num_same_resample), [.int 25]),
      ((.model, .data_root), [.str "/gcs/xcloud-shared/kgoshvadi/data/text_infilling_data/"]),
      ((.model, .bert_model), [.str "/gcs/xcloud-shared/kgoshvadi/data/text_infilling_models/bert-base-uncased/"]),
      ((.sampler, .adaptive), [.bool true, .bool false]), ((.sampler, .name), [.str "path_auxiliary"]),
      ((.sampler, .balancing_fn_type), [.str "SQRT", .str "RATIO"])],
    [((.experiment, .chain_length), [.int 50]), ((.experiment, .use_topk), [.bool true]),
      ((.experiment, .num_same_resample), [.int 25]),
      ((.model, .data_root), [.str "/gcs/xcloud-shared/kgoshvadi/data/text_infilling_data/"]),
      ((.model, .bert_model), [.str "/gcs/xcloud-shared/kgoshvadi/data/text_infilling_models/bert-base-uncased/"]),
      ((.sampler, .name), [.str "gwg"]), ((.sampler, .adaptive), [.bool true]),
      ((.sampler, .balancing_fn_type), [.str "SQRT", .str "RATIO"])],
    [((.experiment, .chain_length), [.int 50]), ((.experiment, .use_topk), [.bool true]),
      ((.experiment, .num_same_resample), [.int 25]),
      ((.model, .data_root), [.str "/gcs/xcloud-shared/kgoshvadi/data/text_infilling_data/"]),
      ((.model, .bert_model), [.str "/gcs/xcloud-shared/kgoshvadi/data/text_infilling_models/bert-base-uncased/"]),
      ((.sampler, .name), [.str "dlmc"]), ((.sampler, .adaptive), [.bool true]),
      ((.sampler, .solver), [.str "interpolate", .str "euler_forward"]),
      ((.sampler, .balancing_fn_type), [.str "SQRT", .str "RATIO"])],
    [((.experiment, .chain_length), [.int 50]), ((.experiment, .use_topk), [.bool true]),
      ((.experiment, .num_same_resample), [.int 25]),
      ((.model, .data_root), [.str "/gcs/xcloud-shared/kgoshvadi/data/text_infilling_data/"]),
      ((.model, .bert_model), [.str "/gcs/xcloud-shared/kgoshvadi/data/text_infilling_models/bert-base-uncased/"]),
      ((.sampler, .name), [.str "dlmc"]), ((.sampler, .adaptive), [.bool false]),
      ((.sampler, .solver), [.str "interpolate"]), ((.sampler, .n), [.int 500]),
      ((.sampler, .balancing_fn_type), [.str "SQRT", .str "RATIO"])],
    [((.experiment, .chain_length), [.int 50]), ((.experiment, .use_topk), [.bool true]),
      ((.experiment, .num_same_resample), [.int 25]),
      ((.model, .data_root), [.str "/gcs/xcloud-shared/kgoshvadi/data/text_infilling_data/"]),
      ((.model, .bert_model), [.str "/gcs/xcloud-shared/kgoshvadi/data/text_infilling_models/bert-base-uncased/"]),
      ((.sampler, .name), [.str "dlmc"]), ((.sampler, .adaptive), [.bool false]),
      ((.sampler, .solver), [.str "euler_forward"]), ((.sampler, .balancing_fn_type), [.str "SQRT", .str "RATIO"]),
      ((.sampler, .n), [.int 10000])]]

/-- `discs/run_configs/ebm/lm/large_bert_sampler_sweep.py`. -/
def swLmLargeBertSamplerSweep : RunConfig where
  file := "ebm/lm/large_bert_sampler_sweep.py"
  dir := "lm"
  model := "text_infilling"
  sampler := "path_auxiliary"
  graphType := none
  sweep := [
    [((.experiment, .chain_length), [.int 50]), ((.experiment, .use_topk), [.bool true]),
      ((.experiment, .num_same_resample), [.int 25]),
      ((.model, .data_root), [.str "/gcs/xcloud-shared/kgoshvadi/data/text_infilling_data/"]),
      ((.model, .bert_model), [.str "/gcs/xcloud-shared/kgoshvadi/data/text_infilling_models/bert-large-uncased/"]),
      ((.sampler, .name), [.str "randomwalk"])],
    [((.experiment, .chain_length), [.int 50]), ((.experiment, .use_topk), [.bool true]),
      ((.experiment, .num_same_resample), [.int 25]),
      ((.model, .data_root), [.str "/gcs/xcloud-shared/kgoshvadi/data/text_infilling_data/"]),
      ((.model, .bert_model), [.str "/gcs/xcloud-shared/kgoshvadi/data/text_infilling_models/bert-large-uncased/"]),
      ((.sampler, .adaptive), [.bool true, .bool false]), ((.sampler, .name), [.str "dmala"])],
    [((.experiment, .chain_length), [.int 50]), ((.experiment, .use_topk), [.bool true]),
      ((.experiment, .num_same_resample), [.int 25]),
      ((.model, .data_root), [.str "/gcs/xcloud-shared/kgoshvadi/data/text_infilling_data/"]),
      ((.model, .bert_model), [.str "/gcs/xcloud-shared/kgoshvadi/data/text_infilling_models/bert-large-uncased/"]),
      ((.sampler, .adaptive), [.bool true]), ((.sampler, .name), [.str "path_auxiliary"])],
    [((.experiment, .chain_length), [.int 50]), ((.experiment, .use_topk), [.bool true]),
      ((.experiment, .num_same_resample), [.int 25]),
      ((.model, .data_root), [.str "/gcs/xcloud-shared/kgoshvadi/data/text_infilling_data/"]),
      ((.model, .bert_model), [.str "/gcs/xcloud-shared/kgoshvadi/data/text_infilling_models/bert-large-uncased/"]),
      ((.sampler, .adaptive), [.bool false]), ((.sampler, .name), [.str "path_auxiliary"]),
      ((.sampler, .num_flips), [.int 2])],
    [((.experiment, .chain_length), [.int 50]), ((.experiment, .use_topk), [.bool true]),
      ((.experiment, .num_same_resample), [.int 25]),
      ((.model, .data_root), [.str "/gcs/xcloud-shared/kgoshvadi/data/text_infilling_data/"]),
      ((.model, .bert_model), [.str "/gcs/xcloud-shared/kgoshvadi/data/text_infilling_models/bert-large-uncased/"]),
      ((.sampler, .name), [.str "dlmc", .str "gwg"]), ((.sampler, .adaptive), [.bool true])],
    [((.experiment, .chain_length), [.int 50]), ((.experiment, .use_topk), [.bool true]),
      ((.experiment, .num_same_resample), [.int 25]),
      ((.model, .data_root), [.str "/gcs/xcloud-shared/kgoshvadi/data/text_infilling_data/"]),
      ((.model, .bert_model), [.str "/gcs/xcloud-shared/kgoshvadi/data/text_infilling_models/bert-large-uncased/"]),
      ((.sampler, .name), [.str "dlmc"]), ((.sampler, .adaptive), [.bool false]),
      ((.sampler, .solver), [.str "interpolate"]), ((.sampler, .n), [.int 500])],
    [((.experiment, .chain_length), [.int 50]), ((.experiment, .use_topk), [.bool true]),
      ((.experiment, .num_same_resample), [.int 25]),
      ((.model, .data_root), [.str "/gcs/xcloud-shared/kgoshvadi/data/text_infilling_data/"]),
      ((.model, .bert_model), [.str "/gcs/xcloud-shared/kgoshvadi/data/text_infilling_models/bert-large-uncased/"]),
      ((.sampler, .name), [.str "dlmc"]), ((.sampler, .adaptive), [.bool false]),
      ((.sampler, .solver), [.str "euler_forward"]), ((.sampler, .n), [.int 10000])]]

/-- `discs/run_configs/ebm/rbm/sampler_sweep.py`. -/
def swRbmSamplerSweep : RunConfig where
  file := "ebm/rbm/sampler_sweep.py"
  dir := "rbm"
  model := "rbm"
  sampler := "path_auxiliary"
  graphType := none
  sweep := [
    [((.experiment, .save_samples), [.bool true]), ((.model, .num_categories), [.int 2]),
      ((.model, .data_path), [.str "/gcs/xcloud-shared/kgoshvadi/data/RBM_DATA/mnist-2-200/", .str "/gcs/xcloud-shared/kgoshvadi/data/RBM_DATA/mnist-2-25/"]),
      ((.sampler, .name), [.str "randomwalk", .str "blockgibbs", .str "hammingball"])],
    [((.experiment, .save_samples), [.bool true]), ((.model, .num_categories), [.int 2]),
      ((.model, .data_path), [.str "/gcs/xcloud-shared/kgoshvadi/data/RBM_DATA/mnist-2-200/", .str "/gcs/xcloud-shared/kgoshvadi/data/RBM_DATA/mnist-2-25/"]),
      ((.sampler, .name), [.str "path_auxiliary", .str "gwg", .str "dmala"]),
      ((.sampler, .balancing_fn_type), [.str "SQRT", .str "RATIO"])],
    [((.experiment, .save_samples), [.bool true]), ((.model, .num_categories), [.int 2]),
      ((.model, .data_path), [.str "/gcs/xcloud-shared/kgoshvadi/data/RBM_DATA/mnist-2-200/", .str "/gcs/xcloud-shared/kgoshvadi/data/RBM_DATA/mnist-2-25/"]),
      ((.sampler, .name), [.str "dlmc"]), ((.sampler, .balancing_fn_type), [.str "SQRT", .str "RATIO"]),
      ((.sampler, .solver), [.str "interpolate", .str "euler_forward"])],
    [((.experiment, .save_samples), [.bool true]), ((.model, .num_categories), [.int 4]),
      ((.model, .data_path), [.str "/gcs/xcloud-shared/kgoshvadi/data/RBM_DATA/fashion_mnist-4-50/"]),
      ((.sampler, .name), [.str "randomwalk", .str "blockgibbs", .str "hammingball"])],
    [((.experiment, .save_samples), [.bool true]), ((.model, .num_categories), [.int 4]),
      ((.model, .data_path), [.str "/gcs/xcloud-shared/kgoshvadi/data/RBM_DATA/fashion_mnist-4-50/"]),
      ((.sampler, .name), [.str "path_auxiliary", .str "gwg", .str "dmala"]),
      ((.sampler, .balancing_fn_type), [.str "SQRT", .str "RATIO"])],
    [((.experiment, .save_samples), [.bool true]), ((.model, .num_categories), [.int 4]),
      ((.model, .data_path), [.str "/gcs/xcloud-shared/kgoshvadi/data/RBM_DATA/fashion_mnist-4-50/"]),
      ((.sampler, .name), [.str "dlmc"]), ((.sampler, .balancing_fn_type), [.str "SQRT", .str "RATIO"]),
      ((.sampler, .solver), [.str "interpolate", .str "euler_forward"])],
    [((.experiment, .save_samples), [.bool true]), ((.model, .num_categories), [.int 8]),
      ((.model, .data_path), [.str "/gcs/xcloud-shared/kgoshvadi/data/RBM_DATA/fashion_mnist-8-50/"]),
      ((.sampler, .name), [.str "randomwalk", .str "blockgibbs", .str "hammingball"])],
    [((.experiment, .save_samples), [.bool true]), ((.model, .num_categories), [.int 8]),
      ((.model, .data_path), [.str "/gcs/xcloud-shared/kgoshvadi/data/RBM_DATA/fashion_mnist-8-50/"]),
      ((.sampler, .name), [.str "path_auxiliary", .str "gwg", .str "dmala"]),
      ((.sampler, .balancing_fn_type), [.str "SQRT", .str "RATIO"])],
    [((.experiment, .save_samples), [.bool true]), ((.model, .num_categories), [.int 8]),
      ((.model, .data_path), [.str "/gcs/xcloud-shared/kgoshvadi/data/RBM_DATA/fashion_mnist-8-50/"]),
      ((.sampler, .name), [.str "dlmc"]), ((.sampler, .balancing_fn_type), [.str "SQRT", .str "RATIO"]),
      ((.sampler, .solver), [.str "interpolate", .str "euler_forward"])]]

/-- All files of `discs/run_configs`. -/
def shippedSweeps : List RunConfig :=
  [swBernoulliChainLengthSweep, swBernoulliEstimationError, swBernoulliLbfSweep, swBernoulliModelConfigSweep,
   swBernoulliShapeSweep, swCategoricalChainLengthSweep, swCategoricalLbfSweep, swCategoricalModelConfigSweep,
   swCategoricalNumCategoriesSweep, swCategoricalShapeSweep, swFhmmBinarySweep, swFhmmCategSweep,
   swIsingChianLengthSweep, swIsingLamdasweepBigger, swIsingLamdasweepSmall, swIsingLbfSweep,
   swIsingModelConfigSweep, swIsingShapeSweep, swPottsChainLengthSweep, swPottsLbfSweep,
   swPottsModelConfigSweep, swPottsNumCategoriesSweep, swPottsShapeSweep, swMaxcliqueRbSamplerSweep,
   swMaxcliqueTwitterSamplerSweep, swMaxcutBaSamplerSweep, swMaxcutErSamplerSweep, swMaxcutOptsicomSamplerSweep,
   swMisEr800015Penalty, swMisErDensityPenalty, swMisErDensitySamplerSweep, swMisErtestSamplerSweep,
   swMisSatlibSamplerSweep, swNormcutAlexnet, swNormcutGapRandSamplerSweep, swNormcutInception, swNormcutMnist,
   swNormcutResnet, swNormcutVgg, swBinrayEbmLogz, swBinrayEbmSamplerSweep, swLmBaseBertSamplerSweep,
   swLmLargeBertSamplerSweep, swRbmSamplerSweep]

end Discs
