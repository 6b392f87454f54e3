import Verif.Spec.Keys

/-!
# Model: which random keys the code consumes

Every function below takes the key (or the integer seed) the modelled function is given and returns
the list of keys that its calls into `jax.random` consume, in program order.  A call of
`jax.random.uniform`, `bernoulli`, `categorical`, `normal`, `randint`, `choice`, `shuffle` consumes
its key once; what those library functions do with it internally is not modelled.  Keys are never
compared by their bits: a key is its derivation history.
-/

namespace Discs

open Spec

/-- `jax.random.PRNGKey(s)`. -/
def prngKey (s : ℕ) : Key := ⟨s, []⟩

/-- `jax.random.split(k, n)[i]`. -/
def splitKey (k : Key) (n i : ℕ) : Key := ⟨k.seed, k.path ++ [.split n i]⟩

/-- `jax.random.fold_in(k, d)`. -/
def foldKey (k : Key) (d : ℕ) : Key := ⟨k.seed, k.path ++ [.fold d]⟩

/-! ## One `step` of each sampler -/

/-- `GibbsSampler.step` (`samplers/gibbs.py:31-60`): the categorical draw (lines 46-56) consumes the
key it is given. -/
def gibbsKeys (k : Key) : List Key := [k]

/-- `BlockGibbsSampler.step` (`samplers/blockgibbs.py:39-71`): one categorical draw, line 68. -/
def blockGibbsKeys (k : Key) : List Key := [k]

/-- `RBMBlockGibbsSampler.step` (`samplers/blockgibbs.py:81-85`, `models/rbm.py`): `split` at line 82,
one half for the hidden units, the other for the visible ones. -/
def rbmBlockGibbsKeys (k : Key) : List Key := [splitKey k 2 0, splitKey k 2 1]

/-- `RandomWalkSampler.step` (`samplers/randomwalk.py:26-49`): `rng_new_sample, rng_acceptance` are
split off at line 28, the first is split again for the positions and the new values (lines 38-48),
the second drives the acceptance (line 33). -/
def randomWalkKeys (k : Key) : List Key :=
  [splitKey (splitKey k 2 0) 2 0, splitKey (splitKey k 2 0) 2 1, splitKey k 2 1]

/-- `LocallyBalancedSampler.step` (`samplers/locallybalanced.py:65-77`): the key is used for the only
draw, line 72. -/
def lbKeys (k : Key) : List Key := [k]

/-- `step` of GWG (`samplers/gwg.py:26`), DMALA (`samplers/dmala.py:88`), DLMC (`samplers/dlmc.py:80`)
and the path auxiliary samplers (`samplers/path_auxiliary.py:19`): the key is split into one for the
proposal and one for the acceptance (`math_util.mh_step`). -/
def proposeAcceptKeys (propose : Key → List Key) (k : Key) : List Key :=
  propose (splitKey k 2 0) ++ [splitKey k 2 1]

/-- A proposal that makes one draw with the key it is given: `BinaryGWGSampler` and
`CategoricalGWGSampler.sample_from_proposal` (`samplers/gwg.py:65-77`, `145-163`), `DMALA` and
`DLMC` (`samplers/dmala.py:130-153`, `samplers/dlmc.py:134-175`), the path auxiliary sampler with two
categories (`samplers/path_auxiliary.py:106-108`). -/
def oneDraw (k : Key) : List Key := [k]

/-- `math_util.multinomial` with replacement and a number of draws that is not constant
(`common/math_util.py:94-116`): each round splits the running key, consumes the first half and
carries the second on.  `rounds` is the number of rounds of the `while_loop`. -/
def roundKeys : ℕ → Key → List Key
  | 0, _ => []
  | r + 1, k => splitKey k 2 0 :: roundKeys r (splitKey k 2 1)

/-- `BinaryGWGSampler`, `CategoricalGWGSampler`, `BinaryDMALA`, … : one draw and one acceptance. -/
def gwgKeys (k : Key) : List Key := proposeAcceptKeys oneDraw k

/-- `AdaptiveGWGSampler` (`samplers/gwg.py:108-122`). -/
def gwgAdaptiveKeys (rounds : ℕ) (k : Key) : List Key := proposeAcceptKeys (roundKeys rounds) k

/-- `PAFSNoReplacement.proposal` with more than two categories (`samplers/path_auxiliary.py:90-130`):
the positions are drawn with `rng` (line 106), then `rng, _ = split(rng)` (lines 112 and 125) and the
values are drawn with the new `rng`. -/
def pafsCategProposalKeys (k : Key) : List Key := [k, splitKey k 2 0]

/-- `PAFSNoReplacement.step` with more than two categories. -/
def pafsCategKeys (k : Key) : List Key := proposeAcceptKeys pafsCategProposalKeys k

/-- `HammingBallSampler.step` (`samplers/hammingball.py:53-62, 70-123`) on a batch of `B` rows: the
radius; in `compute_u` the new values and one index per row; then the loop over the rows. -/
def hammingBallKeys (B : ℕ) (k : Key) : List Key :=
  [splitKey k 3 0] ++
    ([splitKey (splitKey k 3 1) 2 1] ++
      (List.range B).map (fun b => splitKey (splitKey (splitKey k 3 1) 2 0) B b)) ++
    roundKeys B (splitKey k 3 2)

/-- The samplers an experiment can be configured with. -/
inductive SamplerKind where
  | gibbs | blockGibbs | rbmBlockGibbs | randomWalk | locallyBalanced
  | gwg | gwgAdaptive | dmala | dlmc | pafsBinary | pafsCategorical | hammingBall
  deriving DecidableEq, Repr

/-- The keys one `step` of the sampler consumes on a batch of `B` rows; `rounds` is the number of
rounds of the `while_loop` in the adaptive GWG proposal. -/
def samplerKeys (B rounds : ℕ) : SamplerKind → Key → List Key
  | .gibbs => gibbsKeys
  | .blockGibbs => blockGibbsKeys
  | .rbmBlockGibbs => rbmBlockGibbsKeys
  | .randomWalk => randomWalkKeys
  | .locallyBalanced => lbKeys
  | .gwg => gwgKeys
  | .gwgAdaptive => gwgAdaptiveKeys rounds
  | .dmala => proposeAcceptKeys oneDraw
  | .dlmc => proposeAcceptKeys oneDraw
  | .pafsBinary => proposeAcceptKeys oneDraw
  | .pafsCategorical => pafsCategKeys
  | .hammingBall => hammingBallKeys B

/-! ## Models -/

/-- `make_init_params` of the Ising, Potts, Bernoulli and categorical models (`models/ising.py:26`,
`models/potts.py:26-34`, `models/bernoulli.py:16-20`, `models/categorical.py:18-22`): one draw. -/
def oneDrawParamKeys (k : Key) : List Key := [k]

/-- `make_init_params` of the CO and text models, which read their parameters from data
(`models/maxcut.py:17`, `models/mis.py:17`, `models/maxclique.py:17`, `models/normcut.py:26-31`,
`models/text_infilling.py:53`): no draw. -/
def dataParamKeys (_k : Key) : List Key := []

/-- `make_init_params` of the RBM and of the residual network (`models/rbm.py:128-133`,
`models/resnet.py:104-109`): one half for a dummy sample, one for the network.  What flax derives
from the latter is not modelled. -/
def netParamKeys (k : Key) : List Key := [splitKey k 2 1, splitKey k 2 0]

/-- `BinaryFHMM.sample_X` and `CategFHMM.sample_X` (`models/fhmm.py:51-58`, `132-145`) for `r` rows
after the first: every row consumes the running key and then replaces it by one half of its split. -/
def fhmmChainKeys : ℕ → Key → List Key
  | 0, k => [k]
  | r + 1, k => k :: fhmmChainKeys r (splitKey k 2 0)

/-- `BinaryFHMM.make_init_params` (`models/fhmm.py:38-49`) for chains of length `L`. -/
def fhmmParamKeys (L : ℕ) (k : Key) : List Key :=
  fhmmChainKeys (L - 1) (splitKey k 4 0) ++ [splitKey k 4 1, splitKey k 4 2, splitKey k 4 3]

/-- `CategFHMM.make_init_params` (`models/fhmm.py:113-130`): `rng1` is consumed for `alpha` at line
116 and handed to `sample_X` at line 121. -/
def cfhmmParamKeys (L : ℕ) (k : Key) : List Key :=
  splitKey k 4 0 :: fhmmParamKeys L k

/-- `get_init_samples` of every model except NormCut (for instance `models/ising.py:38-43`): one
draw for the whole batch. -/
def initKeys (_n : ℕ) (k : Key) : List Key := [k]

/-- `Normcut.get_init_samples` (`models/normcut.py:33-43`): one key per sample, split in one for the
free nodes and one for the shuffle. -/
def normcutInitKeys (n : ℕ) (k : Key) : List Key :=
  (List.range n).flatMap fun i => [splitKey (splitKey k n i) 2 0, splitKey (splitKey k n i) 2 1]

/-! ## Experiments -/

/-- `Experiment._initialize_model_and_sampler` (`experiment/sampling.py:34-46`): parameters (one call
with `num_models` keys, taken here to consume `params` of each), initial samples.  No sampler draws
in `make_init_state`. -/
def experimentInitKeys (numModels numSamples : ℕ) (params : Key → List Key)
    (init : ℕ → Key → List Key) (k : Key) : List Key :=
  (List.range numModels).flatMap (fun j => params (splitKey (splitKey k 3 0) numModels j)) ++
    init numSamples (splitKey k 3 1)

/-- The step loop shared by the sampling, text and CO experiments (`experiment/sampling.py:242-268`,
`432-451`, `556-607`): `rng = fold_in(rng, step)`, then one key for each of the `n = prod(bshape)`
sampler calls.  `steps` is the list of step numbers.  Returns the keys consumed and the key carried
out of the loop. -/
def loopKeys (n : ℕ) (step : Key → List Key) : List ℕ → Key → List Key × Key
  | [], k => ([], k)
  | s :: rest, k =>
    let k' := foldKey k s
    let r := loopKeys n step rest k'
    ((List.range n).flatMap (fun i => step (splitKey k' n i)) ++ r.1, r.2)

/-- The step numbers of a run, `range(1, chain_length + 1)`. -/
def stepNumbers (L : ℕ) : List ℕ := List.range' 1 L

/-- `CO_Experiment`: `preprocess` and `_compute_chain` for one batch of instances
(`experiment/sampling.py:166-184`, `545-607`).  The key given to the initialisation is the key the
loop starts from. -/
def coRunKeys (seed numModels numSamples n L : ℕ) (params : Key → List Key)
    (init : ℕ → Key → List Key) (step : Key → List Key) : List Key :=
  experimentInitKeys numModels numSamples params init (prngKey seed) ++
    (loopKeys n step (stepNumbers L) (prngKey seed)).1

/-- The resampling loop of `Text_Infilling_Experiment._get_chains_and_evaluations`
(`experiment/sampling.py:389-395`): `r` runs of `L` steps, the last key of one run being the first of
the next. -/
def textLoopKeys (n L : ℕ) (step : Key → List Key) : ℕ → Key → List Key
  | 0, _ => []
  | r + 1, k =>
    let o := loopKeys n step (stepNumbers L) k
    o.1 ++ textLoopKeys n L step r o.2

/-- One sentence of the text experiment. -/
def textRunKeys (seed resamples n L : ℕ) (params : Key → List Key) (init : ℕ → Key → List Key)
    (step : Key → List Key) : List Key :=
  experimentInitKeys 1 1 params init (prngKey seed) ++
    textLoopKeys n L step resamples (prngKey seed)

/-- `Sampling_Experiment._compute_chain` (`experiment/sampling.py:209-293`) without the
initialisation: `x0_ess` (lines 228-229), `selected_chains` (232-233), the loop. -/
def samplingChainKeys (n L : ℕ) (init : ℕ → Key → List Key) (step : Key → List Key) (k : Key) :
    List Key :=
  init 1 (splitKey k 2 0) ++ [prngKey 10] ++ (loopKeys n step (stepNumbers L) (prngKey 10)).1

/-- `Sampling_Experiment`: initialisation and chain. -/
def samplingRunKeys (seed numSamples n L : ℕ) (params : Key → List Key)
    (init : ℕ → Key → List Key) (step : Key → List Key) : List Key :=
  experimentInitKeys 1 numSamples params init (prngKey seed) ++
    samplingChainKeys n L init step (prngKey seed)

/-- The key `preprocess` is called with, as a function of the argument `rnd_key` of
`_get_chains_and_evaluations` (`experiment/sampling.py:186-192`, `376-381`): the literal `0`. -/
def preprocessSeed (_rndKey : ℕ) : ℕ := 0

/-- `CO_Experiment.get_results` (`experiment/sampling.py:481-484`): one run for every batch of
instances the data generator delivers. -/
def coResultKeys (batches numModels numSamples n L : ℕ) (params : Key → List Key)
    (init : ℕ → Key → List Key) (step : Key → List Key) : List Key :=
  (List.replicate batches ()).flatMap fun _ =>
    coRunKeys (preprocessSeed 0) numModels numSamples n L params init step

/-- `Text_Infilling_Experiment.get_results` (`experiment/sampling.py:352-366`): sentence `i` is run with
`rnd_key=i`. -/
def textResultKeys (sents resamples n L : ℕ) (params : Key → List Key) (init : ℕ → Key → List Key)
    (step : Key → List Key) : List Key :=
  (List.range sents).flatMap fun i => textRunKeys (preprocessSeed i) resamples n L params init step

/-- `EBM_Experiment._compute_chain` without parallelism (`experiment/sampling.py:746-762`): the
folded key itself is given to the sampler and is folded again in the next step. -/
def ebmLoopKeys (step : Key → List Key) : List ℕ → Key → List Key
  | [], _ => []
  | s :: rest, k => step (foldKey k s) ++ ebmLoopKeys step rest (foldKey k s)

/-- `EBM_Experiment` without parallelism: `preprocess` and `_compute_chain`
(`experiment/sampling.py:685-693`, `707-762`). -/
def ebmRunKeys (seed numSamples L : ℕ) (params : Key → List Key) (init : ℕ → Key → List Key)
    (step : Key → List Key) : List Key :=
  params (splitKey (prngKey seed) 3 0) ++ init numSamples (splitKey (prngKey seed) 3 1) ++
    ebmLoopKeys step (stepNumbers L) (prngKey seed)

/-- `EBM_Experiment._compute_chain` on `ndev` devices: line 761 splits the folded key. -/
def ebmParallelRunKeys (seed numSamples ndev L : ℕ) (params : Key → List Key)
    (init : ℕ → Key → List Key) (step : Key → List Key) : List Key :=
  params (splitKey (prngKey seed) 3 0) ++ init numSamples (splitKey (prngKey seed) 3 1) ++
    (loopKeys ndev step (stepNumbers L) (prngKey seed)).1

/-! ## Training -/

/-- `batch_processing` (`learning/rbm/main_rbm_training.py:74-86`,
`learning/binary_ebm/main_binary_training.py:58-77`): for every micro step the key is folded and
sharded over the devices. -/
def microKeys (ndev pcd : ℕ) (step : Key → List Key) (k : Key) : List Key :=
  (loopKeys ndev step (List.range pcd) k).1

/-- `Trainer.train_loop` (`learning/train.py:163-173`): the process key is folded with the step
number and split in the next process key and the batch key.  The keys handed to the loss are not
consumed (both trainers delete them). -/
def trainLoopKeys (ndev pcd : ℕ) (step : Key → List Key) : List ℕ → Key → List Key
  | [], _ => []
  | s :: rest, k =>
    microKeys ndev pcd step (splitKey (foldKey k s) 2 1) ++
      trainLoopKeys ndev pcd step rest (splitKey (foldKey k s) 2 0)

/-- `Trainer.init_states` with `create_sharded_sampler_state` (`learning/train.py:107-115`,
`common/utils.py:127-134`). -/
def trainInitKeys (numSamples : ℕ) (params : Key → List Key) (init : ℕ → Key → List Key) (k : Key) :
    List Key :=
  params (splitKey k 2 0) ++ init numSamples (splitKey (splitKey k 2 1) 2 0)

/-- What process `p` consumes in `main` (`learning/rbm/main_rbm_training.py:102-116`,
`learning/train.py:154`): `global_key, init_key = split(PRNGKey(seed))`, initialisation with the
second, training with the first folded with the process index. -/
def trainProcessKeys (seed ndev pcd init0 total : ℕ) (step : Key → List Key) (p : ℕ) : List Key :=
  trainLoopKeys ndev pcd step (List.range' (init0 + 1) (total - init0))
    (foldKey (splitKey (prngKey seed) 2 0) p)

/-- The initialisation every process performs. -/
def trainSetupKeys (seed numSamples : ℕ) (params : Key → List Key) (init : ℕ → Key → List Key) :
    List Key :=
  trainInitKeys numSamples params init (splitKey (prngKey seed) 2 1)

/-- Everything `P` processes consume in `main`. -/
def trainAllKeys (P seed numSamples ndev pcd init0 total : ℕ) (params : Key → List Key)
    (init : ℕ → Key → List Key) (step : Key → List Key) : List Key :=
  (List.range P).flatMap fun p =>
    trainSetupKeys seed numSamples params init ++
      trainProcessKeys seed ndev pcd init0 total step p

/-- `utils.RngGen` (`common/utils.py:109-124`): `advance(c)` adds `c` to the counter and folds the
counter into the base key.  The list of the keys delivered for a list of increments. -/
def rngGenKeys (base : Key) : ℕ → List ℕ → List Key
  | _, [] => []
  | cnt, c :: cs => foldKey base (cnt + c) :: rngGenKeys base (cnt + c) cs

end Discs
