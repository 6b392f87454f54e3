# Formal model of google-research/discs: design

## What is built

`/verif/lean` is a Lean 4 (4.33.0, Mathlib) project.

| directory | content |
|---|---|
| `Verif/Model/*` | the code of `/repo/discs`, function by function; every definition cites file and lines |
| `Verif/Spec/*` | what the properties mean (reversible kernel, independent set, cut weight, ...), written without the model's helpers |
| `Verif/Lemmas/*` | helper lemmas |
| `Verif/Props/*` | the property theorems, one file per area, each with a concrete instance meeting its hypotheses |

`MANIFEST.json` maps every property of `properties.jsonl` to theorem names.
`seeded/LOG.jsonl` records the mutation attempts (a realistic bug put in a scratch copy of the model, which theorems then fail). Later entries were made with failing proofs stubbed in the scratch copy, so that the build goes on past the first failure; `failed` then lists every declaration whose proof breaks, and `claimed_theorems_lost` the theorems of MANIFEST.json that rest on one of them. Older entries that stopped at a helper lemma were repeated in this way. A listed failure says that the proof no longer goes through; that the claim itself became false was judged by reading the edit, not proved. Where an edit survived, the entry is kept with the theorems added because of it in `tightened`; its `failed` list is that of the repeated run. Edits that leave every claim true have an empty `failed` list and say so in `note`.

## How the code is modelled

* **Numbers.** Floating point is modelled by exact real numbers (`ℝ`). Rounding, overflow and `inf` are not modelled, except where the code's
  behaviour on them matters: there the model carries an explicit `NaN`/`-inf` case (step-size adaptation, masked log-probabilities). Integer arrays
  use `ℤ`/`ℕ`, Python `%` is Euclidean modulo, int-typed scatter truncates toward zero.
* **Tensors.** A batch of flattened samples is `Fin B → Fin D → ℤ`. Reshapes between `(B, *shape)` and `(B, D)` are row-major bijections and are
  left out, except where the reshape itself is the property (device layout).
* **Model evaluation.** `model.forward` is a parameter `(Fin D → ℤ) → ℝ` applied to each row of the batch. The repo's own models are modelled separately.
* **Randomness.** Each step function takes its random draws as an explicit argument, so it is a deterministic function of
  (state, sample, draws). The law of each draw is written next to it (categorical = softmax of logits, Bernoulli, uniform integer, uniform real) and
  is trusted: `jax.random` itself is not modelled. The transition kernel is then *defined* as the sum over draws of probability times the
  indicator that the step function lands on the target state.
* **JAX indexing.** Out-of-bounds scatter updates are dropped, out-of-bounds gathers clamp, index arrays broadcast. These rules are
  modelled where reachable (block Gibbs at the end of the sample, Hamming ball, text-infilling mask, categorical GWG).
* **Exceptions** are values of an error type.

## Trusted base

* Lean's kernel, and the axioms `propext`, `Classical.choice`, `Quot.sound` only. No own axioms, `sorry`, `native_decide`, `bv_decide`.
* The reading of the Python code recorded in the `Model` files, and the semantics of JAX, NumPy, networkx and optax primitives stated there.
* The laws of random draws listed above.

## Property plan

| id | property | plan |
|---|---|---|
| C01 | Gibbs step preserves the target | Model gibbs.py step with explicit draw; kernel = softmax-weighted sum; prove reversibility, closure, stochasticity, then induction over steps. |
| C02 | Gibbs visits coordinates cyclically, touches one coordinate per step and counts calls exactly | State machine; induction over steps. |
| C03 | Random-walk Metropolis preserves the target | Generic path Metropolis-Hastings theorem (involution on (state, draw)); symmetric proposal lemma for random-walk. Acceptance law from C13. |
| C04 | Adaptive radius stays a legal number of flips | Invariant over transitions of the radius, for all acceptance sequences. |
| C05 | Every sampler advances its step counter by one per step | State machine per sampler. Expected false for random-walk (never increments): prove the negation, keep the true part as _partial. |
| C06 | Block Gibbs preserves the target, also for blocks that run past the end | Block step with dropped out-of-range updates; multiplicity argument. |
| C07 | Block enumeration is complete and call counting matches it | Enumeration list: nodup, complete, length. |
| C08 | Block schedule reaches every coordinate | Arithmetic of multiples of block_size mod dim. |
| C09 | RBM block Gibbs preserves the marginal the model reports | Sum over hidden units; symmetric form of the two-stage kernel. |
| C10 | Hamming-ball sampler preserves the target | Expected false (radius logits are counts, not log counts). Prove exact condition, a concrete counterexample, and the true special case. |
| C11 | Hamming-ball candidates are exactly the ball | Candidate list equals ball as a Finset, nodup, count. |
| C12 | Balancing functions are locally balanced in both scales | Real identities for the four functions, error branch for other names. |
| C13 | Acceptance test accepts with the requested probability | Lebesgue measure of the accepting noise set. |
| C14 | MH selection is per chain and never invents a state | Definition-level row theorem over batches. |
| C15 | Binary Gibbs-with-gradient preserves the target for any number of flips | Path MH with draw = index sequence; flips of a set are an involution. |
| C16 | Adaptive Gibbs-with-gradient preserves the target at a given radius | As C15 with counts. |
| C17 | Categorical Gibbs-with-gradient preserves the target (single chain) | Path MH with draw = (site, value); reverse index is the old value. |
| C18 | Parallel chains do not influence one another | Row-locality theorem per sampler; expected false for categorical GWG: witness. |
| C19 | Path-auxiliary sampler preserves the target (binary, fixed number of flips) | Path MH with draw = ordered distinct indices; reverse = reversed list. |
| C20 | Path-auxiliary sampler preserves the target (adaptive) | As C19, mask/threshold form; -1e18 read as -inf. |
| C21 | Path-auxiliary sampler preserves the target (categorical, fixed number of flips) | Expected false (value log-probability missing forward): witness and condition. |
| C22 | Without-replacement log-likelihood is the sequential-draw probability | Telescoping of partial sums; induction over length for normalisation. |
| C23 | Counting multinomial draws exactly the requested number | Loop invariant of the while loop. |
| C24 | Sampling without replacement returns distinct indices, best first | Order statistics of an injective score vector. |
| C25 | DMALA preserves the target at a fixed step size | Path MH with perturbed proposal likelihood for the 1e-32 guard; exact for categorical. |
| C26 | DLMC preserves the target at a fixed step size | As C25 with the DLMC proposal. |
| C27 | DLMC flip probabilities are probabilities below equilibrium | Real analysis of nu(1-exp(-tau w/nu)). |
| C28 | Adaptive step size of DMALA/DLMC stays finite | Option-valued (NaN) adaptation state; expected false: reachable NaN; partial invariant. |
| C29 | Adaptation starts from the step size that was used | Expected false: state's log_tau is ignored at step 0 but used by the update; witness, exact formula. |
| C30 | One-hot encoding round-trips | argmax of one-hot. |
| C31 | Bernoulli model reports its true mean and variance | Product-form sums over {0,1}^n. |
| C32 | Gradient scores are exact for multilinear models | deriv of forward along a coordinate vs flip difference. |
| C33 | Ising energy counts every lattice edge once | Message-passing form equals edge sum on H x W grid. `Props/Disc.lean`: the disc of positive field covers half of the lattice (counting lattice points). |
| C34 | Ising energy does not depend on the sample's number type | Integer scatter truncation; expected false: witness; partial for integer couplings. |
| C35 | Potts energy counts agreeing neighbours | As C33 with one-hot. |
| C36 | FHMM hidden-chain prior is normalised | Normalisation by induction over the chain; row sums of the categorical matrix: expected false. |
| C37 | RBM forward is the exact log-marginal | Sum over hidden configurations = product. |
| C38 | Optimising the MIS energy solves maximum independent set | Removal argument for violated edges (induction). |
| C39 | Optimising the max-clique energy solves maximum clique | Complement argument. |
| C40 | MaxCut score is the weight of the cut | Edge sums. |
| C41 | Neighbourhood log-ratios equal true differences of log-likelihood | Flip difference of edge sums; MIS and NormCut with padding expected false: witness. |
| C42 | CO score is independent of temperature | Algebra. |
| C43 | Graph batches cover every instance exactly once on every process layout | List model of the generator; counting of batches. |
| C44 | Edge arrays represent the graph exactly under padding | List model. |
| C45 | SAT instances are encoded faithfully as independent-set graphs | Gadget proof both directions. |
| C46 | Config strings round-trip | List-of-char model of split/join. |
| C47 | A run performs exactly chain_length sampler steps | Counting loop iterations. |
| C48 | Reported best solution is the best one logged, with its sample | Running maximum invariant. |
| C49 | Scores are attributed to the instance they belong to | Row-major index arithmetic; expected false for 1 < models < devices: witness. |
| C50 | Results of all instances are saved | File store model; expected false with more than one batch: witness; partial for one batch. |
| C51 | Annealing temperature is positive, non-increasing and bounded below | optax schedules as real functions. |
| C52 | ESS is normalised by what was actually run | Expected false unless ratio 1/2: exact condition. |
| C53 | Annealed importance weights are unbiased | Path sum telescoping by induction over the number of temperatures. |
| C54 | Exponential moving average stays in the convex hull | Convex combination by induction. |
| C55 | Replay buffer updates only what was sampled | List/array update model. |
| C56 | Plain locally-balanced sampler: what its jump chain leaves invariant | Fibre argument over the drawn site. |
| C57 | Plain locally-balanced step runs only with a complete neighbourhood interface | Decision logic of the step. |
| C58 | DMALA proposals have the advertised odds | Real identities. |
| C59 | A step changes at most the announced number of sites | Hamming distance of the row theorem of the MH selection. |
| C60 | The categorical FHMM scores every sample of a batch | Shape decision modelled explicitly; expected false for equal sizes. |
| C61 | Normalised-cut energy is the normalised cut | Edge sums per category; penalties as square sums. |
| C62 | Max-clique gradient scores are shifted by a constant | Derivative of the relaxed energy. |
| C63 | One-hot gradient scores are exact for Potts and Categorical | Multilinearity. |
| C64 | All instances of a loader have arrays of one size | Maximum over the scanned list. |
| C65 | Relabelling a connected component is an isomorphism | Relabelling map injective on the component. |
| C66 | The burn-in ratio only decides what is recorded | Two runs factor through the same trajectory. |
| C67 | Persistent chains are written back to the buffer entry they came from | Row-major reshape bijection and scatter. |
| C68 | Data-parallel gradient is the full-batch gradient | Double sum. |
| C69 | Warm-up learning rate rises to the configured rate and then falls | optax schedules as real functions. |
| C70 | Training batches split the data without repetition | List model of tf.data batching with drop_remainder. |
| C71 | Initial image distribution is non-degenerate; random keys do not repeat | Clip; counter invariant. |
| C72 | Samplers converge to the target from every start | Doeblin minorisation: one step (or one sweep) gives every state at least a fixed fraction of a common law; L1 contraction. The offset of the acceptance test is bounded separately, as distance between the real and the ideal kernel. |
| C73 | A sampler with a fixed number of flips reaches every state and forgets its start | False: parity of the number of ones is an eigenfunction of the kernel. Exact condition by walks plus one self-loop (`PathMH.ergodic_iff`). |
| C74 | The FHMM target is the posterior of the states given the observations | Mathlib's normal distribution as specification, for generated observations and for the energy. |
| C75 | A batch of chains is a batch of independent chains | Joint law of the batch from the batch step functions with all draws together (`Spec/Product.lean`), factorised with chain-locality; products of kernels iterate and preserve products of targets. Expected false for Hamming ball (shared radius). |
| C76 | Gumbel perturbation and sorting draws without replacement | Race of `u ^ (1/p)` by iterated integrals over the unit cube (`lmarginal`), induction over the drawn list; then refinement of the path-auxiliary step from noise to ordered draws. |
| C77 | Random keys are consumed once | Keys as derivation histories (`Spec/Keys.lean`); the consumed keys are pairwise incomparable in the prefix order. Induction over the loops. |
| C78 | Offline normalised-cut scores agree with the graph | Graph as edge list (`Spec.UnitGraph`, `Spec.degree`); sums over the adjacency matrix become sums over edges by induction over the list. |
| C79 | Bernoulli evaluator measures distance to the true moments | Exact draws as a product distribution (`Spec.meanIID`); unbiasedness and `variance / n` by expanding squares; windows of the mixing curve by induction on `range`. |
| C80 | n-gram statistics of generated text | Phrases as infixes of sentences (`Spec.Occurs`, `Spec.occurrences`); `Counter` modelled as its update loop and verified by induction. |
| C81 | text energy is the pseudo-log-likelihood | BERT is an arbitrary function from rows to logits; `Spec.maskedCond` is the conditional law with a given row at the position. |
| C82 | infilling data set | Loop over lines refined to `filter`/`take`/`withoutFirst`; `decode` refined to `Spec.fillIn`. An empty corpus raises (its first line is printed); `createInfill_ok_iff` says exactly when the data set is made. |
| C83 | sentences reported | Stable sort of a dictionary with distinct prefixed keys; `jit` modelled by which arguments it accepts. |
| C84 | precedence of configurations; sweeps | Sections as partial maps; `Spec.firstWith` lists the sources in order of precedence; sweeps refined to membership of choice lists. `Model/TypedMerge.lean` is the same merge with the type checks of `ml_collections`; `Props/TypedMerge.lean` relates the two and shows that they agree on the shipped files. |
| C85 | results are grouped and none is lost | Loop invariant over the experiments (`ClusterInv`): partition, ascending, first match; tables by induction on the cluster. `Props/ShippedLabels.lean`: the clusters of the shipped sweeps do not depend on the order of the folders. |
| C86 | folder names round-trip | `splitOn`/`intercalate` inverse, `parseItems` by induction. |
| C87 | averages along a run | Mean squared error by induction over the length of the run, the covariance of steps i and j from the convergence theorems started at i; Chebyshev. |
| C88 | adaptive samplers keep the target while adapting | Joint process of sample and state (`adaptiveExpect`); exact two-step law on a model that looks at one site. |
| C89 | gradient-based proposals have the advertised law | Softmax of the log weights rewritten with C12 and the exact scores of C32, C63. |
| C90 | averages along an adaptive run | False: Poisson's equation of the process (radius, site) on two sites, where the radius takes 6 (GWG, path-auxiliary) or 12 (random walk) values. |
| C91 | training gradient | Fréchet derivatives of loss and negative log-likelihood; expectation over the joint law of the chains; minorisation of RBM block Gibbs for the bias. |
| C92 | training loop | List of events (update, log, plot, save) by induction over the loop; loader as a partial function. |
| C93 | PyTorch checkpoint conversion | Injectivity of the renaming on standard names; loop invariant on the set of keys still to be written; index forms of the transpositions. |
| C94 | tiling of images | Row-major index arithmetic of reshape, transpose, reshape and trim. |
| C95 | image data sets | Python slices and Fortran-order reshape as index functions; permutations for shuffles. |
| C96 | labels | Step-by-step effect of `process_keys` on name and keys; unique readability of the label. `Model/JobNames.lean` (the text of swept values, floats included) and `Props/ShippedLabels.lean`: in the shipped sweeps no two jobs are confused. |
| C97 | bars at their ticks | Zip and merge sort of folders; characterisation of the padded row. `Props/Ticks.lean`: ticks are `int(float(text))` of the text in the folder name; exact for integers, cut off for fractions (the lambdaa and penalty sweeps collapse onto one or two ticks). `Props/TickFigure.lean`: a complete sweep is drawn iff its values have different ticks. |
| C98 | heights of bars | Round trip of NumPy's print format through `extract_floats`. |
| C99 | curves over steps and time | From `co_trajectory` (C48). |
| C100 | the infilling network is BERT on the completed sentence | Embedding, attention, layers and head as functions over the reals; equality with the network on token ids; Fréchet differentiability. |
| C101 | converted checkpoints give PyTorch's energies | Relation between channels-last and channels-first arrays, preserved by every layer; table of names checked by kernel evaluation. |
| C102 | effective sample size | Closed formula with the first negative lag; range by bounding a banded quadratic form; invariances; two families of chains refuting that a high value means mixing. |
| C103 | acceptance noise of finite precision | Kernels with noise on a grid; each row is within 2/M of the ideal row, because the step is a threshold function of the noise; perturbation of the run bounds and of the Doeblin bound; a two-state chain solved exactly. |
| C104 | categorical draws from noise of finite precision | The draw as the first maximum of perturbed logits; along each noise coordinate the result changes at most once, so rounding one coordinate at a time costs 2/M each (`gridLaw_close`); the ideal law from the Gumbel race (C76); bounds on the values of the noise for what is never drawn. |
| C105 | graph loader classes | Choice of class against a longest-prefix specification; files as a sorted filtered listing, invariant under permutation; yields and scanned sizes per class; `nx.Graph` as insertion-ordered adjacency, its edge list shown complete and free of repetition. |
| C106 | `get_init_samples`, start of a run | Laws of the initial samples as push-forwards of ideal draws; `Spec/Start.lean` defines the law of a run with a random start; contraction of the distance and persistence of ratio bounds under invariant kernels. |
| C107 | single precision | `Spec/Float32.lean` (24-bit numbers, rounding to nearest, sums in any order); `Model/Float32.lean` repeats the energies of Bernoulli, MaxCut, MIS and MaxClique, the acceptance test and the random-walk step with every operation rounded; `Lemmas/NearMH.lean`: Metropolis–Hastings steps whose test is shifted by at most `η`. |
| C108 | single precision, locally balanced samplers | `Model/Float32LB.lean`: log acceptance ratio, log-probabilities of flips, gathered indices and one-hot draws with every operation rounded, over arbitrary computed proposal tables; `Lemmas/NearMHLaw.lean`: Metropolis–Hastings steps whose draws also have a slightly different law. |
| C109 | annealed runs | `Model/Anneal.lean`, `Model/AnnealGibbs.lean`, `Model/AnnealGWG.lean`: kernels of the steps of `CO_Experiment._compute_chain` along a temperature schedule, and the schedules of the shipped configurations; `Spec/Anneal.lean`: optima, Boltzmann weights, probabilities of trajectories. |
| C110 | sampler from a configuration | `Model/Build.lean`: the nine `build_sampler` functions and constructors over a record of optional configuration keys, the shipped sampler configurations, and the transition probabilities of a built sampler (`SamplerClass.kernel`), which dispatches to the kernels of the other claims. |
| C111 | which law a model and a sampler keep | `Model/BuildModel.lean`: what the samplers see of each model (`ModelIface`): `forward` on the integer state, value and gradient of `get_value_and_grad`, exact log-ratios. Gradients are partial derivatives of the real-valued `forward`. |
| C112 | graph configuration to batches | `Model/GraphConfig.lean`: the ten `get_config(model_config)` functions of the graph problems, the loader each selects, its sizes, the shapes of the padded arrays and whether `tree_map(jnp.stack)` accepts a batch. A graph is the pair of its numbers of nodes and edges; files are not modelled. |
| C113 | log Z with the swept samplers | The loop of C53 (`aisLoop`) with the sampler steps of C88: `Spec/PathMean.lean` has the expectation over a whole run in which the model changes from step to step and the state of the sampler is carried along. One chain. |
| C114 | the adaptive random walk goes on exploring | The step of C03/C88 (`rwMove`) with the path expectation of `Spec/PathMean.lean`; energies may change from step to step. `Lemmas/Trap.lean` reduces the expectation over a run to a recursion on radii. For batches (`Model/RWBatch.lean`, `Spec/DrawPath.lean`) the acceptance noise is a parameter: the bounds hold for every noise. |
| C115 | a long search visits every sample | `pafsAnneal` (`Model/AnnealPAFS.lean`), `gwgAnneal`; `Spec.avoid` is the probability that a run has not visited a set. Adaptive GWG: `pathExpect` of `gwgMove`; `Lemmas/AdaptiveHits.lean` for any run that accepts or rejects and whose next state is known before the test. |
| C116 | a long combinatorial run reports the optimum | `Model/AnnealBatch.lean` (steps of a batch of chains), `coChain` (C48) over the trajectory of the batch; `shortfall` is the probability that the reported best is below a given sample, `Spec.missAt` that no logged step shows a set. Adaptive GWG on a batch: `Spec.batchExpect` of `gwgBatchMove` (draws and noise of the chains independent given the shared state), `adaptiveShortfall`. |
| C117 | a launched job runs with the values of its sweep | `Model/Launcher.lean` (`make_job`, configuration flags with typed overrides, `get_main_config`), `Model/ShippedFiles.lean` (all configuration files and the 44 sweeps with 1632 jobs, written out as data by a script from the text of the files; claims about all shipped jobs are decided by the kernel for one folder and carried over to all folders by `launch_agree`). |
| C118 | a shipped job fits its devices and reports all its instances | `Model/Devices.lean` (`num_gpus` of the launcher, `parallel`, `_prepare_data` for the evaluators other than `co_eval`; the layout of graphs is that of C49, the results file that of C50, the loader that of C43). The number of local devices is taken to be the number asked for. |
| C119 | the adaptive path-auxiliary sampler goes on exploring | `pafsBatchRun` (`Model/PathAuxRun.lean`): a run of the adaptive sampler with the order of the drawn sites and the acceptance draws of every step given, so a theorem holds for every outcome of the random numbers. |
| C120 | the BLEU numbers of the text evaluation measure similarity | `Model/Bleu.lean`: `corpus_bleu`, `modified_precision`, `closest_ref_length`, `brevity_penalty` and smoothing method 0 of nltk 3.8.1 (the version in `requirements.txt`), written from the library's documentation, over the reals; `Spec/Bleu.lean` has the score in terms of occurrences of phrases. |
| C121 | the plot of estimation errors shows the errors of the runs | `Model/EstimationError.lean`: arrays as shape and row-major entries with `[0]`, `reshape`, replication and broadcasting; choice of the saved chains, files at the end of `_compute_chain`, `plot_estimation_error.py` from the files to the points and labels. Parsing of folder names is left out; labels start from keys and texts. |
| C122 | the plot over temperatures shows every run at its temperature | `Model/TempPlot.lean`: `plot_ising_temp.py` from folder names and cells of `results.csv` to the points of the curves; `float` is a parameter. The flag `key` has its default. The order of the folders is a hypothesis (blocks of equal `lambdaa`; the script sorts by it). Colours, labels of curves and axes are not modelled. |
| C123 | the picture of samples shows every sampler's images | `Model/EbmGrid.lean`: `plot_ebm.py` from the sorted folders to the cells, a cell being a file and two labels; the images that `dump_samples` leaves. Pixels are not modelled. |
| C124 | the figure of `log Z` estimates shows every run | `Model/LogzPlot.lean`: `plot_ais.py` from folders and arrays of `logz.pkl` to the points of the curves and the names of the files. The flag `key` has its default. Colours, legends and `plt.show` are not modelled; in folder names the launcher's shortening of `/gcs` paths is taken as done. |
| C125 | a trained model is sampled as it was trained | `Model/LoadModel.lean`: what the training programs and the conversion leave in a folder, `DeepEBM.load_params_configs`, the constructors of RBM and image models. Parameters are an arbitrary type (the network of the image models is a parameter of the model, the RBM that of `Model/RBM.lean`); pickle and yaml are taken to give back what was written. |
| C126 | the table of normalised cuts shows what every run found | `Model/NormCutTable.lean`: the loop of `normcut_evaluator.main`, its `process_keys`, and what `save_co_resuts` leaves for it. The CSV is the list of its lines; `pickle` gives back what was written; the columns are real numbers. |
| C127 | the step size DMALA and DLMC choose proposes n changes per chain | `dmalaReset`, `dlmcReset` (`Model/DMALA.lean`, `Model/DLMC.lean`) and the batch kernels of `Model/BatchKernel.lean`; `Spec.batchHops` counts changed sites, `Spec.refreshes` names the steps that refresh the normaliser. |
| C128 | no training update moves a parameter by more than ten learning rates | `buildOptimizer`, `optStep`, `optRun` (`Model/Optimizer.lean`): clipping, Adam, weight decay and learning rate of `optax` written out; invariant of the two averages over all gradient histories. |
| C129 | `gen_connected` returns connected graphs of the asked size, or `None` | `genConnected` (`Model/GenConnected.lean`): weights, twenty attempts, components by breadth first search, relabelling; the draws are inputs. Finding: twenty sparse draws give `None` without an exception (`gen_connected_gives_up`). |
| C130 | the reported acceptance rate is the probability that a chain takes its proposal | `Props/Reported.lean`, for the steps of all samplers; found by wrong programs that reported an unclipped or constant rate and broke no theorem. |
| C131 | runs keep their results apart | `Model/JobFolder.lean`: title, shortened paths and folders of the launcher, results by folder, `--run_local`, options of the launcher passed on to the jobs. `Props/JobFolder.lean`. Refuted for local runs, which share one folder per model, and for options of the launcher, which every job refuses. `config_flags` is taken to refuse overrides of sections and lists (its table of parsers has neither). |
| C132 | maximising a launched job solves its problem | `Model/ModelSettings.lean`: the penalty read by MIS and MaxClique, the attributes of NormCut. `Props/LaunchedProblem.lean`: largest independent sets in all shipped jobs. Refuted for maximum clique, whose shipped penalty is exactly one (`maxclique/rb.py:20`, `twitter.py:19`): a node joined to all but one member of a largest clique can be added without loss; and for normalised cut, whose shipped penalties are positive, so that cut edges plus a charge for unequal groups are minimised. |

## Findings: properties that are false of the code

Each has a refutation theorem with a concrete witness and, where part of the property holds, `_partial` theorems.

* **C05** The random walk never increments `steps` (`rw_steps_stuck`); the plain locally-balanced sampler returns a state without `steps`
  (`lb_steps_dropped`).
* **C10** Hamming ball: the radius is drawn with logits `[1, m]` instead of log-counts, so the target is not preserved for blocks of two or more sites.
* **C18** Categorical GWG adds up the log-probabilities of *all* chains' indices in every chain's acceptance ratio (`cgwg_not_chainLocal`).
  Adaptive DMALA/DLMC compute their first step size from the batch mean (`dmala_not_chainLocal`).
* **C21** Categorical path-auxiliary sampler with a fixed number of flips: the forward log-likelihood omits the value log-probabilities.
* **C28** Adaptive DMALA/DLMC: the step size can become NaN, after which no chain moves.
* **C29** Adaptive DMALA/DLMC: the first update starts from `log_tau = 0` of the initial state, not from the step size that was used.
* **C56, C57** The plain locally-balanced sampler has no acceptance test (its stationary law is tilted by the neighbour weight), works with
  MaxCut only, and returns a pair which the experiment loop cannot unpack.
* **C34** Ising `forward` on integer samples: the neighbour messages are accumulated with `jnp.zeros_like(x)`-style integer arrays, so non-integer
  couplings are truncated; the energy depends on the dtype of the sample. True for integer couplings.
* **C36** Categorical FHMM: rows of the transition matrix do not sum to one, so its "prior" is not a probability. Binary FHMM is normalised.
* **C41** MIS and NormCut: padding edges point at node 0, whose neighbourhood is then miscounted; the NormCut log-ratio ignores the balance
  penalty. `Bernoulli.logratio_in_neighborhood` returns three values where the samplers unpack four.
* **C75** Hamming ball: one radius is drawn for the whole batch, so the chains are dependent (`hb_batch_not_independent`).
* **C60** Categorical FHMM: with as many chains as categories an integer batch is taken for one-hot and collapses to one score.
* **C46** The empty string parses to the dictionary `{'': ''}`, so an empty configuration does not round-trip.
* **C43** If the declared number of instances is too small, the last partial batch is lost.
* **C47** With an ESS ratio outside [0, 1] a run makes a number of steps different from `chain_length` (`sampling_steps_iff`).
* **C48** Needs positive reference values: with a negative one the smallest ratio is reported (`co_best_negative_ref`). The dummy reference 0 of NormCut padding rows gives
  NaN, which is masked. `best_samples` is saved unmasked.
* **C49** `if self.sample_idx:` raises for 1 < num_models < devices, and for a single instance whose index is not 0 the later indexing fails.
* **C50** `results.pkl` is overwritten by every batch of instances.
* **C51** The exponential schedule ends at `max(init * rate, final)`, which is the final temperature only if `init * rate <= final`.
* **C52** The ESS is divided by half of the chain length, whatever ratio was recorded.
* **C73** The path-auxiliary sampler with an even fixed number of flips keeps the parity of the number of ones, for every model: half of the states is
  unreachable (`pafs_even_confined`). One-flip GWG on a flat model alternates parity; only the offset 1e-24 of the acceptance test makes it aperiodic.
  Exact conditions (ideal test): `gwg_one_ergodic_iff`, `pafs_ergodic_iff` (odd, fewer than all sites, and something is ever rejected). The same conditions hold with the acceptance noise of the code, with "rejected" meaning a ratio of at most
  `1 - 2^-23 + 1e-24` (`gwg_one_forgets_iff`, `pafs_forgets_iff`): a model whose imbalances are all below `2^-23` alternates for ever.
* **C77** Keys are reused: categorical path-auxiliary proposals and both FHMM parameter draws split a key after drawing with it (the categorical FHMM
  also draws twice with one key); `Sampling_Experiment` replaces its key by the constant `PRNGKey(10)`, draws with it and then folds every step key from
  it, so the chains do not depend on the seed; the sequential EBM loop gives Gibbs-type samplers the key it folds next; every batch of CO instances is run
  from seed 0, and so is every sentence of the text run although `get_results` counts `rnd_key` up (`textResults_reuse`); every training process starts from the same persistent chains.
* **C78** The normalised-cut evaluator and `node_degrees` index by position in the graph file, the partition by node name: cuts and volumes are wrong when
  the nodes are not listed as 0, 1, … ; edges of weight other than one are never counted as cut; loops distort volumes (`ncEvaluate_order_wrong`,
  `nodeDegrees_order_wrong`, `ncEvaluate_weight_wrong`, `ncEvaluate_loop_wrong`).
* **C80** "Percent unique" divides distinct phrases by occurrences, so text sharing nothing with the references can score `1/k`; references are lower-cased
  and predictions are not, so any capitalised phrase counts as new; the evaluation ends in a division by zero if all sentences are shorter than
  `max_n_grams` (`refUnique_repeat`, `cased_always_novel`, `lmEvaluate_none`).
* **C79** With one chain the variance error over the last samples is NaN (as it is with one step over the chains).
* **C81** `mask_dummy_array.at[1, mask_token]` addresses row 1 of an array with one row; JAX drops the update, so the position to be predicted shows the zero row, not `[MASK]` (`tiEnergy_not_masked`).
* **C82** Duplicate lines of an infilled sentence stay in the reference files (`infill_reference_leak`).
* **C83** `sent[2:]` removes the prefix `str(i) + ' '` only for `i < 10` (`textSentences_altered`); `topk_num = 0` returns all sentences; `jax.jit(evaluator.evaluate)` is called with strings and raises `TypeError` (`textResults_fails`).
* **C84** For graph and language models `--config` is merged after the model and sampler configuration; its default (`common/configs.py`) sets both names to the empty string (`mainConfig_default_erases`); a model configuration with an empty `graph_type` or `bert_model` makes `get_main_config` ignore the experiment configuration (`mainConfig_ignored`).
* **C85** `get_diff_key` only looks at the keys of the first dictionary: clusters depend on the folder order (`clusters_order_dependent`); `sort_based_on_samplers` drops samplers whose name has no listed prefix, among them `gibbs` and `locallybalanced` (`sortSamplers_drops`).
* **C86** `get_experiment_config` keeps the first dimension of a shape only, `/` becomes `-`, and settings of different sections with the same name overwrite one another (`folder_collisions`). Of a swept `cfg_str` the first two characters and everything after its first comma are dropped (`experimentConfig_cfg`).
* **C72** The Hamming-ball sampler with blocks of two or more sites (default `block_size=10`) converges geometrically to a law of its own (`hb_converges_own`) and for some model stays at a fixed distance from the target at all times (`hb_never_converges`). GWG with two or more flips converges: it returns to its state by flipping a site twice, so the chain is aperiodic.
* **C87** The time averages of the Hamming ball with one block covering the sample are biased by a fixed amount, however long the run (`hb_averages_biased`).
* **C88** The adaptive random walk loses the target within two steps: radius and sample become dependent (`rwAdaptive_two_steps` gives the exact bias, 1/32 of the likelier half on two sites with the defaults). The same holds for adaptive GWG and the adaptive path-auxiliary sampler (three steps from `num_flips = 1`): on a model that looks at one site their runs are a process of two numbers (`siteRun`). For DMALA and DLMC the step size takes the place of the radius; two steps suffice (`dmalaAdaptive_not_kept`, `dlmcAdaptive_not_kept`, `dlmcEuler_not_kept`). The categorical samplers lose it as well (`Props/AdaptiveDCateg.lean`): on a model that makes one value of one site half as likely as the others, two steps from the target raise its mass by `(C-1)(C-3/2)q(q₁-q₂)/2` of half a unit, `q` being the probability of proposing a given value.
* **C90** The bias of C88 does not die out, because the samplers never stop adapting. With a requested rate `t` in (1/2, 2/3] and two sites, GWG and the path-auxiliary sampler spend `3ρ²(1-ρ)/((1+ρ)(10-2ρ-4ρ²+2ρ³))` (path-auxiliary) less time at the value of weight 1 than they should, `ρ = 2t - 1` being the weight of the other value (`pafsShare_bias`, `gwgShare_bias`); at the configured 0.574 half a percent of the run. The usual remedy (stop adapting after burn-in) is not in the code.
* **C92** RBM training builds its loader without repetition, so it stops after one epoch whatever `total_train_steps` says (`supplies_once`). The loop logs `schedule(step)` after the update that used `schedule(step - 1)` (`updown_logged`). The last state is only saved if `save_every` divides the number of updates (`final_saved`).
* **C93** The converter's renaming is not injective on arbitrary names (`torchTarget_collision`); on names of the form PyTorch produces it is.
* **C94** Both training scripts use `from discs.common import plot`; the module lives in `discs/plot_results/plot.py`, so as checked out the import fails.
* **C95** `dynamic_mnist` and `omniglot` set `is_binary`, but only validation and test images are binarised; `train.load_numpyds` hands the grey training images to the trainer (`load_dynamic_train`, `load_omniglot_train`).
* **C96** `process_keys` deletes `approx_with_grad`, so exact and approximate path-auxiliary runs fall into one bar (`approx_invisible`); block sizes in labels are constants (`block_label`); `results.csv` prefixes `a_` whenever the key `adaptive` exists (`saver_adaptive`).
* **C97** Results of incomplete sweeps are padded with zeros at the end: bars after a missing experiment stand at wrong ticks (`padBars_iff`). Pictures in the results folder push out the last experiments (`sortFolders_lost`).
* **C98** `extract_floats` cuts two characters on each side; runs without `run_parallel` write one bracket, so digits are lost (`extract_single`).
* **C99** The curve's x coordinates start at 1 although the first entry is logged at step `log_every_steps` (`stepCurve_shift`).
* **C100** `init_weights` hard-codes a vocabulary of 30522, so only such models can be built; `FlaxBertForPreTraining` cannot be called (its module lacks the infilling arguments); an attention mask of zeros hides nothing (`attnWeights_all_masked`). With as many blanks as categories `single_forward` is an error (`tiSingleForward_none`); for BERT this cannot happen (`tiSingleForward_some`).
* **C101** No defect found: kernel axes, names and strides fit, and the shortcut's `'SAME'` padding gives `ceil(n/2)` rows as the padded 3×3 convolution does, for odd sizes too.
* **C102** Correlations after the first negative one are dropped, so a chain stuck until its last recorded step counts as fully independent (`essOf_last`), while a chain stuck to the end counts as one sample (`essOf_const`); alternation between two values counts as independent too (`essOf_alternating`). `tfp.mcmc.effective_sample_size` is a library function; its definition for default arguments is part of the trusted base. In floating point a constant chain may give tiny nonzero covariances in place of NaN.
* **C103** `jax.random.uniform` in single precision returns multiples of 2^-23, zero among them. At noise zero the test reads `log 1e-24 < log_prob`, so every move with ratio above 1e-24 is accepted with probability at least 2^-23 (`gridAccept_rare`). On one binary site with log-probability -50 the sampler gives the rare state 1/(2^23+1) in place of 2e-22 (`rw_grid_rare`).
* **C104** Gumbel noise computed from 2^23 uniform values lies in [-log 88, 23 log 2], so a category whose logit is 21 below another is never drawn (`categoricalG_never`); a Gibbs chain at a local mode of depth 21 stays there for ever with probability one (`gibbs_gridDraw_trapped`), and Gibbs does not converge on two sites coupled by 30 (`gibbs_gridDraw_refuted`). Equal perturbed scores have positive probability; then the mask form of sampling without replacement selects too many sites (`selectedMask_ties`).
* **C105** `OptsicomGen.sample_gen` calls `gen_graph(idx)` with `rand_weight=False`, so neither the noise nor the bias of `rand_type` is ever applied: every `rand_type` the constructor accepts gives the ten stored graphs (other than `b`, which selects `OptsicomStatic`; a type that is neither numeric nor `b`, after the optional final `b`, raises in `float`) (`optsicom_noise_ignored`). `TwitterGraphs` counts graphs but yields `zip(graphs, values)` (`twitter_loads`). The ten Optsicom files are expected in `discs/graph_loader/optsicom`, which the repository does not have: in the pinned tree the constructor raises `FileNotFoundError`.
* **C106** `CategoricalRBM.build_init_dist` without data mean evaluates `jnp.ones(num_visible, num_categories)`; the second argument is the data type, so the constructor raises a `TypeError` (`initCategRbm_spec`). That it raises is our reading of the jax API, not proved.
* **C107** No bound holds uniformly in the parameters. With log-odds 2^25 and 1 the computed energy of a Bernoulli model does not depend on the second site while the first is on, in any order of summation (`bernForwardF_blind`), so the random walk samples that site as fair although the odds are e (`bern_rwF_blind`).
* **C108** The locally balanced samplers add the energy and the log-probability of the reverse draws before subtracting. With all energies equal to 2^26 (the same target as energy 0) the reverse log-probability is lost in that addition, every proposal is accepted, and one step moves a uniform target by more than 1/8; with energy 0 it moves it by at most 1/500 (`flipF_blind`).
* **C109** `optax.exponential_decay` decays by `decay_rate` once over the whole chain and uses `final_temperature` only as a floor, so a run ends at `init_temperature * decay_rate`. In all nine shipped `exp_decay` configurations that is larger than `final_temperature` (by factors from 5 to 3000000), which therefore has no effect (`shipped_exp_end`); however long the chain, the last sample misses the optimum with a probability bounded below (`rw_anneal_exp_stuck`).
* **C109** A sample that violates one edge of a MIS instance can be as little as `penalty - 1` below the optimum (`mis_gap_tight`). With the shipped penalty 1.0001 and last temperature 0.005 of `mis/satlib`, such a sample keeps 98 % of the weight of an optimum: the last temperature does not enforce the constraint.
* **C110** The shipped `gwg` configuration asks for `adaptive = True` and `num_flips = 1`; for a model with more than two categories `build_sampler` ignores both and silently returns the non-adaptive single-flip class (`shipped_built`). The shipped `hammingball` configuration has `block_size = 10`, a class that does not keep the target (`built_hammingBall_iff`). The shipped `locallybalanced` configuration builds a sampler that raises in its first step (`shipped_sound`). `randomwalk` needs `adaptive` and `target_acceptance_rate` also for the non-adaptive class (`build_ok_iff`). A misspelt balancing function or solver is noticed in the first step only (`built_runs_iff`). `RBMBlockGibbsSampler` is never built.
* **C111** On the Ising model with `|λ| < 1` (shipped: `λ = 0.5`) the samplers without gradients sample independent spins and the gradient samplers the Ising model (`ising_integer_samplers`, `ising_gradient_samplers`); the laws differ for every field (`ising_laws_differ`), so the comparison of samplers on this model compares runs with different targets. The path auxiliary sampler with `approx_with_grad = False` samples the unpenalised normalised cut whatever the penalty (`nc_exact_energy`). `Categorical` and `Potts` with two categories have zero scores (`two_categories_blind`): the gradient samplers then propose blindly, but still keep the target.
* **C112** `maxcut/ba.py` takes sizes from the end of `rand_type` (`256-300`, ...) although the name also holds the number of edges per node: the sizes are those of `ba-4`, and a data set with five edges per node fails to stack (`ba_run_iff`). Declared numbers of nodes are not compared with the data (`declared_nodes_unchecked`). The `gap_rand` loader pads edges but not node degrees, and its dummy has three nodes: an incomplete batch only stacks with graphs of three nodes, a full one only with graphs of equal sizes (`gap_run_iff`).
* **C113** The log Z sweep (`run_configs/ebm/binray_ebm/logz.py`) anneals with adaptive samplers. The acceptance of one step changes the next step size, so the kernels do not keep the intermediate targets and the exponential of the reported value is biased downwards for a network that looks at one pixel (`rwAdaptive_ais_biased`, `dmalaAdaptive_ais_biased`, `dlmcAdaptive_ais_biased`, `dlmcEuler_ais_biased`, `gwgAdaptive_ais_biased`, `pafsAdaptive_ais_biased`). The Hamming ball is biased through its radius logits (`hb_ais_biased`). Block Gibbs is unbiased (`blockGibbs_ais`), as is the random walk with adaptation off (`rw_fixed_ais`); with adaptation off every sound built sampler is unbiased up to the offsets of its acceptance test (`built_image_ais`).
* **C114** `AdaptiveRWSampler` clips its radius to `[1, dim]`. At `dim` every site of a binary sample changes in every step. For energies that do not change when all sites change that proposal is always accepted, so the radius stays at `dim` and the run alternates between a sample and its complement for good (`rw_batch_trapped`). The trap is entered almost surely (`rw_stuck`), with certainty on a flat or hot model (`rw_hot_stuck`, `rw_ising_stuck`), and annealed Max-Cut runs miss the optimum with a probability that no chain length reduces (`rw_maxcut_misses`). Batches share one radius and are caught in the same way at every temperature (`rw_batch_stuck`, `rw_batch_maxcut_misses`).
* **C115** `PAFSNoReplacement` with a fixed number of flips draws that many distinct sites. An even number keeps the parity of the sample, so half of all samples, possibly all optima, are out of reach however long the search (`pafs_even_misses`, `pafs_star_misses`); with all sites only two samples are within reach (`pafs_all_misses`). `pafs_visits_iff` is the exact condition. GWG draws with replacement and is not affected (`gwg_visits`). Adaptive GWG has no such trap: whatever its radius does it visits every sample (`gwgAdaptive_visits`).
* **C116** The same parity argument decides what is reported: with an even number of flips every run of any number of chains can report less than the optimum with probability one (`pafs_even_reports`, `pafs_star_reports`). With an odd number of flips and the shipped log interval of 100 the logged samples keep the parity of the start until a proposal is rejected; the theorems for odd flips therefore ask for an odd log interval. For GWG with one draw and exact scores (`Spec.ExactGrad`) the acceptance ratio is a ratio of normalisers, and unless all samples are equally good some flip increases the normaliser and is rejected at times (`exists_increase`); `gwg_reports_one_any` needs temperatures that vary slowly, because an adversarial schedule could move the rejections to steps at which the chain has the other parity. Adaptive GWG escapes the parity argument: with one draw per step either some proposal is rejected with positive probability or the radius grows until two sites are drawn (`gwgAdaptive_reports`; needs a target rate below one and two sites). Path auxiliary with an odd number of flips and an even log interval reports the optimum from every start exactly if some proposal can be rejected or there are optima of both parities (`pafs_reports_even_iff`, constant temperature); a two-site model with arbitrary scores on which no proposal is rejected is `pafs_square_misses`. The adaptive path auxiliary sampler is refuted at high temperatures: its radius grows to the number of sites within a fixed number of steps (C119); a run that by then has met neither the optimum nor its complement never does (`pafs_hot_reports`; Max-Cut on a star: `pafs_hot_star_reports`).
* **C117** No job of `run_configs/co/maxcut/optsicom_sampler_sweep.py` starts: it overrides `config.experiment.num_models`, which `experiment/configs/maxcut/optsicom.py` does not have (`shipped_starts`). `potts/num_categories_sweep.py` launches the categorical model. The 126 jobs of `normcut/gap_rand_sampler_sweep.py` are 7 different runs: the graph configuration ignores `cfg_str` and nothing reads `stype` (`gap_sweep_repeats`). The sweeps over networks of `normcut` and over texts contain path auxiliary samplers with a fixed number of flips on more than two categories, which keep no target (`shipped_unsound`, C21, C110); most sweeps contain Hamming ball samplers with blocks of ten. `bernoulli/estimation_error.py` never sets `get_estimation_error` and keeps `ess_eval` (`shipped_experiment`). Both language-model sweeps set `sampler_config.adaptive = True` for `gwg`; `gwg.build_sampler` does not read it when there are more than two categories, so these jobs run, and are labelled by their folder as adaptive, without adaptation (`shipped_ignored`, `lm_adaptive_ignored`). Values that a configuration file writes as integers refuse fractions on the command line and in sweeps: `model_config.lambdaa` of the Potts model (written `1`), `model_config.sigma` of the FHMM, `config.experiment.init_temperature` of all `mis` and `normcut` experiments (`shipped_integers`).
* **C118** The jobs of `run_configs/co/normcut/gap_rand_sampler_sweep.py` have five instances; with two to four or more than five devices they raise, on the default eight GPUs because of the truth value of `sample_idx` (`shipped_layout_gap`, `gap_default_raises`). The jobs of `run_configs/co/maxcut/er_sampler_sweep.py` have 1000 instances in batches of 128; `results.pkl` ends up with the last 104 (`shipped_reports`, from the general `results_reported`). All other shipped jobs over graphs with a declared number of instances have a single batch.
* **C119** The radius of the adaptive `PAFSNoReplacement` may grow to the number of sites; then every step proposes to flip all sites, which on a hot model is accepted more often than the target rate, so the radius stays there. Whatever the random draws, each chain sees only one sample and its complement from a known step on (`pafs_hot_trapped`), and time averages such as the agreement of two sites tend to 0 or 1 (`pafs_hot_average`). With ten uncoupled sites and the shipped target rate this happens by step 22. Combinatorial runs that are stopped hot are caught too (`pafs_hot_schedule`).
* **C120** `corpus_bleu` of the evaluator passes the weights (1/3, 1/3) for three tokens, so what is printed as `bleu3` ignores phrases of three tokens (`printed_bleu3`). A generated sentence of fewer than four tokens has no phrase of four; the library replaces that share by the smallest double, and a verbatim copy scores below 2^-255 (`reported_short`). The penalty uses the nearest reference length, so the joint score against both files can be lower than the score against one (`reported_joint_lower`). Sentences keep their case, references are lower-cased (`reported_cased`).
* **C121** `params['params'][0]` takes the copy of the first device, but on one device it takes the first row, and the reshape raises after the whole chain was run (`ee_files_single`). `config.get('nun_saved_samples', 4)` is misspelt: always four chains, and `jax.random.choice` raises for batches below four in every `Sampling_Experiment` (`small_batch_raises`). The sweep `estimation_error.py` sets `save_every_steps` but not `get_estimation_error`, so its jobs write no samples (`shipped_ee_no_files`); the two values of `init_sigma` share their labels (`shipped_ee_labels`). The samples are flattened, the moments are not (`ee_curve_raises`, `mse_wrong_axis`).
* **C122** `prepare_for_ising` puts the first cluster at 0.1607 whatever its temperature, and the others at the value of the last key of the title (`mapTemp_last`, `temp_axis_wrong`). Missing results are replaced by zeros for two of the four keys only, so that the replacement raises later (`temp_plot_fails`, `temp_missing`). `s[2:gap]` does not strip: a padded first number gives an empty word (`temp_padded_fails`). The spread of `ess_ee` is divided by ten, that of `ess_clock` is not (`temp_heights`); both figures have the same label on the vertical axis. Random walk, block Gibbs and Hamming ball are read, can make the script fail, and are never drawn (`tempDrawn_hides`).
* **C123** `chain` keeps its last value for names without a branch (`ebm_stale`) and has none in the first folder (`ebm_first_unknown`). `dump_samples(visualize=True)` would raise because of `root_path` (`dumpImages_visualize`); no caller passes it, so the files that `plot_ebm.py` reads do not come from this program (`dumpImages_none`, `ebm_needs_files`).
* **C124** `plot_graph_cluster` draws `['logz'][0]`: runs after the first of a label are not shown (`logz_hides`); `process_keys` drops `approx_with_grad` and so gives two kinds of runs one label (`logz_approx_hidden`). The folders of `logz.py` carry `name` twice (experiment and sampler); the second wins because it comes later (`logz_shipped`). The axis starts at 0 for the estimate after the first step (`logz_axis`).
* **C125** `CategoricalRBM.build_init_dist` calls `jnp.ones(num_visible, num_categories)`, where the second argument is the data type, and `jnp.log` on the list that training saves: an RBM with more than two categories can neither be trained nor loaded (`rbm_categories_untrainable`, `rbm_wrong_class`); of the shipped RBM sweep only the two-category jobs have a model if folders are as training writes them (`shipped_rbm_jobs`). `rbm.build_model` reads `num_categories` before `config.yaml` is merged, so the shipped settings of `rbm_config.py` fail with any trained folder (`rbm_default_fails`). `RBM.__init__` never looks at `config.data_mean`, which the training program sets for it (`rbm_training_ignores_mean`).
* **C126** `CO_Experiment` starts its best ratio at `-1e9` and its best sample at zeros; normalised cut has reference 1 and a cost of the order `penalty * nodes²`, so for large graphs every ratio can stay below the start, and the table then shows ratio 0 and balance 0 (`nc_run_floor`). The evaluator never compares the length of a saved sample with the graph: results of a larger graph give numbers, here a balance of 15/4 (`nc_wrong_graph`). A folder without `results.pkl`, without a sampler name in its own name, or a graph without edges stops the program before anything is written (`nc_table_exists`); the last is a division of a Python float by zero, which `ncEvaluate` of C78 now reports as an exception, too.
* **C132** The penalty of the maximum-clique configurations is 1.0 (`maxclique/rb.py:20`, `maxclique/twitter.py:19`), the boundary value at which a node with one missing edge costs nothing: on a path of three nodes all three together score as much as the largest clique (`shipped_clique_not_solved`). The saved sample of a run may therefore not be a clique although its ratio is right. The normalised-cut configurations set penalties of 0.0005 and 1.0; the branch of `NormCut.objective` that computes the normalised cut is taken by no shipped job (`shipped_normcut_cost`). The override `model_config.penalty` takes effect for `mis/ertest` and `mis/er_density` only (`penalty_override_er`): the model files of the other problems have no such key, so that the job does not start (`penalty_override_refused`), and for `mis/satlib` the graph file sets the penalty again after the override, which is lost without a message (`penalty_override_lost`).
* **C53** Without `data_mean` all importance weights vanish and `logz` is reported as 0 (`ebm_ais_no_mean`).

Other defects noticed while reading, outside the properties: the RBM block-Gibbs sampler returns a pair, takes no `x_mask` and is never built by
`build_sampler`; `CategoricalRBM` without stored parameters passes the number of categories as a dtype and does not forward `data_mean`; the training
loop computes an average of the parameters but saves `final_state.params`; `_get_chains_and_evaluations` ignores `rnd_key`;
`plot_estimation_error` misses an argument.

## What is not modelled

The weights of neural networks (the networks themselves are modelled: C100, C101), `jax.random` beyond the laws of its draws, optimisers, floating-point rounding
(except for the random walk, C107, and the precision of the noise in acceptance tests and categorical draws, C103 and C104), file formats,
drawing of figures (tables, grouping and image tiling are modelled), XManager launching, dataset downloads, TensorFlow data pipelines beyond batching.

## Reading decisions worth knowing

* DMALA/DLMC with a NaN step size: every comparison with NaN is false, so chains stay where they are; the model says so explicitly (`none`).
* Path-auxiliary draws are represented by the resulting order (indices, or a permutation) with the Plackett-Luce law, which C76 proves to be the law
  of the code's perturb-and-sort procedure (`Model/PathAuxNoise.lean`); the mask constant `-1e18`
  is read as minus infinity in the backward score (its exponential is exactly zero in floating point).
* Interpreting `jax.random` draws from unrelated keys as independent is trusted; which keys are used is modelled in `Model/Keys.lean` (C77), separately from
  the transition kernels, where every draw is a fresh variable.
