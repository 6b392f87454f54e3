{"id": "C01", "title": "Gibbs step preserves the target", "statement": "One call of the Gibbs sampler's step, for whichever coordinate the sampler state points at, is reversible with respect to the target distribution exp(forward(x)) restricted to valid samples, keeps samples valid and is a genuine probability kernel; hence the target is invariant under any number of consecutive steps.", "quantifier": "every log-likelihood function, every dimension, every number of categories >= 1, every coordinate, every pair of valid states, every number of steps", "why_tests_cant": "A unit test sees a finite number of random draws of one model; invariance is an identity between probabilities over the whole state space for every model.", "anchors": ["discs/samplers/gibbs.py:GibbsSampler.step", "discs/samplers/gibbs.py:GibbsSampler.update_sampler_state"]}
{"id": "C02", "title": "Gibbs visits coordinates cyclically, touches one coordinate per step and counts calls exactly", "statement": "Starting from the initial sampler state, step t resamples coordinate t mod dim only (every other coordinate of every chain is untouched), every output value lies in [0, num_categories), any dim consecutive steps touch every coordinate exactly once, and after t steps steps == t and num_ll_calls == t * num_categories.", "quantifier": "every dimension >= 1, every number of categories, every starting sample, every sequence of random draws, every t", "why_tests_cant": "Histories of unbounded length and all draws.", "anchors": ["discs/samplers/gibbs.py:GibbsSampler.step", "discs/samplers/gibbs.py:GibbsSampler.update_sampler_state", "discs/samplers/abstractsampler.py:AbstractSampler.make_init_state"]}
{"id": "C03", "title": "Random-walk Metropolis preserves the target", "statement": "The random-walk sampler's step (independent site flips with probability radius/dim, uniformly chosen new value, Metropolis accept) is reversible with respect to exp(forward(x)) up to the 1e-24 offset used inside the acceptance test, and exactly reversible when that offset is taken as zero.", "quantifier": "every log-likelihood function, dimension, number of categories >= 2, radius in [0, dim], pair of valid states", "why_tests_cant": "A statement about transition probabilities for all models, not about samples.", "anchors": ["discs/samplers/randomwalk.py:RandomWalkSampler.step", "discs/samplers/randomwalk.py:RandomWalkSampler.sample_from_proposal", "discs/common/math_util.py:mh_step", "discs/common/math_util.py:bernoulli_logp"]}
{"id": "C04", "title": "Adaptive radius stays a legal number of flips", "statement": "For the adaptive random-walk, adaptive GWG and adaptive path-auxiliary samplers the radius kept in the state is in [1, dim] after every step of every run, so the site-flip probability radius/dim is always in [1/dim, 1] and the rounded number of flips always in [1, dim]; in the non-adaptive variants the radius never changes.", "quantifier": "every run length, every sequence of mean acceptance values, every target acceptance rate, every dimension >= 1", "why_tests_cant": "All histories of acceptance rates.", "anchors": ["discs/samplers/randomwalk.py:AdaptiveRWSampler.select_sample", "discs/samplers/gwg.py:AdaptiveGWGSampler.select_sample", "discs/samplers/path_auxiliary.py:PAFSNoReplacement.select_sample"]}
{"id": "C05", "title": "Every sampler advances its step counter by one per step", "statement": "After t calls of step, the state's steps counter equals t and num_ll_calls grows by the sampler's declared constant each call.", "quantifier": "every sampler, every run", "why_tests_cant": "All run lengths and samplers; the tests never look at the state.", "anchors": ["discs/samplers/abstractsampler.py:AbstractSampler.update_sampler_state", "discs/samplers/randomwalk.py:RWSampler.select_sample", "discs/samplers/locallybalanced.py:LocallyBalancedSampler.select_sample", "discs/samplers/gwg.py:GibbsWithGradSampler.select_sample"]}
{"id": "C06", "title": "Block Gibbs preserves the target, also for blocks that run past the end", "statement": "One call of the block Gibbs step is reversible with respect to exp(forward(x)) on valid samples for any block start, including starts where part of the block lies beyond the last coordinate, and only coordinates inside the block change.", "quantifier": "every log-likelihood function, dimension, block size, block start, number of categories >= 1", "why_tests_cant": "Identity between probabilities over all states and block positions.", "anchors": ["discs/samplers/blockgibbs.py:BlockGibbsSampler.step"]}
{"id": "C07", "title": "Block enumeration is complete and call counting matches it", "statement": "The table of block assignments contains every assignment of num_categories values to block_size positions exactly once, so the number of model evaluations per step equals the counted num_categories ** block_size.", "quantifier": "every number of categories and block size", "why_tests_cant": "Unbounded sizes.", "anchors": ["discs/samplers/blockgibbs.py:BlockGibbsSampler.__init__", "discs/samplers/blockgibbs.py:BlockGibbsSampler.update_sampler_state"]}
{"id": "C08", "title": "Block schedule reaches every coordinate", "statement": "The moving block of block Gibbs and Hamming-ball covers every coordinate within the first ceil(dim/block_size) steps and again infinitely often: in every dim/gcd(dim, block_size) consecutive steps each coordinate is covered, and when block_size divides dim exactly once per dim/block_size steps.", "quantifier": "every dimension, block size and time", "why_tests_cant": "Infinite executions.", "anchors": ["discs/samplers/blockgibbs.py:BlockGibbsSampler.update_sampler_state", "discs/samplers/hammingball.py:HammingBallSampler.update_sampler_state"]}
{"id": "C09", "title": "RBM block Gibbs preserves the marginal the model reports", "statement": "Sampling hidden units given visibles and then visibles given hiddens is reversible with respect to exp(forward(v)), the unnormalised visible marginal the binary RBM reports.", "quantifier": "every weight matrix and bias vectors, every number of visible and hidden units, every pair of visible configurations", "why_tests_cant": "Sum over exponentially many hidden configurations.", "anchors": ["discs/samplers/blockgibbs.py:RBMBlockGibbsSampler.step", "discs/models/rbm.py:NNBinary.__call__", "discs/models/rbm.py:NNBinary.step_h", "discs/models/rbm.py:NNBinary.step_v"]}
{"id": "C10", "title": "Hamming-ball sampler preserves the target", "statement": "One call of the Hamming-ball step is reversible with respect to exp(forward(x)).", "quantifier": "every log-likelihood, dimension, block and number of categories", "why_tests_cant": "Identity between probabilities; a statistical test has no power against small biases.", "anchors": ["discs/samplers/hammingball.py:HammingBallSampler.__init__", "discs/samplers/hammingball.py:HammingBallSampler.step"]}
{"id": "C11", "title": "Hamming-ball candidates are exactly the ball", "statement": "The candidates scored in a Hamming-ball step are the current point and every point that differs from it in exactly one coordinate of the block, each once, and their number equals the amount added to num_ll_calls.", "quantifier": "every centre, block inside the sample, number of categories", "why_tests_cant": "Unbounded sizes.", "anchors": ["discs/samplers/hammingball.py:HammingBallSampler.step", "discs/samplers/hammingball.py:HammingBallSampler.update_sampler_state"]}
{"id": "C12", "title": "Balancing functions are locally balanced in both scales", "statement": "Each of SQRT, RATIO, MAX, MIN satisfies g(t) = t * g(1/t) for t > 0, its log-scale version satisfies h(s) - h(-s) = s, and the two versions agree: h(log t) = log g(t). Any other name raises an error in both.", "quantifier": "every positive real t, every real s, every function name", "why_tests_cant": "Real-valued identity.", "anchors": ["discs/samplers/locallybalanced.py:LocallyBalancedSampler.apply_weight_function", "discs/samplers/locallybalanced.py:LocallyBalancedSampler.apply_weight_function_logscale"]}
{"id": "C13", "title": "Acceptance test accepts with the requested probability", "statement": "With uniform noise on [0,1), the acceptance test returns True with probability exp(log_prob) - 1e-24 clipped to [0,1]; in particular it differs from min(1, exp(log_prob)) by at most 1e-24 and is monotone in log_prob.", "quantifier": "every real log_prob", "why_tests_cant": "Measure of a set of real noise values.", "anchors": ["discs/common/math_util.py:bernoulli_logp"]}
{"id": "C14", "title": "MH selection is per chain and never invents a state", "statement": "Each row of the result of an MH step is either that row's current sample or that row's proposal, as decided by that row's own acceptance flag.", "quantifier": "every batch, every sample shape, all noise values", "why_tests_cant": "All batches and draws.", "anchors": ["discs/common/math_util.py:mh_step"]}
{"id": "C15", "title": "Binary Gibbs-with-gradient preserves the target for any number of flips", "statement": "The binary GWG step, drawing num_flips indices with replacement from its proposal, is reversible with respect to exp(forward) (up to the acceptance offset), whatever the model's gradient returns.", "quantifier": "every log-likelihood, every gradient function, every balancing function, mask, dimension, num_flips, pair of binary states", "why_tests_cant": "Identity between probabilities.", "anchors": ["discs/samplers/gwg.py:GibbsWithGradSampler.step", "discs/samplers/gwg.py:BinaryGWGSampler"]}
{"id": "C16", "title": "Adaptive Gibbs-with-gradient preserves the target at a given radius", "statement": "The adaptive GWG step, with the radius taken from the state, is reversible with respect to exp(forward) up to the acceptance offset.", "quantifier": "every log-likelihood, gradient, mask, dimension, radius, pair of binary states", "why_tests_cant": "Identity between probabilities.", "anchors": ["discs/samplers/gwg.py:AdaptiveGWGSampler", "discs/common/math_util.py:multinomial"]}
{"id": "C17", "title": "Categorical Gibbs-with-gradient preserves the target (single chain)", "statement": "With a batch of one chain, the categorical GWG step is reversible with respect to exp(forward) up to the acceptance offset.", "quantifier": "every log-likelihood, gradient, dimension, number of categories, pair of valid states", "why_tests_cant": "Identity between probabilities.", "anchors": ["discs/samplers/gwg.py:CategoricalGWGSampler"]}
{"id": "C18", "title": "Parallel chains do not influence one another", "statement": "In a batch, the new value of a chain depends only on that chain's sample and random draws (and the shared sampler state), not on the other chains in the batch.", "quantifier": "every sampler, batch size, pair of batches agreeing on one chain", "why_tests_cant": "Non-interference: quantifies over pairs of runs.", "anchors": ["discs/samplers/gwg.py:CategoricalGWGSampler.get_ll_onestep", "discs/samplers/gwg.py:BinaryGWGSampler.get_ll_onestep", "discs/samplers/randomwalk.py:RandomWalkSampler.step", "discs/samplers/gibbs.py:GibbsSampler.step"]}
{"id": "C19", "title": "Path-auxiliary sampler preserves the target (binary, fixed number of flips)", "statement": "The binary path-auxiliary step with a fixed number of flips drawn without replacement is reversible with respect to exp(forward) up to the acceptance offset, whatever local scores it uses.", "quantifier": "every log-likelihood, score function, mask, dimension, number of flips <= dim, pair of binary states", "why_tests_cant": "Identity between probabilities over paths.", "anchors": ["discs/samplers/path_auxiliary.py:PAFSNoReplacement.proposal", "discs/samplers/path_auxiliary.py:PAFSNoReplacement.ll_y2x"]}
{"id": "C20", "title": "Path-auxiliary sampler preserves the target (adaptive)", "statement": "The adaptive path-auxiliary step, binary and categorical, is reversible with respect to exp(forward) at any given radius up to the acceptance offset.", "quantifier": "every log-likelihood, score function, dimension, radius, number of categories, pair of valid states", "why_tests_cant": "Identity between probabilities over paths.", "anchors": ["discs/samplers/path_auxiliary.py:PAFSNoReplacement.proposal", "discs/samplers/path_auxiliary.py:PAFSNoReplacement.ll_y2x"]}
{"id": "C21", "title": "Path-auxiliary sampler preserves the target (categorical, fixed number of flips)", "statement": "The categorical path-auxiliary step with a fixed number of flips is reversible with respect to exp(forward).", "quantifier": "every log-likelihood, score function, dimension, number of categories > 2, pair of valid states", "why_tests_cant": "Identity between probabilities over paths.", "anchors": ["discs/samplers/path_auxiliary.py:PAFSNoReplacement.proposal", "discs/samplers/path_auxiliary.py:PAFSNoReplacement.ll_y2x"]}
{"id": "C22", "title": "Without-replacement log-likelihood is the sequential-draw probability", "statement": "For indices listed in draw order with normalised log-probabilities, the renormalised log-likelihoods sum to the log of the probability of drawing exactly that sequence one after another without replacement, and over all sequences of a given length these probabilities sum to one.", "quantifier": "every distribution with positive probabilities, every sequence of distinct indices of every length", "why_tests_cant": "Real identity over all sequences.", "anchors": ["discs/common/math_util.py:noreplacement_sampling_renormalize", "discs/common/math_util.py:multinomial", "discs/common/math_util.py:log1mexp"]}
{"id": "C23", "title": "Counting multinomial draws exactly the requested number", "statement": "With replacement and a tensor-valued sample count, each row of the returned count matrix is non-negative and sums to num_samples, whatever the internal batch size, and the loop terminates.", "quantifier": "every num_samples >= 0, batch_size >= 1, number of classes and sequence of draws", "why_tests_cant": "Loop over unbounded counts and all draws.", "anchors": ["discs/common/math_util.py:multinomial"]}
{"id": "C24", "title": "Sampling without replacement returns distinct indices, best first", "statement": "The index form returns num_samples pairwise distinct indices in decreasing order of perturbed score; the mask form selects exactly num_samples classes when perturbed scores are distinct and the two agree as sets.", "quantifier": "every score vector, every num_samples between 1 and the number of classes", "why_tests_cant": "All score vectors.", "anchors": ["discs/common/math_util.py:multinomial"]}
{"id": "C25", "title": "DMALA preserves the target at a fixed step size", "statement": "At a fixed step size the binary DMALA step is reversible with respect to exp(forward) up to the acceptance offset and the 1e-32 guard inside its logarithms (with an explicit bound), and the categorical DMALA step up to the acceptance offset only.", "quantifier": "every log-likelihood, rate function, step size, dimension, number of categories, pair of valid states", "why_tests_cant": "Identity between probabilities.", "anchors": ["discs/samplers/dmala.py:DMALASampler.step", "discs/samplers/dmala.py:BinaryDMALA", "discs/samplers/dmala.py:CategoricalDMALA"]}
{"id": "C26", "title": "DLMC preserves the target at a fixed step size", "statement": "At a fixed step size the DLMC step (both solvers) is reversible with respect to exp(forward): binary up to the acceptance offset and the 1e-32 guard, categorical up to the acceptance offset only.", "quantifier": "every log-likelihood, rate function, step size, solver, dimension, number of categories, pair of valid states", "why_tests_cant": "Identity between probabilities.", "anchors": ["discs/samplers/dlmc.py:DLMCSampler.step", "discs/samplers/dlmc.py:BinaryDLMC", "discs/samplers/dlmc.py:CategoricalDLMC"]}
{"id": "C27", "title": "DLMC flip probabilities are probabilities below equilibrium", "statement": "Every binary DLMC flip probability lies strictly between 0 and 1 and never exceeds the equilibrium probability sigmoid(delta); for the interpolating solver it equals nu*(1 - exp(-tau*w/nu)), increases with the step size and tends to nu; an unknown solver name raises.", "quantifier": "every delta, weight, step size, solver name", "why_tests_cant": "Real-valued identity and limit.", "anchors": ["discs/samplers/dlmc.py:BinaryDLMC.get_dist_at"]}
{"id": "C28", "title": "Adaptive step size of DMALA/DLMC stays finite", "statement": "In adaptive mode log_tau is a finite number not below -log_z after every step of every run.", "quantifier": "every run, every sequence of acceptance rates in [0,1], every sequence of local log_z values", "why_tests_cant": "All histories.", "anchors": ["discs/samplers/dmala.py:DMALASampler.update_sampler_state", "discs/samplers/dlmc.py:DLMCSampler.update_sampler_state"]}
{"id": "C29", "title": "Adaptation starts from the step size that was used", "statement": "In adaptive DMALA/DLMC the expected number of flips exp(log_tau + log_z) after the first step differs from the one the first step used by at most 3 * |acceptance - target|.", "quantifier": "every model, initial sample, acceptance rate", "why_tests_cant": "All models and first steps.", "anchors": ["discs/samplers/dmala.py:DMALASampler.step", "discs/samplers/dmala.py:DMALASampler.update_sampler_state", "discs/samplers/dlmc.py:DLMCSampler.step"]}
{"id": "C30", "title": "One-hot encoding round-trips", "statement": "Encoding a category as one-hot and taking argmax returns the category, so samplers that work on one-hot states return valid integer samples.", "quantifier": "every number of categories and category", "why_tests_cant": "Unbounded sizes.", "anchors": ["discs/samplers/locallybalanced.py:LocallyBalancedSampler.select_sample"]}
{"id": "C31", "title": "Bernoulli model reports its true mean and variance", "statement": "The expected value and variance the Bernoulli model reports are the mean and variance of each coordinate under the normalised distribution exp(forward)/Z.", "quantifier": "every parameter vector and dimension", "why_tests_cant": "Sum over 2^n states.", "anchors": ["discs/models/bernoulli.py:Bernoulli.get_expected_val", "discs/models/bernoulli.py:Bernoulli.get_var", "discs/models/bernoulli.py:Bernoulli.forward"]}
{"id": "C32", "title": "Gradient scores are exact for multilinear models", "statement": "For the Bernoulli, Ising, MIS and MaxCut models (1 - 2x) * d forward/dx equals forward(x with that site flipped) - forward(x) for every site of every binary sample.", "quantifier": "every parameter setting, sample and site", "why_tests_cant": "Real identity for all samples.", "anchors": ["discs/models/bernoulli.py", "discs/models/ising.py:Ising.forward", "discs/models/mis.py", "discs/models/maxcut.py", "discs/samplers/gwg.py:BinaryGWGSampler.get_dist_at"]}
{"id": "C33", "title": "Ising energy counts every lattice edge once", "statement": "For real-valued samples the Ising log-likelihood equals lambda times the sum over lattice edges (each once, open boundary) of the spin products minus the sum of local fields times spins. The built-in external field is mu inside a disc and -mu outside, and the disc holds half of the sites of a large square lattice.", "quantifier": "every grid size, field, coupling and sample", "why_tests_cant": "Unbounded grid sizes.", "anchors": ["discs/models/ising.py:Ising.forward", "discs/models/ising.py:Ising.make_init_params"]}
{"id": "C34", "title": "Ising energy does not depend on the sample's number type", "statement": "Passing the same 0/1 sample as integers or as floats to the Ising forward gives the same log-likelihood.", "quantifier": "every grid, coupling, field and sample", "why_tests_cant": "All couplings.", "anchors": ["discs/models/ising.py:Ising.forward"]}
{"id": "C35", "title": "Potts energy counts agreeing neighbours", "statement": "The Potts log-likelihood equals lambda times the number of lattice edges whose endpoints have the same category minus the sum of local fields at the chosen categories.", "quantifier": "every grid size, number of categories, parameters and sample", "why_tests_cant": "Unbounded grid sizes.", "anchors": ["discs/models/potts.py:Potts.forward"]}
{"id": "C36", "title": "FHMM hidden-chain prior is normalised", "statement": "For the binary factorial HMM the state-sequence part of the log-likelihood is the log of a probability distribution over all state sequences, equal to the one its own sampler draws from; for the categorical FHMM every row of the transition matrix sums to one.", "quantifier": "every alpha, beta in (0,1), chain length, number of chains and categories", "why_tests_cant": "Sum over exponentially many sequences.", "anchors": ["discs/models/fhmm.py:BinaryFHMM.forward", "discs/models/fhmm.py:BinaryFHMM.sample_X", "discs/models/fhmm.py:CategFHMM.make_init_params"]}
{"id": "C37", "title": "RBM forward is the exact log-marginal", "statement": "exp(forward(v)) equals the sum over all hidden configurations of exp of the joint energy, and the probabilities used to sample h given v and v given h are the exact conditionals of that joint.", "quantifier": "every weights, biases, sizes and configurations", "why_tests_cant": "Sum over 2^H configurations.", "anchors": ["discs/models/rbm.py:NNBinary.__call__", "discs/models/rbm.py:NNBinary.step_h", "discs/models/rbm.py:NNBinary.step_v"]}
{"id": "C38", "title": "Optimising the MIS energy solves maximum independent set", "statement": "With penalty coefficient >= 1 the evaluated MIS score of any 0/1 sample is at most the independence number, independent sets score their size, and with coefficient > 1 every maximiser is an independent set.", "quantifier": "every simple graph and padding, every sample, every coefficient", "why_tests_cant": "All graphs and all subsets.", "anchors": ["discs/models/mis.py:MIS.objective", "discs/models/mis.py:MIS.penalty", "discs/models/comb_ebm.py:CombEBM.evaluate"]}
{"id": "C39", "title": "Optimising the max-clique energy solves maximum clique", "statement": "With penalty coefficient >= 1 the evaluated max-clique score of any 0/1 sample is at most the clique number, cliques score their size, and with coefficient > 1 every maximiser is a clique.", "quantifier": "every simple graph and padding, every sample, every coefficient", "why_tests_cant": "All graphs and all subsets.", "anchors": ["discs/models/maxclique.py:MaxClique.objective", "discs/models/maxclique.py:MaxClique.penalty"]}
{"id": "C40", "title": "MaxCut score is the weight of the cut", "statement": "The evaluated MaxCut score equals the total weight of edges with endpoints on different sides; padding does not change it; swapping the sides does not change it.", "quantifier": "every weighted graph, padding length and sample", "why_tests_cant": "All graphs.", "anchors": ["discs/models/maxcut.py:Maxcut.objective"]}
{"id": "C41", "title": "Neighbourhood log-ratios equal true differences of log-likelihood", "statement": "For the models offering logratio_in_neighborhood (MaxCut, MIS, NormCut, Bernoulli) the returned log-ratio of each neighbour equals forward(neighbour) - forward(x), and where a value of forward is returned it is forward(x).", "quantifier": "every graph without self-loops, padding, temperature, sample and neighbour", "why_tests_cant": "All graphs and samples.", "anchors": ["discs/models/maxcut.py:Maxcut.logratio_in_neighborhood", "discs/models/mis.py:MIS.logratio_in_neighborhood", "discs/models/normcut.py:NormCut.logratio_in_neighborhood", "discs/models/bernoulli.py:Bernoulli.logratio_in_neighborhood"]}
{"id": "C42", "title": "CO score is independent of temperature", "statement": "For every combinatorial model evaluate returns objective minus penalty regardless of the temperature in the parameters, and forward orders samples by it.", "quantifier": "every nonzero temperature, sample, graph", "why_tests_cant": "Real identity.", "anchors": ["discs/models/comb_ebm.py:CombEBM.forward", "discs/models/comb_ebm.py:CombEBM.evaluate"]}
{"id": "C43", "title": "Graph batches cover every instance exactly once on every process layout", "statement": "Iterating the graph generator over all processes yields every graph instance exactly once with its own index, in order, in batches of exactly the local batch size, the last ones filled with dummies marked -1; all processes yield the same number of batches.", "quantifier": "every number of instances, batch size, number of processes dividing it, process", "why_tests_cant": "All sizes and process counts.", "anchors": ["discs/graph_loader/common.py:GraphGenerator.get_iterator"]}
{"id": "C44", "title": "Edge arrays represent the graph exactly under padding", "statement": "Converting a graph to padded edge arrays keeps every edge with its weight once, marks exactly the padding as masked, gives padding weight zero, and the bidirectional array lists each edge in both directions.", "quantifier": "every graph, padding length", "why_tests_cant": "All graphs.", "anchors": ["discs/common/utils.py:graph2edges"]}
{"id": "C45", "title": "SAT instances are encoded faithfully as independent-set graphs", "statement": "For a 3-CNF formula the generated graph has an independent set of size k if and only if some assignment satisfies at least k clauses; in particular an independent set of size #clauses exists iff the formula is satisfiable.", "quantifier": "every 3-CNF formula, including repeated and complementary literals", "why_tests_cant": "All formulas and assignments.", "anchors": ["discs/graph_loader/mis_loader.py:SatLibGraphGen.cnf2graph"]}
{"id": "C46", "title": "Config strings round-trip", "statement": "Parsing the string obtained by joining key-value pairs with '-' and ',' returns those pairs, values may contain '-', and a later duplicate key wins.", "quantifier": "every list of keys without '-' or ',' and values without ','", "why_tests_cant": "All strings.", "anchors": ["discs/common/utils.py:parse_cfg_str"]}
{"id": "C47", "title": "A run performs exactly chain_length sampler steps", "statement": "A sampling experiment performs exactly chain_length sampler steps for every burn-in ratio, and the ESS is computed over chain_length - int(chain_length * ess_ratio) recorded states, all after burn-in.", "quantifier": "every chain length and ratio", "why_tests_cant": "All lengths.", "anchors": ["discs/experiment/sampling.py:Sampling_Experiment._compute_chain"]}
{"id": "C48", "title": "Reported best solution is the best one logged, with its sample", "statement": "In a combinatorial experiment the reported best ratio of each instance equals the maximum ratio over all logged steps and chains, the reported best sample attains it, and the reported best never decreases during the run.", "quantifier": "every run length, logging interval, number of instances, batch, every sequence of evaluated values", "why_tests_cant": "All histories.", "anchors": ["discs/experiment/sampling.py:CO_Experiment._compute_chain"]}
{"id": "C49", "title": "Scores are attributed to the instance they belong to", "statement": "When samples are laid out over devices the scores reshaped for reporting put every chain's score in the row of its own problem instance.", "quantifier": "every number of devices, instances and chains", "why_tests_cant": "All device layouts.", "anchors": ["discs/experiment/sampling.py:Experiment._prepare_data", "discs/experiment/sampling.py:CO_Experiment._compute_chain"]}
{"id": "C50", "title": "Results of all instances are saved", "statement": "After a combinatorial run the results file contains the results of every instance processed in the run.", "quantifier": "every number of batches of instances", "why_tests_cant": "All run lengths.", "anchors": ["discs/experiment/sampling.py:CO_Experiment.get_results", "discs/common/experiment_saver.py:Saver.save_co_resuts", "discs/common/experiment_saver.py:Saver._dump_dict"]}
{"id": "C51", "title": "Annealing temperature is positive, non-increasing and bounded below", "statement": "For each supported schedule the temperature used at every step is positive, never increases and never drops below the final temperature.", "quantifier": "every step, chain length, initial and final temperature, decay rate in (0,1)", "why_tests_cant": "All steps and real parameters.", "anchors": ["discs/experiment/sampling.py:CO_Experiment._build_temperature_schedule"]}
{"id": "C52", "title": "ESS is normalised by what was actually run", "statement": "The reported ESS per step divides the ESS by the number of states it was computed over and by the number of likelihood calls spent on them.", "quantifier": "every chain length, ESS ratio", "why_tests_cant": "All ratios.", "anchors": ["discs/evaluators/ess_eval.py", "discs/experiment/sampling.py:Sampling_Experiment._compute_chain"]}
{"id": "C53", "title": "Annealed importance weights are unbiased", "statement": "If each transition leaves its intermediate distribution invariant and initial samples are exact, the mean of the exponentiated accumulated log-weights equals the ratio of normalisers of the final and initial distributions.", "quantifier": "every finite state space, every sequence of energies and invariant kernels, every length", "why_tests_cant": "Sum over all paths.", "anchors": ["discs/experiment/sampling.py:EBM_Experiment._compute_chain", "discs/models/resnet.py"]}
{"id": "C54", "title": "Exponential moving average stays in the convex hull", "statement": "The EMA of parameters after any number of updates is a convex combination of the parameters seen, equals the parameters after the first update (decay 0), and stays within any interval containing them.", "quantifier": "every sequence of parameters and decay in [0,1]", "why_tests_cant": "All histories.", "anchors": ["discs/common/utils.py:apply_ema", "discs/learning/train.py"]}
{"id": "C55", "title": "Replay buffer updates only what was sampled", "statement": "Updating the buffer at the indices returned by the sampling call replaces exactly those entries with the given ones in order, keeps the size and leaves every other entry unchanged.", "quantifier": "every buffer, batch and sequence of operations", "why_tests_cant": "All histories.", "anchors": ["discs/learning/replay_buffer.py"]}
{"id": "C56", "title": "Plain locally-balanced sampler: what its jump chain leaves invariant", "statement": "With exact neighbourhood log-ratios and a balanced weight function, the plain locally-balanced step is a probability kernel in detailed balance with exp(forward(x)) times the total neighbour weight of x; it does not in general leave exp(forward) invariant (for one site only when forward is constant).", "quantifier": "every binary model, balanced weight function, dimension >= 1, pair of states", "why_tests_cant": "The bias is a property of the stationary distribution over all states; sampled runs cannot separate it from noise.", "anchors": ["discs/samplers/locallybalanced.py:LocallyBalancedSampler.step", "discs/models/comb_ebm.py:BinaryNodeCombEBM.get_neighbor_fn"]}
{"id": "C57", "title": "Plain locally-balanced step runs only with a complete neighbourhood interface", "statement": "The step returns a result exactly when the model's logratio_in_neighborhood returns four values with a callable neighbour function and the weight function name is known; its result is a pair, so the experiment loop, which unpacks three values, always fails with it.", "quantifier": "every model interface, weight name, sample, draw, state", "why_tests_cant": "Decision logic over all interfaces and names.", "anchors": ["discs/samplers/locallybalanced.py:LocallyBalancedSampler.step", "discs/experiment/sampling.py"]}
{"id": "C58", "title": "DMALA proposals have the advertised odds", "statement": "At step size log_tau a site's proposal odds (binary: flip against stay; categorical: another category against the current one) equal exp(log_tau) times exp of the weighted score of that change.", "quantifier": "every step size, score, number of categories, current and proposed category", "why_tests_cant": "Exact law of a proposal; needs all real step sizes and scores.", "anchors": ["discs/samplers/dmala.py:BinaryDMALA.get_dist_at", "discs/samplers/dmala.py:CategoricalDMALA.get_dist_at"]}
{"id": "C59", "title": "A step changes at most the announced number of sites", "statement": "Per chain, a GWG step changes at most num_flips sites (adaptive: the rounded radius; categorical: one) and an accepted binary path-auxiliary step changes exactly num_flips (adaptive: exactly the rounded radius) sites, never fewer.", "quantifier": "every model, mask, batch, draw, radius", "why_tests_cant": "All draws and radii; the tests only look at shapes.", "anchors": ["discs/samplers/gwg.py:BinaryGWGSampler.sample_from_proposal", "discs/samplers/path_auxiliary.py:PAFSNoReplacement.proposal"]}
{"id": "C60", "title": "The categorical FHMM scores every sample of a batch", "statement": "Evaluating the categorical FHMM on an integer batch returns exactly one log-likelihood per sample.", "quantifier": "every batch size, chain length, number of chains and of categories", "why_tests_cant": "the failure needs the number of chains to equal the number of categories, a shape coincidence no fixed test configuration has", "anchors": ["discs/models/fhmm.py:CategFHMM.forward"]}
{"id": "C61", "title": "Normalised-cut energy is the normalised cut", "statement": "Without balance penalty the NormCut objective is minus the sum over categories of (edges leaving the category + eps)/(degree volume + eps^2); with the quadratic penalty it is minus twice the number of cut edges minus the penalty times squared size deviations; with the span penalty it never exceeds minus twice the cut and equals it exactly when all part sizes are within tolerance. Padding does not matter.", "quantifier": "every graph, padding, degree vector, labelling, number of categories, penalty configuration", "why_tests_cant": "The formula -s^2+2s on one-hot sums encodes the boundary count only implicitly; the claim is about all graphs and labellings.", "anchors": ["discs/models/normcut.py:NormCut.objective", "discs/models/normcut.py:NormCut.get_cut_sizes"]}
{"id": "C62", "title": "Max-clique gradient scores are shifted by a constant", "statement": "For the max-clique energy (1 - 2x) * gradient equals the true change of log-likelihood plus penalty/(2*temperature) at every real node and equals the true change (zero) at padded nodes.", "quantifier": "every simple graph, padding, coefficient, temperature, 0/1 sample and node", "why_tests_cant": "The size of the bias and its being the same at all nodes and states is a statement over all samples; tests see single values.", "anchors": ["discs/models/maxclique.py:MaxClique.penalty", "discs/samplers/gwg.py:BinaryGWGSampler.get_dist_at"]}
{"id": "C63", "title": "One-hot gradient scores are exact for Potts and Categorical", "statement": "For the Potts and the factorised categorical model gradient[k] - sum(gradient * x) at a site equals the change of log-likelihood when the site is relabelled to k.", "quantifier": "every parameters, one-hot (indeed real) sample, site and category", "why_tests_cant": "Exactness of a gradient surrogate is a statement over all parameters and states.", "anchors": ["discs/models/potts.py:Potts.forward", "discs/models/categorical.py:Categorical.forward", "discs/samplers/gwg.py:CategoricalGWGSampler.get_dist_at"]}
{"id": "C64", "title": "All instances of a loader have arrays of one size", "statement": "After a loader has scanned its files, every instance converts to edge arrays of the same padded length, every node label is below the common number of nodes, and the number of instances is right; a configured maximum below an instance size breaks this.", "quantifier": "every list of graphs", "why_tests_cant": "Depends on the maximum over all files; a test uses one data set.", "anchors": ["discs/graph_loader/maxcut_loader.py:RandGraphGen.__init__", "discs/graph_loader/mis_loader.py:ErTestGraphGen.__init__", "discs/common/utils.py:graph2edges"]}
{"id": "C65", "title": "Relabelling a connected component is an isomorphism", "statement": "gen_connected relabels the largest component to 0..n-1 without failing, every edge keeps its endpoints up to the relabelling, and it skips relabelling exactly when labels are already 0..n-1.", "quantifier": "every component with distinct nodes", "why_tests_cant": "Random graphs hit each labelling with probability zero in tests; the claim is for all components.", "anchors": ["discs/graph_loader/common.py:gen_connected"]}
{"id": "C66", "title": "The burn-in ratio only decides what is recorded", "statement": "Two sampling experiments that differ only in the ESS ratio go through the same states, keys and sampler states at every step; the ratio only decides from which step on they are recorded.", "quantifier": "every chain length, both ratios in [0,1], every sampler and seed", "why_tests_cant": "Equality of two whole runs.", "anchors": ["discs/experiment/sampling.py:Sampling_Experiment._compute_chain"]}
{"id": "C67", "title": "Persistent chains are written back to the buffer entry they came from", "statement": "In one training step the buffer entry a chain was taken from receives that chain's own result after all persistent steps, the loss is computed on exactly these samples, and all other entries are unchanged.", "quantifier": "every number of devices, chains per device, persistent steps, buffer size and per-chain map", "why_tests_cant": "Index arithmetic of two reshapes and a scatter for all sizes.", "anchors": ["discs/learning/binary_ebm/main_binary_training.py:EBMTrainer.batch_processing", "discs/learning/replay_buffer.py"]}
{"id": "C68", "title": "Data-parallel gradient is the full-batch gradient", "statement": "Averaging over devices the mean gradients of the device shards equals the mean gradient of the whole batch.", "quantifier": "every number of devices and examples per device, every gradient", "why_tests_cant": "All splits; real-number identity.", "anchors": ["discs/learning/train.py:Trainer.global_update_fn", "discs/common/utils.py:shard_to_local_devices"]}
{"id": "C69", "title": "Warm-up learning rate rises to the configured rate and then falls", "statement": "The updown schedule stays in [0, lr], never falls before the end of the warm-up where it equals lr, never rises after it and ends at lr/100.", "quantifier": "every lr, warm-up fraction in [0,1], number of steps and step", "why_tests_cant": "All steps and fractions.", "anchors": ["discs/learning/train.py:build_lr_schedule"]}
{"id": "C70", "title": "Training batches split the data without repetition", "statement": "Every batch has exactly the announced number of devices and examples per device; the batches in order are a prefix of the data, at most one process batch is dropped; an accepted batch size is divided without remainder over processes and devices.", "quantifier": "every data set, number of processes, devices, batch size", "why_tests_cant": "All sizes.", "anchors": ["discs/common/data_loader.py:prepare_dataloader", "discs/common/utils.py:get_per_process_batch_size"]}
{"id": "C71", "title": "Initial image distribution is non-degenerate; random keys do not repeat", "statement": "The mean image is strictly between 0 and 1, as importance weighting needs; successive keys of the host key generator use strictly increasing counters.", "quantifier": "every data set; every number of requests", "why_tests_cant": "All data sets and histories.", "anchors": ["discs/learning/train.py:get_data_mean", "discs/common/utils.py:RngGen"]}
{"id": "C72", "title": "Samplers converge to the target from every start", "statement": "For any initial sample the distribution of the chain approaches the normalised target geometrically in total variation, up to the explicit cost of the numerical offsets of the acceptance test; hence so do expectations of bounded functions.", "quantifier": "every model over a finite state space, every start, every number of steps; Gibbs, block Gibbs, Hamming ball, RBM block Gibbs, random walk, DMALA and DLMC with settled step sizes (binary and categorical), GWG with at least two flips, adaptive and categorical GWG", "why_tests_cant": "Convergence is a statement about a limit of distributions over exponentially many states; runs only show samples.", "anchors": ["discs/samplers/gibbs.py:GibbsSampler.step", "discs/samplers/blockgibbs.py", "discs/samplers/hammingball.py", "discs/samplers/randomwalk.py", "discs/samplers/dmala.py", "discs/samplers/dlmc.py", "discs/samplers/gwg.py"]}
{"id": "C73", "title": "A sampler with a fixed number of flips can reach every state and forgets its start", "statement": "From every initial sample every state has positive probability after enough steps, and the distribution converges to the target, also when the number of flips per step is fixed (num_flips with adaptive off in the path-auxiliary sampler, num_flips = 1 in GWG).", "quantifier": "every model, balancing function, number of flips, number of steps", "why_tests_cant": "Unreachable states never show up as an error: chains run, accept and give plausible statistics on half of the space.", "anchors": ["discs/samplers/path_auxiliary.py:PAFSNoReplacement.proposal", "discs/samplers/gwg.py:BinaryGWGSampler"]}
{"id": "C74", "title": "The FHMM target is the posterior of the states given the observations", "statement": "Up to a factor that does not depend on the states, the exponential of the FHMM log-likelihood is the probability of the states under the model's own sampler times the normal density of the observations with mean x_t.w + b and variance sigma^2; observations generated by the model have exactly that law.", "quantifier": "every number of time steps, chains, categories, parameters with alpha, beta in (0,1), sigma nonzero, observations and states", "why_tests_cant": "Identity between densities over real observations and all state sequences.", "anchors": ["discs/models/fhmm.py:BinaryFHMM.forward", "discs/models/fhmm.py:BinaryFHMM.sample_Y", "discs/models/fhmm.py:CategFHMM.forward", "discs/models/fhmm.py:CategFHMM.sample_Y"]}
{"id": "C75", "title": "A batch of chains is a batch of independent chains", "statement": "One step of a sampler on a batch moves the chains independently of each other given their current states, each as a single chain would move; hence after any number of steps the joint law is the product of the laws of the single chains and the product of the targets is preserved.", "quantifier": "every model, batch size, batch of states, number of steps, for Gibbs, block Gibbs, RBM block Gibbs, random walk, GWG and path-auxiliary (fixed and adaptive) and DMALA/DLMC with settled step sizes", "why_tests_cant": "Independence is a statement about the joint distribution of all chains; correlated chains still look right one at a time, but effective sample sizes and error bars computed across chains become wrong.", "anchors": ["discs/samplers/gibbs.py:GibbsSampler.step", "discs/samplers/blockgibbs.py", "discs/samplers/hammingball.py:HammingBallSampler.step", "discs/samplers/randomwalk.py", "discs/samplers/gwg.py", "discs/samplers/path_auxiliary.py", "discs/samplers/dmala.py", "discs/samplers/dlmc.py"]}
{"id": "C76", "title": "Gumbel perturbation and sorting draws without replacement", "statement": "Sampling without replacement by adding Gumbel noise computed from uniform numbers and taking the best scores has exactly the law of drawing one index after another with probabilities proportional to exp(log_prob); the best single index has the softmax law. The path-auxiliary step computed from uniform noise (threshold mask, sorted and scattered forward score, argsort-reversed backward score) has the transition probabilities proved correct for ordered draws.", "quantifier": "every number of classes, log-probability vector, number of draws up to the number of classes; every model, balancing function, mask, state and sample", "why_tests_cant": "A law over continuous noise; frequency tests cannot distinguish nearby laws and never cover all sequences.", "anchors": ["discs/common/math_util.py:gumbel", "discs/common/math_util.py:multinomial", "discs/samplers/path_auxiliary.py:PAFSNoReplacement.proposal", "discs/samplers/path_auxiliary.py:PAFSNoReplacement.ll_y2x"]}
{"id": "C77", "title": "Random keys are consumed once", "statement": "Over a whole run (initialisation, all sampler steps, all devices, chains and processes) no random key is consumed by two draws and no consumed key is the ancestor of another consumed key.", "quantifier": "every seed, number of steps, models, chains, devices, processes, resamplings; every sampler and model", "why_tests_cant": "Reused keys produce plausible samples; the defect is a correlation between draws that no single run shows, and it depends on the whole tree of derivations.", "anchors": ["discs/samplers/gibbs.py", "discs/samplers/blockgibbs.py", "discs/samplers/hammingball.py", "discs/samplers/randomwalk.py", "discs/samplers/gwg.py", "discs/samplers/path_auxiliary.py", "discs/samplers/dmala.py", "discs/samplers/dlmc.py", "discs/samplers/hammingball.py:HammingBallSampler.compute_u", "discs/samplers/path_auxiliary.py:PAFSNoReplacement.proposal", "discs/models/fhmm.py:sample_X", "discs/models/fhmm.py:CategFHMM.make_init_params", "discs/experiment/sampling.py:_initialize_model_and_sampler", "discs/experiment/sampling.py:_compute_chain", "discs/experiment/sampling.py:_get_chains_and_evaluations", "discs/learning/train.py:Trainer.train_loop", "discs/learning/train.py:Trainer.init_states", "discs/learning/rbm/main_rbm_training.py:RBMTrainer.batch_processing", "discs/common/utils.py:RngGen"]}
{"id": "C78", "title": "Offline normalised-cut scores agree with the graph", "statement": "The scores the normalised-cut evaluator reports for a partition file are those of the graph: the cut ratio is the fraction of edges between different groups, the volumes are the degree sums of the groups, balanceness lies in [0,1] and is 1 exactly for equal groups and 0 exactly for a single group; and the graphs the loader produces can be batched and get initial partitions that use every group.", "quantifier": "every graph, node order in the file, partition, number of groups, batch of graph sizes", "why_tests_cant": "A wrong score is still a number in the usual range; the agreement depends on node order, weights and loops of the graph file, which fixtures do not vary.", "anchors": ["discs/common/normcut_evaluator.py", "discs/graph_loader/normcut_loader.py", "discs/models/normcut.py:NormCut.get_init_samples"]}
{"id": "C79", "title": "The Bernoulli evaluator measures the distance to the true moments", "statement": "For exact independent draws the expected average mean error is the average site variance over the number of steps (over the last samples: over the number of chains), the per-chain variance is an unbiased estimate of the model's variance; the errors vanish exactly if the sample moments equal the model's; averages never exceed maxima; the mixing curve has one point for every full window.", "quantifier": "every number of steps, chains, sites; every parameters; every sample array; every window size and stride", "why_tests_cant": "Expectations over all random outcomes cannot be checked on finitely many runs; a biased normalisation is invisible in long chains.", "anchors": ["discs/evaluators/bernoulli_eval.py:Bernoullievaluator", "discs/models/bernoulli.py:get_expected_val", "discs/models/bernoulli.py:get_var"]}
{"id": "C80", "title": "n-gram statistics of generated text", "statement": "The evaluator's uniqueness numbers are the fraction of phrases of the generated sentences that do not occur in the reference corpus, resp. that occur once among the generated sentences, for every size up to max_n_grams; they do not depend on the order of sentences; self-BLEU compares every sentence with all others.", "quantifier": "every list of sentences, references, token type, lower-casing, replacement table, size", "why_tests_cant": "Small corpora have few repeated phrases, where the wrong denominators and the case mismatch do not show.", "anchors": ["discs/evaluators/lm_eval.py:LMevaluator"]}
{"id": "C81", "title": "Text energy is the pseudo-log-likelihood of the masked language model", "statement": "For every sentence the energy of the infilled tokens is the sum over the infill positions of the log probability the language model gives to the token there when that position is masked and the others show the current tokens; it is never positive; with one position it is a normalised distribution; the initial tokens are drawn from the model with every infill position masked.", "quantifier": "every network (as a function from rows to logits), vocabulary size, mask token, number of infill positions, token assignment", "why_tests_cant": "The energy of a wrong input row is still a plausible negative number; only equality with the conditional law for all inputs shows it.", "anchors": ["discs/models/text_infilling.py:single_forward", "discs/models/text_infilling.py:get_init_samples"]}
{"id": "C82", "title": "Infilling data set: masks, references, decoding", "statement": "create_infill_dataset uses, per corpus, the first lines of admissible length up to the required number and keeps all other lines as references; masked sentences differ from the originals exactly at the requested number of drawn inner positions; infill_pos are the positions of the mask tokens after [CLS]; decode puts the sampled tokens in these places and nowhere else; no infilled sentence is a reference. The data set is made exactly if neither corpus is empty and every line to be used has room for the masks.", "quantifier": "every corpus, shuffle, length bounds, number of masks, drawn positions, tokenizer (word-wise for the count)", "why_tests_cant": "Shuffles and draws are random and corpora have thousands of lines; off-by-one positions only show for particular draws, duplicates only in particular corpora.", "anchors": ["discs/common/utils.py:create_infill_dataset", "discs/models/text_infilling.py:decode"]}
{"id": "C83", "title": "Sentences reported by the infilling experiment", "statement": "For each masked sentence the experiment reports the sentences of all resamplings unchanged, and as top-k those of largest log-likelihood in ascending order; every resampling starts from the same state with a fresh key; the results are evaluated and saved.", "quantifier": "every number of resamplings, sentences (also equal ones), log-likelihoods, k, chain", "why_tests_cant": "Tests use few resamplings; the prefix handling changes at the 11th and 101st.", "anchors": ["discs/experiment/sampling.py:Text_Infilling_Experiment"]}
{"id": "C84", "title": "Precedence of configurations; sweeps cover every combination", "statement": "The merged configuration takes each entry from the most specific source: model and sampler configuration over experiment configuration over defaults; the experiment configuration always takes effect; graph models run as many models as their graph configuration says. A sweep launches exactly one job for every combination of the listed values.", "quantifier": "every configuration, key, value, truthiness of values, graph configuration; every sweep", "why_tests_cant": "The merge order differs between three kinds of models and depends on the presence and truth of keys; tests fix a few configurations.", "anchors": ["discs/experiment/main_sampling.py:get_main_config", "discs/experiment/main_sampling.py:update_save_dir", "discs/xm_launcher.py:get_sweeps"]}
{"id": "C85", "title": "Results are grouped by configuration and none is lost", "statement": "When results are compared with respect to one setting, every experiment that has this setting is in exactly one group; two experiments are in the same group exactly if they agree in all other settings; the table of a group holds all results of every sampler in order; sorting the table keeps all rows.", "quantifier": "every list of experiments with arbitrary settings and results, every key", "why_tests_cant": "Groupings are exponentially many; tests use sweeps in which all jobs have the same settings.", "anchors": ["discs/plot_results/plot_utils.py:get_clusters_key_based", "discs/plot_results/plot_utils.py:get_diff_key", "discs/plot_results/plot_utils.py:sort_based_on_samplers", "discs/plot_results/plot_results.py:organize_experiments"]}
{"id": "C86", "title": "Result folders carry the configuration of their job", "statement": "The name of the result folder that the launcher derives from the swept settings can be read back: every setting gets its value.", "quantifier": "every list of swept settings, every work unit", "why_tests_cant": "String formats break for particular characters and values only.", "anchors": ["discs/xm_launcher.py:make_job", "discs/plot_results/plot_utils.py:get_experiment_config"]}
{"id": "C87", "title": "Averages along a run estimate expectations under the target", "statement": "The average of a bounded function over the first n samples of a run has mean squared error at most (A/n + err) M^2 against its expectation under the target, A not depending on the start, n or the function, err the cost of the numerical offset of the acceptance test; so the probability of being off by epsilon goes to zero.", "quantifier": "every model over a finite state space, every bounded function, every start, every n; Gibbs, block Gibbs, RBM block Gibbs, random walk, DMALA, DLMC, GWG (two or more flips), adaptive and categorical GWG", "why_tests_cant": "A law of large numbers with a rate: a finite run can neither confirm nor refute it, and a biased sampler gives equally smooth averages.", "anchors": ["discs/samplers/gibbs.py", "discs/samplers/blockgibbs.py", "discs/samplers/hammingball.py", "discs/samplers/randomwalk.py", "discs/samplers/dmala.py", "discs/samplers/dlmc.py", "discs/samplers/gwg.py"]}
{"id": "C88", "title": "An adaptive sampler keeps the target while it adapts", "statement": "If the initial samples have the target distribution, the samples have it after every step of a run, although the radius or step size of each step is computed from the acceptance ratios of the steps before.", "quantifier": "every model, number of sites, requested acceptance rate, number of steps, initial sampler state; random walk, GWG, path-auxiliary sampler, DMALA, DLMC", "why_tests_cant": "Every single step passes an invariance check at the radius it uses; the bias comes from the dependence between radius and sample and is a few percent.", "anchors": ["discs/samplers/randomwalk.py:AdaptiveRWSampler.select_sample", "discs/samplers/randomwalk.py:RWSampler.step", "discs/samplers/gwg.py:AdaptiveGWGSampler.select_sample", "discs/samplers/path_auxiliary.py:PAFSNoReplacement.select_sample", "discs/samplers/dmala.py:DMALASampler.update_sampler_state", "discs/samplers/dlmc.py:DLMCSampler.update_sampler_state"]}
{"id": "C89", "title": "Gradient-based proposals have the advertised law", "statement": "On a model whose gradient scores are exact, GWG and the path-auxiliary sampler draw the next change y of x with probability proportional to g(pi(y)/pi(x)), g being the configured weight function; under a 0/1 mask the free sites keep these odds; the current category and masked sites get a fixed weight of exp(-1e9).", "quantifier": "every weight function, model with exact scores (Bernoulli, MIS and the factorised categorical model without hypothesis), dimension, sample, site, category", "why_tests_cant": "The sampler stays correct (Metropolis-Hastings repairs any proposal), so a wrong sign or a swapped weight function only slows it down.", "anchors": ["discs/samplers/gwg.py:BinaryGWGSampler.get_dist_at", "discs/samplers/gwg.py:CategoricalGWGSampler.get_dist_at", "discs/samplers/path_auxiliary.py:PAFSNoReplacement.get_local_dist", "discs/samplers/locallybalanced.py:LocallyBalancedSampler.apply_weight_function_logscale"]}
{"id": "C90", "title": "Averages along an adaptive run estimate expectations", "statement": "The average of a function over the samples of a long run of an adaptive sampler converges to its expectation under the target.", "quantifier": "every model, function, start, requested acceptance rate; random walk, GWG, path-auxiliary sampler", "why_tests_cant": "The bias (a few tenths of a percent) does not shrink with the length of the run and is smaller than the noise of any test run.", "anchors": ["discs/samplers/randomwalk.py:AdaptiveRWSampler.select_sample", "discs/samplers/gwg.py:AdaptiveGWGSampler.select_sample", "discs/samplers/path_auxiliary.py:PAFSNoReplacement.select_sample"]}
{"id": "C91", "title": "The training gradient is the gradient of the log-likelihood", "statement": "The gradient that an update of the EBM or RBM training uses is, in expectation, the gradient of the negative log-likelihood of the batch (normalised model) whenever the negative samples have the model's distribution; for the RBM the error of k steps of block Gibbs from any start vanishes geometrically in k; binarised pixels are on with probability their grey value.", "quantifier": "every differentiable energy, batch, number of devices and rows per device, joint law of the negative samples; every RBM and start of the chains", "why_tests_cant": "The normalising constant never appears in the code, and the statement is about the expectation over all chains; a run only ever sees one draw.", "anchors": ["discs/learning/train.py", "discs/learning/binary_ebm/main_binary_training.py:loss_func", "discs/learning/rbm/main_rbm_training.py"]}
{"id": "C92", "title": "What the training loop does", "statement": "Training makes total_train_steps updates, each with the next batch at the scheduled learning rate, logs the rate it used, plots and saves at the configured frequencies, and saves the final state.", "quantifier": "every schedule, data loader, number of steps and frequencies", "why_tests_cant": "Long trainings are never run in tests; the number of updates depends on the interplay of loader, repetition and loop bound.", "anchors": ["discs/learning/rbm/main_rbm_training.py", "discs/learning/binary_ebm/main_binary_training.py", "discs/learning/train.py:train_loop", "discs/common/data_loader.py"]}
{"id": "C93", "title": "Conversion of PyTorch checkpoints", "statement": "If pt2params converts a checkpoint without an error, every parameter of the network is overwritten by exactly one tensor of the checkpoint, in the layout in which the flax layer computes what the PyTorch layer computed.", "quantifier": "every list of checkpoint entries and parameters, kernel sizes and inputs", "why_tests_cant": "A wrong transposition of a square kernel or a name collision goes through without error and shows only as a worse model.", "anchors": ["discs/learning/binary_ebm/pt2params.py"]}
{"id": "C94", "title": "The picture of the chains shows every image in its cell", "statement": "In the tiled picture image i fills row i / C, column i % C of the grid, images do not overlap, everything else has the padding value; the training pictures show chain j of device d at cell d * per + j with value 1 white and 0 black.", "quantifier": "every number and size of images, padding, number of columns, channels, devices and chains per device", "why_tests_cant": "A wrong reshape or transpose shows plausible pictures and cannot be excluded for all sizes by looking at some.", "anchors": ["discs/plot_results/plot.py:np_tile_imgs", "discs/plot_results/plot.py:plot_shareded_image", "discs/common/utils.py:all_gather"]}
{"id": "C95", "title": "The image data sets for training", "statement": "Loading a data set by name gives training, validation and test images that are disjoint parts of the files, upright, and binary for the data sets declared binary; unknown names are errors.", "quantifier": "every content of the files, every shuffle and every draw of the binarisation", "why_tests_cant": "Tests would need the files; a wrong axis order, an overlapping split or unbinarised data still trains.", "anchors": ["discs/learning/raw_torch_dataset.py:load_raw_dataset", "discs/learning/raw_torch_dataset.py:load_dynamic_mnist", "discs/learning/raw_torch_dataset.py:load_omniglot", "discs/learning/train.py:load_numpyds"]}
{"id": "C96", "title": "Labels tell experiments apart", "statement": "Experiments shown under the same label in plots and in results.csv have the same sampler settings, and the label says what they are.", "quantifier": "every configuration dictionary with values as used by sweeps", "why_tests_cant": "Whether two of the many configurations share a label is a statement about all pairs.", "anchors": ["discs/plot_results/plot_utils.py:process_keys", "discs/common/experiment_saver.py:_save_ess_results"]}
{"id": "C97", "title": "Bars stand at their ticks", "statement": "In a figure over a swept value, every experiment is drawn once, at the tick of its value, and missing experiments leave a gap.", "quantifier": "every list of folders, swept value and pattern of missing experiments", "why_tests_cant": "Figures of incomplete sweeps look like figures of complete ones.", "anchors": ["discs/plot_results/plot_results.py:get_ticks_and_sorted_experiments", "discs/plot_results/plot_results.py:plot_graph_cluster"]}
{"id": "C98", "title": "Bars have the heights of the saved results", "statement": "The plotted effective sample sizes are the numbers in results.csv, scaled to the chain length.", "quantifier": "every pair of numbers in NumPy's print format, every chain length", "why_tests_cant": "The mis-read numbers are plausible numbers.", "anchors": ["discs/plot_results/plot_results.py:extract_floats", "discs/plot_results/plot_results.py:main", "discs/common/experiment_saver.py:_save_ess_results", "discs/experiment/sampling.py:_compile_evaluator"]}
{"id": "C99", "title": "Curves over steps and time", "statement": "Points of the solution-quality curve stand at the steps (times) they belong to, and the curve never falls.", "quantifier": "every run of the combinatorial driver, logging interval and instance set", "why_tests_cant": "The shift is small and depends on the logging interval in the folder name.", "anchors": ["discs/plot_results/plot_co_through_time.py:plot_graph_cluster", "discs/plot_results/plot_co_through_time.py:main", "discs/experiment/sampling.py:CO_Experiment._compute_chain"]}
{"id": "C100", "title": "The infilling network is BERT on the completed sentence", "statement": "The network called by the text-infilling model, fed with one-hot vectors for the blanks, computes the logits of a BERT masked language model for the sentence with the chosen words in the blanks; it is a differentiable function of the vectors; padding does not influence it.", "quantifier": "every sentence, every set of blanks, all weights and all network sizes", "why_tests_cant": "A swapped order of positions or a wrong row replaced still gives plausible words.", "anchors": ["discs/common/customized_huggingface_flax_bert.py:FlaxBertEmbeddings", "discs/common/customized_huggingface_flax_bert.py:FlaxBertSelfAttention", "discs/common/customized_huggingface_flax_bert.py:FlaxBertForMaskedLMModule_Infilling", "discs/models/text_infilling.py:TextInfilling.forward"]}
{"id": "C101", "title": "A converted checkpoint gives the energies of the PyTorch network", "statement": "Every checkpoint with the names and shapes of the PyTorch residual network is accepted by the conversion, and the Flax network with the converted parameters gives the energy that the PyTorch network gives, for images of every size.", "quantifier": "every width, every checkpoint (any order of entries), every image size and image", "why_tests_cant": "A swapped kernel axis or a block fed with another block's weights still gives an energy; only a comparison for all weights excludes it.", "anchors": ["discs/models/resnet.py:ResnetBinary", "discs/models/resnet.py:BasicBlock", "discs/learning/binary_ebm/pt2params.py:main"]}
{"id": "C102", "title": "The reported effective sample size measures how much the chains move", "statement": "For every recorded chain the effective sample size lies between one and the number of recorded steps, is one for a chain that never moves, does not depend on scale, offset or direction of the mapped samples, and is high only for chains that move and mix; the reported pair is mean and deviation over the chains.", "quantifier": "every number of steps and chains, every real-valued mapped chain", "why_tests_cant": "The estimator is a ratio of sums with a data-dependent cut-off; range and degenerate cases concern all chains.", "anchors": ["discs/evaluators/ess_eval.py:ESSevaluator._get_ess", "discs/experiment/sampling.py:Sampling_Experiment._get_mapped_samples"]}
{"id": "C103", "title": "Acceptance tests with single-precision noise still target the model", "statement": "The acceptance noise is one of 2^23 equally spaced numbers. Runs of every Metropolis-Hastings sampler still preserve the target up to an explicit error per step; acceptance probabilities are right up to one grid step; the random walk still converges, down to a floor; and rare states keep their probability.", "quantifier": "every model, sampler state past the step-size choice, number of steps, grid size", "why_tests_cant": "The effect of the noise's precision is a bias of order 2^-23 per step, invisible in any affordable run.", "anchors": ["discs/common/math_util.py:bernoulli_logp", "discs/common/math_util.py:mh_step", "discs/samplers/randomwalk.py:RWSampler.step", "discs/samplers/gwg.py", "discs/samplers/path_auxiliary.py", "discs/samplers/dmala.py", "discs/samplers/dlmc.py"]}
{"id": "C104", "title": "Categorical draws with single-precision noise still target the model", "statement": "Categorical draws are the first maximum of logits plus Gumbel noise computed from one of 2^23 equally spaced numbers. Each draw is within an explicit distance of softmax of the logits; Gibbs and block Gibbs runs still preserve the target up to an explicit error per step; every category keeps a positive probability, so Gibbs still converges to the target; and drawing k of n sites by mask selects k of them.", "quantifier": "every logits, number of categories, model, block size, number of steps, grid size", "why_tests_cant": "The error of a draw is of order 2^-23 times the number of categories, and a category that is never drawn cannot be told by a test from one that is drawn once in 10^9 times.", "anchors": ["discs/samplers/gibbs.py:GibbsSampler.step", "discs/samplers/blockgibbs.py:BlockGibbsSampler.step", "discs/common/math_util.py:multinomial", "discs/common/math_util.py:gumbel"]}
{"id": "C105", "title": "Graph loaders yield every stored instance with the right sizes", "statement": "A graph type is served by the class registered under its name or its longest prefix, and rejected otherwise. A loader yields every stored instance once, with its own reference value, in an order that does not depend on how the file system lists the folder; sizes found by scanning bound all instances and count them. Instances of the Optsicom class have the nodes, edges and weights of the file, perturbed by the noise that rand_type asks for.", "quantifier": "every graph type, folder content, order of listing, number and size of graphs", "why_tests_cant": "Needs all folder contents and listing orders; the data sets are not available to tests.", "anchors": ["discs/graph_loader/graph_gen.py:get_graphs", "discs/graph_loader/maxcut_loader.py:RandGraphGen", "discs/graph_loader/maxcut_loader.py:OptsicomGen", "discs/graph_loader/mis_loader.py:ErTestGraphGen", "discs/graph_loader/mis_loader.py:ErDensityGraphGen", "discs/graph_loader/mis_loader.py:SatLibGraphGen", "discs/graph_loader/maxclique_loader.py:RBTestGraphGen", "discs/graph_loader/maxclique_loader.py:TwitterGraphs", "discs/graph_loader/normcut_loader.py:RandGraphs"]}
{"id": "C106", "title": "Runs started from get_init_samples are valid and only approach the target", "statement": "For every model get_init_samples draws valid samples with the documented law (uniform on the state space, or the mean of the data, or partitions using every group). A run started from it holds a valid sample at every step, its law never moves away from the target by more than the error of one step, it converges like runs from fixed samples, and with an exact sampler no state's probability ever differs from the target by more than the factor exp(range of the energy).", "quantifier": "every model and size, all data means, every number of steps, every energy", "why_tests_cant": "Laws of random initial samples and of whole runs cannot be read off finitely many samples.", "anchors": ["discs/models/bernoulli.py:get_init_samples", "discs/models/categorical.py:get_init_samples", "discs/models/potts.py:get_init_samples", "discs/models/ising.py:get_init_samples", "discs/models/fhmm.py:get_init_samples", "discs/models/comb_ebm.py:get_init_samples", "discs/models/maxcut.py:get_init_samples", "discs/models/normcut.py:get_init_samples", "discs/models/rbm.py:build_init_dist", "discs/models/resnet.py:build_init_dist", "discs/experiment/sampling.py:_initialize_model_and_sampler"]}
{"id": "C107", "title": "Single-precision arithmetic displaces a random-walk run by an explicit amount", "statement": "Computed in single precision, in whatever order the sums are compiled: graph energies with whole weights (MaxCut, maximum independent set at temperature one) are exact while the weights add up to at most 2^24, other energies err by an explicit multiple of 2^-24, and the acceptance test decides like the exact one up to a small shift of the log ratio. A run of the random walk then moves its target by at most an explicit amount per step, and converges to it down to an explicit floor. The bound must grow with the size of the parameters: with log-odds 2^25 and 1 a site is sampled as if it were fair.", "quantifier": "every rounding to nearest, every order of summation, every logarithm of given relative accuracy, all sizes, weights, samples and numbers of steps", "why_tests_cant": "Rounding errors depend on compilation and hardware and on the size of the inputs; tests see one order of summation on a few inputs.", "anchors": ["discs/models/bernoulli.py:forward", "discs/models/maxcut.py:objective", "discs/models/mis.py:penalty", "discs/models/mis.py:objective", "discs/models/maxclique.py:penalty", "discs/models/comb_ebm.py:forward", "discs/common/math_util.py:bernoulli_logp", "discs/common/math_util.py:mh_step", "discs/samplers/randomwalk.py:step"]}
{"id": "C108", "title": "Single-precision arithmetic displaces locally balanced runs by an explicit amount", "statement": "Whatever single precision does to gradients, weights and step sizes before a proposal is drawn, the acceptance test of binary DMALA and DLMC, of binary GWG and of categorical DMALA and DLMC corrects for the probabilities actually used. A run moves its target by at most an explicit amount per step: the errors of the energies, of the log-probabilities of the draws and of the four-term sum, plus the distance between the drawn law and the one the log-probabilities stand for. Where every state can be proposed the errors do not accumulate. The bound must grow with the size of the energies: adding 2^26 to the energy leaves the target unchanged but makes the computed ratio independent of the reverse log-probability.", "quantifier": "every rounding to nearest, every order of summation, every logarithm of given relative accuracy, every table of computed proposal probabilities, all sizes, samples, draws and numbers of steps", "why_tests_cant": "Rounding depends on compilation and hardware and on the size of the inputs; a test compares a few runs with a reference of the same precision.", "anchors": ["discs/samplers/dmala.py:step", "discs/samplers/dmala.py:get_ll_onestep", "discs/samplers/dlmc.py:step", "discs/samplers/dlmc.py:get_ll_onestep", "discs/samplers/gwg.py:step", "discs/samplers/gwg.py:get_ll_onestep", "discs/samplers/gwg.py:sample_from_proposal", "discs/common/math_util.py:bernoulli_logp"]}
{"id": "C109", "title": "Annealed combinatorial runs reach the optimum with explicit probability", "statement": "A combinatorial experiment changes the temperature before every step. The law of the last sample is within 2(1-b)^L + (2 lambda R + rho)/b of the Boltzmann law at the last temperature, where b is the probability with which one step draws a fresh sample, lambda the largest change of the inverse temperature in a step, R the range of the score and rho the cost of the offsets. For Gibbs and block Gibbs the same holds sweep by sweep, with D local ranges of the score in place of the fresh draw. For GWG with at least two flips per step it holds in blocks of D+2 steps, with a floor that depends on the bound of the gradient and the lowest temperature. Hence it is an optimum except with probability |S| exp(-gap/T_end) plus half that distance; the probability that the reported best of B chains is below the optimum shrinks geometrically in B and in the number of logged steps. Along the linear and exponential schedules lambda is O(1/L), so long runs end with the Boltzmann law at the last temperature of the schedule. That temperature is final_temperature for the linear schedule but max(init_temperature*decay_rate, final_temperature) for exp_decay.", "quantifier": "all graphs, penalties, schedules, chain lengths, numbers of chains, starting samples", "why_tests_cant": "The claim is about probabilities over all runs and about arbitrarily long chains; a test sees one run.", "anchors": ["discs/experiment/sampling.py:CO_Experiment._compute_chain", "discs/experiment/sampling.py:CO_Experiment._build_temperature_schedule", "discs/experiment/sampling.py:CO_Experiment._initialize_chain_vars", "discs/models/comb_ebm.py:CombEBM.forward", "discs/models/maxcut.py:objective", "discs/models/mis.py:penalty", "discs/samplers/randomwalk.py:step", "discs/samplers/dmala.py:step", "discs/samplers/dlmc.py:step", "discs/experiment/configs/maxcut/ba.py", "discs/experiment/configs/mis/satlib.py", "discs/samplers/gibbs.py:step", "discs/samplers/blockgibbs.py:step", "discs/samplers/gwg.py:BinaryGWGSampler", "discs/samplers/gwg.py:AdaptiveGWGSampler"]}
{"id": "C110", "title": "The sampler built from a configuration keeps the target of its model", "statement": "main_sampling imports the module named in config.sampler.name and calls its build_sampler. It succeeds exactly if the module exists, the keys read by the constructor are present, use_fast_path is on for path_auxiliary and the block of a Hamming ball is not empty. The built sampler has the shape and number of categories of the model, and each of its settings is the value of its key, or the default of the code if the key is absent. Its step raises exactly for an unknown balancing function or solver, for more fixed flips than sites, for exact log-ratios that the model does not provide, and for the plain locally balanced sampler. Otherwise its step is a probability kernel on the samples that keeps exp of the energy it evaluates (forward on the int32 state, or the value of get_value_and_grad or logratio_in_neighborhood) up to 2e-24 + 2 dim 1e-32 of its mass, for every configuration, except for Hamming balls with a block of more than one site and for fixed-flip path auxiliary samplers with more than two categories. Of the nine shipped sampler configurations all build, one (hammingball) is of a wrong class and one (locallybalanced) can never make a step.", "quantifier": "all configurations, models, shapes, numbers of categories and legal sampler states", "why_tests_cant": "The number of configurations is unbounded and the claim is about transition probabilities; the tests build a few samplers and look at single runs.", "anchors": ["discs/experiment/main_sampling.py:main", "discs/samplers/gibbs.py:build_sampler", "discs/samplers/blockgibbs.py:build_sampler", "discs/samplers/hammingball.py:build_sampler", "discs/samplers/randomwalk.py:build_sampler", "discs/samplers/locallybalanced.py:build_sampler", "discs/samplers/gwg.py:build_sampler", "discs/samplers/path_auxiliary.py:build_sampler", "discs/samplers/dmala.py:build_sampler", "discs/samplers/dlmc.py:build_sampler", "discs/samplers/configs/*.py:get_config"]}
{"id": "C111", "title": "For a given model all samplers keep the same distribution", "statement": "The samplers evaluate a model in different ways: forward on the int32 state, get_value_and_grad on a float copy or a one-hot array, logratio_in_neighborhood. For Bernoulli, FHMM, RBM, Categorical, Potts, MaxCut, MIS, MaxClique, unpenalised NormCut and image energy models these values agree, so every sound built sampler keeps exp(forward). For the Ising model with |lambda| < 1 they do not: Gibbs, block Gibbs and random-walk samplers keep the law of independent spins, the gradient samplers keep the Ising law; the two laws differ as soon as lambda is not zero and the lattice has two sites, and a Gibbs or block Gibbs run converges to the former and stays at a positive distance from the latter. For a penalised NormCut the exact log-ratios drop the balance penalty. For Categorical and Potts with two categories the scores of gradient samplers are identically zero.", "quantifier": "all models, parameters, lattice sizes, configurations, run lengths and starting states", "why_tests_cant": "The claim compares stationary laws of different programs for all parameters; tests compare single runs with loose tolerances and never two samplers on the same model.", "anchors": ["discs/models/ising.py:Ising.forward", "discs/models/ising.py:Ising.get_value_and_grad", "discs/models/bernoulli.py:Bernoulli.get_value_and_grad", "discs/models/categorical.py:Categorical.forward", "discs/models/potts.py:Potts.forward", "discs/models/fhmm.py:FHMM.get_value_and_grad", "discs/models/rbm.py:RBM.forward", "discs/models/comb_ebm.py:CombEBM.get_value_and_grad", "discs/models/normcut.py:NormCut.logratio_in_neighborhood", "discs/models/configs/ising_config.py:get_config"]}
{"id": "C112", "title": "From a graph configuration to batches of instances", "statement": "A combinatorial run reads the configuration of its problem and graph type, picks a loader, takes the sizes of the loader and stacks padded instances into batches of num_models. A configuration exists exactly for the shipped pairs of problem and graph type, and those that name a data set need an entry r in the configuration string; the loader it selects always belongs to the problem that was asked for. Without declared sizes every data set with an edge runs: each graph appears once with its own index, filled up with dummies. With declared sizes the run starts exactly if no graph has more edges than declared; the number of nodes is not compared. The sizes of Barabasi-Albert data are chosen by the end of rand_type alone and fit exactly the data with at most four edges per node. For normalised cuts the node degrees are not padded: fewer than five random graphs run only if each has three nodes, five only if they have equal sizes.", "quantifier": "all problem and graph type names, configuration strings, data sets and sizes", "why_tests_cant": "Needs the data sets, which are downloaded separately; tests never build a configuration, a loader and a batch together, and a test data set is one of infinitely many.", "anchors": ["discs/models/configs/maxcut/ba.py:get_model_config", "discs/models/configs/maxcut/er.py:get_model_config", "discs/models/configs/maxcut/optsicom.py:get_model_config", "discs/models/configs/mis/ertest.py:get_model_config", "discs/models/configs/mis/er_density.py:get_model_config", "discs/models/configs/mis/satlib.py:get_model_config", "discs/models/configs/maxclique/rb.py:get_model_config", "discs/models/configs/maxclique/twitter.py:get_model_config", "discs/models/configs/normcut/nets.py:get_model_config", "discs/models/configs/normcut/gap_rand.py:get_model_config", "discs/graph_loader/graph_gen.py:get_graphs", "discs/graph_loader/common.py:GraphGenerator.get_iterator", "discs/common/utils.py:get_datagen", "discs/experiment/main_sampling.py:get_main_config"]}
{"id": "C113", "title": "Reported log Z with the samplers the log Z experiment sweeps", "statement": "EBM_Experiment reports log Z from weights accumulated while the sampler anneals from the Bernoulli base to the model. The log Z sweep runs it with random walk, block Gibbs, Hamming ball, path auxiliary, GWG, DMALA and DLMC, all with their default settings. With exact initial samples the exponential of the last reported value has expectation Z(1)/Z(0): this holds for block Gibbs, and, up to L (2e-24 + 2 dim 1e-32) exp(range of the network), for every sound sampler with adaptation turned off. For the adaptive samplers it is false for every number of temperature steps from three (random walk, DMALA, DLMC) or four (GWG, path auxiliary) on: the acceptance of a step changes the next step size, and a network that looks at a single pixel has its partition function underestimated. For the Hamming ball with blocks of two or more sites it is false for every number of steps from two on.", "quantifier": "all scores, sizes and numbers of temperature steps (positive part); all dimensions, requested rates, balancing functions and numbers of steps (refutations)", "why_tests_cant": "An estimate is random: a test can only compare noisy averages on a model whose partition function is known, and a bias that vanishes for most networks shows on none of the shipped ones.", "anchors": ["discs/run_configs/ebm/binray_ebm/logz.py:get_config", "discs/experiment/sampling.py:EBM_Experiment._compute_chain", "discs/models/resnet.py:ImageEBM.forward", "discs/samplers/randomwalk.py:AdaptiveRWSampler.select_sample", "discs/samplers/blockgibbs.py:BlockGibbsSampler.step", "discs/samplers/hammingball.py:HammingBallSampler.step", "discs/samplers/gwg.py:AdaptiveGWGSampler.select_sample", "discs/samplers/path_auxiliary.py:PAFSNoReplacement.step", "discs/samplers/dmala.py:DMALASampler.step", "discs/samplers/dlmc.py:DLMCSampler.step"]}
{"id": "C114", "title": "The adaptive random walk goes on exploring", "statement": "However long an adaptive random walk runs, it goes on visiting new samples, and a long enough search visits an optimum. True with three or more categories, and with a radius that is fixed strictly between zero and the number of sites: every sample is hit with a probability that tends to one. False of the adaptive walk on binary energies that do not change when all sites change (Max-Cut at every cooling schedule, the Ising model without a field): the radius may grow up to the number of sites, every proposal is then the complement of the sample, it is always accepted, and the radius never shrinks again. The run gets into this trap almost surely, and with certainty if the model is flat or hot long enough at the start; from then on it only sees one sample and its complement. This holds for batches of any size, whose chains share the radius. An annealed Max-Cut run that does not start at a maximum cut misses all maximum cuts with a probability that does not depend on its length.", "quantifier": "all dimensions, graphs, cooling schedules, targets of at most one, starts, numbers of steps, batch sizes and acceptance noise", "why_tests_cant": "A run that is stuck reports a perfect acceptance rate and valid samples; no finite run shows that a state will never be left.", "anchors": ["discs/samplers/randomwalk.py:AdaptiveRWSampler.select_sample", "discs/samplers/randomwalk.py:RandomWalkSampler.sample_from_proposal", "discs/models/maxcut.py:Maxcut.objective", "discs/models/ising.py:Ising.forward", "discs/experiment/sampling.py:CO_Experiment._compute_chain"]}
{"id": "C115", "title": "A long search visits every sample", "statement": "The probability that a run of the path auxiliary sampler or of GWG has not visited a given sample, or that an annealed search has seen no optimum, shrinks geometrically with its length, at every cooling schedule whose temperatures stay above a positive bound. True of GWG with any number of flips, adaptive or not, and of the path auxiliary sampler with an odd number of flips below the number of sites. False otherwise: with an even number of flips the path auxiliary sampler never visits a sample at odd distance from its start, and with as many flips as sites it sees only its start and the complement. Annealed Max-Cut on a star with an odd number of leaves, started from zeros with an even number of flips, never sees a maximum cut.", "quantifier": "all dimensions, numbers of flips, energies, gradients, schedules, lengths of runs and starts (binary samples; fixed number of flips, adaptive GWG, adaptive path auxiliary runs while the rounded radius is even)", "why_tests_cant": "A run that never meets the optimum looks like a hard instance; that half of the samples is out of reach shows in no finite run.", "anchors": ["discs/samplers/path_auxiliary.py:PathAuxiliarySampler.step", "discs/samplers/path_auxiliary.py:PAFSNoReplacement.proposal", "discs/samplers/gwg.py:GibbsWithGradSampler.step", "discs/models/maxcut.py:Maxcut.objective", "discs/experiment/sampling.py:CO_Experiment._compute_chain"]}
{"id": "C116", "title": "A long combinatorial run reports the optimum", "statement": "The best ratio that a combinatorial experiment reports is below the optimum exactly when no logged step shows an optimum in any of its chains. For Gibbs, block Gibbs, GWG with at least two draws, DMALA and DLMC with fixed step sizes the probability of that shrinks geometrically in the number of steps and in the number of chains, for every schedule whose temperatures stay above a positive bound during the run and every log interval; for the path auxiliary sampler with an odd number of flips and for GWG with one draw for every odd log interval. For GWG with one draw and exact scores, as on MaxCut and MIS, also for every even log interval if the temperatures vary slowly; with the constant, linear and exponential schedules the probability tends to zero as the runs get longer. For adaptive GWG, whose chains share a radius that depends on all of them, it shrinks geometrically in the number of steps for every log interval and every target rate below one, if there are two sites or more. False of the path auxiliary sampler with an even number of flips: if every optimum is at an odd distance from the start of every chain, as on a star with an odd number of leaves started from zeros, every run reports less than the optimum.  False of the adaptive path auxiliary sampler at high temperatures: where every proposal is accepted more often than the target rate, and the optimum is unique up to its complement and no chain starts there, the probability of reporting less than the optimum stays above a positive number that depends on neither the length of the run nor the log interval; an example is Max-Cut on a star started from zeros.", "quantifier": "all dimensions, numbers of chains, objectives, penalties, schedules, log intervals, lengths of runs and starts", "why_tests_cant": "What a run reports depends on every step of every chain; a run that misses the optimum looks like a hard instance.", "anchors": ["discs/experiment/sampling.py:CO_Experiment._compute_chain", "discs/experiment/sampling.py:CO_Experiment._initialize_chain_vars", "discs/samplers/gibbs.py:GibbsSampler.step", "discs/samplers/blockgibbs.py:BlockGibbsSampler.step", "discs/samplers/gwg.py:GibbsWithGradSampler.step", "discs/samplers/path_auxiliary.py:PAFSNoReplacement.proposal", "discs/samplers/dmala.py:DMALASampler.step", "discs/samplers/dlmc.py:DLMCSampler.step"]}
{"id": "C117", "title": "A launched job runs with the values of its sweep", "statement": "A job starts exactly if its model, sampler and experiment files exist, each of its overrides names a key that its file has with a value of a fitting type, and the configurations can be merged; then every swept value is in the configuration the job runs with (for graphs except the keys that the graph configuration sets and num_models), whatever its folder. Of the shipped sweeps all jobs start, build a sampler and can make a step, with one exception: no job of maxcut/optsicom_sampler_sweep.py starts, because it sweeps a key that the experiment file does not have. Not every shipped job is sound or new: the Hamming ball jobs and the path auxiliary jobs with a fixed number of flips on more than two categories keep no target; potts/num_categories_sweep.py runs the categorical model; the 126 jobs of the gap_rand sweep are 7 runs repeated 18 times; the sweep estimation_error.py estimates no error.", "quantifier": "all repositories of configuration files, run configurations, jobs and folders; for the shipped sweeps all their jobs and all folders and shapes", "why_tests_cant": "A sweep is data that is read on a cluster after packaging; a misspelt or missing key shows up only when a job dies, and a repeated or mislabelled job looks like any other.", "anchors": ["discs/xm_launcher.py:main", "discs/xm_launcher.py:get_sweeps", "discs/experiment/main_sampling.py:get_main_config", "discs/run_configs", "discs/models/configs", "discs/samplers/configs", "discs/experiment/configs", "discs/common/configs.py:get_config"]}
{"id": "C118", "title": "A shipped job fits the devices it asks for and reports all its instances", "statement": "The chains of a job can be laid out on the devices that the launcher asks for, each chain once, for every value of the flag in the case of plain models and texts and for one, two, four and eight devices in the case of graphs; and after the run results.pkl has the results of all instances. In general a run over n instances in batches of M leaves exactly the instances from number M*floor((n-1)/M) on in the file. Two shipped sweeps refute the claim: a job of normcut/gap_rand_sampler_sweep.py (five instances) raises on every number of devices other than one and five, so on the default eight; a job of maxcut/er_sampler_sweep.py (1000 instances in batches of 128) reports the last 104 instances only.", "quantifier": "all jobs of the shipped sweeps, all folders, numbers of devices, data sets and scores; for the general part all numbers of instances and batch sizes", "why_tests_cant": "A unit test runs on one device with one batch; the layout depends on the hardware of the cluster and the loss of earlier batches leaves a file of the right form.", "anchors": ["discs/xm_launcher.py:main", "discs/experiment/sampling.py:Experiment.__init__", "discs/experiment/sampling.py:Experiment._prepare_data", "discs/experiment/sampling.py:EBM_Experiment.preprocess", "discs/experiment/sampling.py:CO_Experiment.get_results", "discs/graph_loader/common.py:GraphGenerator.get_iterator", "discs/experiment/experiment_saver.py:save_co_resuts"]}
{"id": "C119", "title": "The adaptive path-auxiliary sampler goes on exploring", "statement": "A run of PAFSNoReplacement with the shipped adaptive setting on binary sites goes on to visit new samples however long it runs, so that its averages say something about the target. The code refutes this on every hot model: where all scores differ by at most R and all local log-ratios are at most G in size and exp(-(R+4GD)) exceeds the target rate by g > 0, the radius is the number of sites D from step (D - num_flips)/g on, whatever the random draws, and from then on each chain only ever sees one sample and its complement. The share of the time that two sites agree then tends to zero or one in every run, and with fewer than 2^D/(N+2) chains some sample is never visited. The same holds for a combinatorial run whose temperatures stay above (R+4GD)/log(1/(target+g)).", "quantifier": "all numbers of sites and chains, weight functions, target rates, models with bounded scores and gradients, initial samples, random draws and run lengths", "why_tests_cant": "A test sees that the acceptance rate is high, which looks like success; that all sites are flipped together in every step shows only over a run long enough for the radius to reach its upper end.", "anchors": ["discs/samplers/path_auxiliary.py:PAFSNoReplacement.select_sample", "discs/samplers/path_auxiliary.py:PAFSNoReplacement.proposal", "discs/samplers/configs/path_auxiliary_config.py:get_config"]}
{"id": "C120", "title": "The BLEU numbers of the text evaluation measure similarity", "statement": "tbc_bleu, wiki_bleu, tbc_wiki_bleu and self_bleu of LMevaluator.evaluate are numbers between zero and one, the geometric mean of the shares of phrases of one to four tokens found in the references times the penalty for short sentences; zero exactly if no token is found; one exactly if all sentences have four tokens, every phrase is found often enough and the sentences are together not shorter than their nearest references; they do not depend on the order of sentences and references, and the evaluation raises exactly if there are no sentences, no references in a file, or no sentence of max_n_grams tokens. A sentence copied from a reference scores one, and further references never lower a score. The last two are false: copies with fewer than four tokens score below 2^-255, sentences in upper case score zero against their own lines, and a reference without any common token lowers the score of a sentence of m tokens by the factor exp(-1/m) if it is one token longer than the sentence and all others are at least two tokens shorter; so tbc_wiki_bleu can be lower than tbc_bleu. The number printed as bleu3 ignores phrases of three tokens and is never below the scores for two and three tokens.", "quantifier": "all sentences, reference files, token types, lower-casing functions, replacements and numbers max_n_grams", "why_tests_cant": "A unit test compares a few sentences with numbers of the library; that copies score almost zero or that references do harm depends on lengths that tests with full sentences do not show.", "anchors": ["discs/evaluators/lm_eval.py:LMevaluator.corpus_bleu", "discs/evaluators/lm_eval.py:LMevaluator.self_bleu", "discs/evaluators/lm_eval.py:LMevaluator.evaluate"]}
{"id": "C121", "title": "The plot of estimation errors shows the errors of the runs", "statement": "A run of a Bernoulli model with get_estimation_error leaves the states of four different chains after every save_every_steps-th step, burn-in included, and the parameters of its model; point w of its curve in plot_estimation_error.py is the squared distance between the mean of these states over the w-th window and the probabilities of a one, averaged over chains and sites; there is a point for every window that fits, and different runs have different labels. The shipped sweep estimation_error.py can be plotted. Partly false: on one device the run raises at its end without writing the parameters unless the first dimension is one; a run with fewer than four chains raises before its first step even if nothing is to be saved, because the number of saved chains is read from a misspelt key and is always four; without get_estimation_error nothing is written, also with save_samples; no job of the shipped sweep sets get_estimation_error, so that there is nothing to plot; its 26 jobs have 13 labels; for shapes with several dimensions the plot raises, or, for shape (4, 1), compares chain b with the probability of site b.", "quantifier": "all chains, samplers, parameters, shapes, device counts, chain lengths, intervals and windows", "why_tests_cant": "The parts are run by hand on different machines: the run on several devices, the plot on one, and the files in between are not checked by either; a test on one device fails only after the whole chain.", "anchors": ["discs/experiment/sampling.py:Experiment.__init__", "discs/experiment/sampling.py:Experiment._compute_chain", "discs/common/experiment_saver.py:Saver.dump_samples", "discs/common/experiment_saver.py:Saver.dump_params", "discs/evaluators/bernoulli_eval.py:Bernoullievaluator.plot_mixing_time_graph_over_chain", "discs/plot_results/plot_estimation_error.py:main", "discs/run_configs/classical_models/bernoulli/estimation_error.py"]}
{"id": "C122", "title": "The plot over temperatures shows every run at its temperature", "statement": "plot_ising_temp.py draws, for every sampler of a sweep over lambdaa, one point for every temperature: it stands at that temperature, has the height of the saved effective sample sizes (per energy evaluation times half the chain length, and per second), and comes from the run of that sampler at that temperature. Partly false: the first point always stands at 0.1607; the others stand at the value of the last key of the folder that is left, which is lambdaa in the two shipped sweeps over temperatures but init_sigma in the sweep over model configurations; one run without results.csv, or one sampler that is missing at one temperature, and there is no plot, also if that sampler is one of the three that are never drawn; a first number that NumPy pads cannot be read; the band of samples per energy evaluation is divided by ten, the other one is not.", "quantifier": "all sweeps, samplers, numbers of temperatures, results, folder names and values", "why_tests_cant": "A plot has no expected value; the script runs on results of weeks of computing, and a test with made-up folders would have complete results and the key in the last place.", "anchors": ["discs/plot_results/plot_ising_temp.py:prepare_for_ising", "discs/plot_results/plot_ising_temp.py:map_temp", "discs/plot_results/plot_ising_temp.py:get_experiment_config", "discs/plot_results/plot_ising_temp.py:process_keys", "discs/plot_results/plot_ising_temp.py:organize_experiments", "discs/plot_results/plot_ising_temp.py:main", "discs/run_configs/classical_models/ising/lamdasweep_small.py"]}
{"id": "C123", "title": "The picture of samples shows every sampler's images", "statement": "plot_ebm.py shows, for at most eight folders of samplers it knows, one row per folder with the images of ten saved steps in order, all of one chain that is chosen by the name of the sampler; rows are labelled with the samplers, columns with the steps. Partly false: the eighth row alone carries the labels of the columns; more than eight folders, or a first folder whose sampler has no branch (random walk, names with a balancing function other than the square root, samplers that do not adapt), and there is no picture; a later such folder shows the chain of the folder before it, which happens for random walk in the shipped sweep; the image files are not written by any run: the saver is never asked to, and if it were it would raise because it uses a name that is not defined.", "quantifier": "all lists of folders and files on disk, all trajectories", "why_tests_cant": "The files are made by hand; a test of either side alone would supply what the other side does not provide.", "anchors": ["discs/plot_results/plot_ebm.py:main", "discs/plot_results/plot_ebm.py:process_keys", "discs/common/experiment_saver.py:Saver.dump_samples", "discs/run_configs/ebm/binray_ebm/sampler_sweep.py"]}
{"id": "C124", "title": "The figure of log Z estimates shows every run", "statement": "plot_ais.py draws one figure for every configuration of a sweep (all settings but the sampler), saved under a name of its own, and in it one curve for every sampler: the estimates saved by the run of that sampler under that configuration, in the order of the steps. Partly false: of runs with the same label and configuration only the first is drawn, which hides exact or approximate path-auxiliary runs behind each other because the key approx_with_grad is dropped; samplers whose name is not in the list are not drawn; one folder without logz.pkl and there is no figure; the estimate after step s stands at s-1.", "quantifier": "all sweeps, labels, settings, numbers of runs and steps, results", "why_tests_cant": "Runs take weeks and a plot has no expected value; which run a curve comes from depends on the labels and keys of all runs together.", "anchors": ["discs/plot_results/plot_ais.py:main", "discs/plot_results/plot_ais.py:plot_graph_cluster", "discs/plot_results/plot_ais.py:organize_experiments", "discs/plot_results/plot_ais.py:process_keys", "discs/plot_results/plot_ais.py:get_clusters_key_based", "discs/common/experiment_saver.py:Saver.save_logz", "discs/run_configs/ebm/binray_ebm/logz.py"]}
{"id": "C125", "title": "A trained model is sampled as it was trained", "statement": "After training an RBM or an image model, a sampling run whose model setting data_path is the folder left by training builds a model with the parameters of the end of training, the same sizes, shape, categories and base distribution, that gives every sample the energy the training program gave it, whatever else is set in the run; chains start from the mean of the training data. The same for checkpoints converted from PyTorch. Partly false: an RBM for more than two categories can neither be trained nor loaded from a folder written by training; the class is chosen from the run's own num_categories before the folder is read, so the shipped rbm configuration (four categories) fails for every trained folder; the RBM in training does not use the mean of the data it computes; the moving average of the parameters is never saved; save_dir_name of the trained configuration comes too late to be used.", "quantifier": "all data sets, sizes, parameters, numbers of devices, means, run configurations, samples; all jobs of the shipped RBM sweep", "why_tests_cant": "Training takes hours on accelerators and sampling happens in another program; a test of either side does not see that a setting is lost or overridden between them.", "anchors": ["discs/models/deep_ebm.py:DeepEBM.load_params_configs", "discs/models/rbm.py:RBM.__init__", "discs/models/rbm.py:BinaryRBM.build_init_dist", "discs/models/rbm.py:CategoricalRBM.build_init_dist", "discs/models/rbm.py:build_model", "discs/models/resnet.py:build_model", "discs/learning/rbm/main_rbm_training.py:main", "discs/learning/binary_ebm/main_binary_training.py:main", "discs/learning/binary_ebm/pt2params.py:main", "discs/run_configs/ebm/rbm/sampler_sweep.py"]}
{"id": "C126", "title": "The table of normalised cuts shows what every run found", "statement": "For a graph with unit weights and three groups, the table written by the normalised-cut evaluator has one line per result folder, in the order of the folders' names; the line of a run with the quadratic penalty shows the cut ratio and the balance of the cheapest partition among those logged in the run, whatever the sampler, schedule, logging interval and saving settings, and from the two columns the minimised cost can be computed back. Two lines have the same label exactly if their runs agree in the settings a label shows. Partly false: if every logged partition costs 10^9 or more the line shows ratio 0 and balance 0 instead of a partition that was found; results of a larger graph than the one given are evaluated without an error; one unusable folder and no table is written.", "quantifier": "all graphs, partitions, runs, samplers, schedules, folder names and settings", "why_tests_cant": "The samples come from long runs in another program and the evaluator has no tests; that its columns describe the best sample of a run is a statement about both programs and every execution.", "anchors": ["discs/common/normcut_evaluator.py:main", "discs/common/normcut_evaluator.py:process_keys", "discs/common/normcut_evaluator.py:get_experiment_config", "discs/common/normcut_evaluator.py:evaluate", "discs/experiment/sampling.py:CO_Experiment._compute_chain", "discs/common/experiment_saver.py:Saver.save_co_resuts", "discs/graph_loader/normcut_loader.py:ComputationGraphs"]}
{"id": "C127", "title": "The step size DMALA and DLMC choose proposes n changes per chain", "statement": "In a step that computes its step size (the first of an adaptive run or of any DLMC run, every step with co_opt_prob) the rates of all changes of a chain add up to n on average over the batch (3 for DMALA, the setting n for DLMC), and the expected number of sites the batch changes in that step is at most n per chain, for both solvers, binary and categorical samples. During an adaptive run the normaliser kept by the sampler is that of the batch at the last step below schedule_step or divisible by reset_z_est.", "quantifier": "every model, gradient, balancing function, batch, number of sites and categories, setting n, and every run", "why_tests_cant": "Statement about expectations over the draws of a whole batch and about all histories.", "anchors": ["discs/samplers/dmala.py:DMALASampler.reset_stats", "discs/samplers/dmala.py:DMALASampler.set_z", "discs/samplers/dlmc.py:DLMCSampler.reset_stats", "discs/samplers/dmala.py:DMALASampler.update_sampler_state", "discs/samplers/dlmc.py:BinaryDLMC.get_dist_at", "discs/samplers/dlmc.py:CategoricalDLMC.get_dist_at"]}
{"id": "C128", "title": "No training update moves a parameter by more than ten learning rates", "statement": "With the optimisers of the training configurations (adam, adamw) update t moves no parameter by more than 10 * schedule(t), besides the weight decay; after n updates every parameter is within ten times the sum of the rates of its start (updown: 10 * learning_rate * total), and with weight decay stays below 10 / weight_decay. Gradients are clipped exactly if grad_norm > 0, to that norm and without change of direction; weight_decay matters for adamw only. The first update moves every parameter against its gradient by nearly one learning rate.", "quantifier": "every model, batch, sample, gradient, schedule, number of parameters and of updates", "why_tests_cant": "The bound is an invariant over all histories of gradients; tests run a few steps on one model.", "anchors": ["discs/learning/train.py:build_optimizer", "discs/learning/train.py:Trainer.global_update_fn", "discs/learning/train.py:build_lr_schedule"]}
{"id": "C129", "title": "gen_connected returns connected graphs of the asked size, or None", "statement": "A graph that gen_connected returns for g_type 'erdos_renyi' has between min_n and max_n nodes numbered 0..n-1, all of them joined by its edges, and is up to the numbering a largest connected part of the first drawn graph that has a connected part of min_n nodes; a graph of type 'barabasi_albert' is the first drawn graph. With w_type there is one weight per edge, integers or reals from w_min up to but not including w_max. With arguments in order nothing is raised; None comes back, instead of a graph and without an exception, exactly if none of twenty drawn graphs has a connected part of min_n nodes.", "quantifier": "all arguments, all random draws, any iteration order of the nodes of a subgraph view", "why_tests_cant": "The function retries on random draws; that a call can return None, and that a returned graph is always connected and correctly numbered, concerns every sequence of draws.", "anchors": ["discs/graph_loader/common.py:gen_connected"]}
{"id": "C130", "title": "The reported acceptance rate is the probability that a chain takes its proposal", "statement": "The third result of a sampler step, which the experiments average and save, lies between zero and one and is within 1e-24 of the mean over the chains of the probability, under the uniform noise of the acceptance test, that the chain moves to its proposal: for the random walk and for GWG, path auxiliary, DMALA and DLMC in their binary, categorical and adaptive forms. DMALA and DLMC report NaN exactly if their step size is NaN, and then no chain moves. Gibbs, block Gibbs and Hamming ball report one. The adaptive samplers adapt by exactly the reported rate minus the target.", "quantifier": "every batch size, model, sample, proposal draw, noise and sampler state", "why_tests_cant": "The claim is about a probability for each proposal of each chain; tests see single draws.", "anchors": ["discs/samplers/randomwalk.py:RandomWalkSampler.step", "discs/samplers/gwg.py:GibbsWithGradSampler.step", "discs/samplers/path_auxiliary.py:PathAuxiliarySampler.step", "discs/samplers/dmala.py:DMALASampler.step", "discs/samplers/dlmc.py:DLMCSampler.step", "discs/samplers/gibbs.py:GibbsSampler.step", "discs/common/math_util.py:mh_step"]}
{"id": "C131", "title": "Runs keep their results apart", "statement": "Every run leaves its results in a folder of its own: jobs of the launcher, whatever they sweep and in whatever order they end, never write to the folder of another work unit or experiment, every shipped job saves in the folder the launcher made for it, and a job started with options of the launcher runs with these options. False of the code in two places: with --run_local the folder depends on the model alone, so a second run of a model, with any sampler and any settings, replaces the results of the first; and an option such as --config.sampler, which the launcher accepts for its run configuration, is passed on to the jobs, which all refuse it.", "quantifier": "all users, run configurations, experiment and work unit numbers, swept settings, orders of jobs, disc contents; all local configurations; all options of the launcher; all shipped sweeps", "why_tests_cant": "Folders are made from settings, and jobs run on a cluster; a test launches a few jobs with harmless names and cannot see that no two of all possible jobs meet.", "anchors": ["discs/xm_launcher.py:main", "discs/xm_launcher.py:main.make_job", "discs/experiment/main_sampling.py:update_save_dir", "discs/common/experiment_saver.py:Saver"]}
{"id": "C132", "title": "Maximising a launched combinatorial job solves the problem it is named after", "statement": "For every job of the shipped sweeps and every graph: the samples with the highest score in a maximum-independent-set job are exactly the largest independent sets; in a maximum-clique job the highest score is the size of the largest clique and the samples that have it are cliques; a normalised-cut job minimises the normalised cut. Each job runs with the penalty coefficient swept for it, and otherwise with that of its graph or model file. False of the code in two places: the penalty of all maximum-clique jobs is exactly one, so that a sample that is no clique can have the highest score, on a graph exactly if some node is joined to all but one member of a largest clique; and all normalised-cut jobs have a positive penalty, with which the model minimises the number of cut edges plus a charge for unequal groups and never the normalised cut.  An override model_config.penalty of a job takes effect or is refused; false on the SATLIB graphs, whose file sets the penalty again after the override.", "quantifier": "all shipped sweeps and their jobs; all graphs, paddings, temperatures and samples", "why_tests_cant": "A job's penalty is the outcome of merging four files and the overrides; whether the highest score is attained by a wrong set is a statement about all samples of a graph.", "anchors": ["discs/models/mis.py:MIS.__init__", "discs/models/maxclique.py:MaxClique.__init__", "discs/models/normcut.py:NormCut.__init__", "discs/models/normcut.py:NormCut.objective", "discs/models/configs/maxclique/rb.py", "discs/models/configs/normcut/nets.py", "discs/experiment/main_sampling.py:get_main_config"]}
