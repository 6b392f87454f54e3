{
 "claims": [
  {
   "property": "C01",
   "status": "proved",
   "theorems": [
    "Discs.gibbs_stochastic",
    "Discs.gibbs_reversible",
    "Discs.gibbs_invariant_run"
   ],
   "note": "Kernel is the law of the modelled step; any coordinate, any number of steps."
  },
  {
   "property": "C02",
   "status": "proved",
   "theorems": [
    "Discs.gibbs_run_state",
    "Discs.gibbs_run_touches",
    "Discs.gibbs_run_valid",
    "Discs.gibbs_sweep",
    "Discs.gibbs_state_iterate"
   ],
   "note": "Counters, single-coordinate change, range, sweep."
  },
  {
   "property": "C03",
   "status": "proved",
   "theorems": [
    "Discs.rw_stochastic",
    "Discs.rw_reversible",
    "Discs.rw_nearlyInvariant_run"
   ],
   "note": "Exact at offset 0, drift at most 2e-24 of the mass per step with the code's offset."
  },
  {
   "property": "C04",
   "status": "proved",
   "theorems": [
    "Discs.rwRadius_run",
    "Discs.rwRadius_const",
    "Discs.gwgRadius_run",
    "Discs.pafsRadius_run",
    "Discs.pafsCategRadius_run",
    "Discs.pafsRadius_const",
    "Discs.radius_legal"
   ],
   "note": "Radius in [1, dim] along every run (path-auxiliary before the first step if num_flips is), hence legal flip probability and flip count; constant without adaptation."
  },
  {
   "property": "C05",
   "status": "partial",
   "theorems": [
    "Discs.gibbs_counters",
    "Discs.blockGibbs_counters",
    "Discs.hb_counters",
    "Discs.gwg_counters",
    "Discs.gwgAdaptive_counters",
    "Discs.cgwg_counters",
    "Discs.pafs_counters",
    "Discs.pafsCateg_counters",
    "Discs.dmala_counters",
    "Discs.dlmc_counters",
    "Discs.rw_counters_partial",
    "Discs.rw_steps_stuck",
    "Discs.lb_steps_dropped"
   ],
   "note": "False for the random walk (steps stays 0: rw_steps_stuck) and for the plain locally-balanced sampler (steps is dropped: lb_steps_dropped). Proved for all other samplers along every run; for the random walk the evaluation count is right (rw_counters_partial)."
  },
  {
   "property": "C06",
   "status": "proved",
   "theorems": [
    "Discs.blockGibbs_touches",
    "Discs.blockGibbs_stochastic",
    "Discs.blockGibbs_reversible",
    "Discs.blockGibbs_invariant_run"
   ],
   "note": "Any block start, including blocks running past the end (dropped out-of-range updates)."
  },
  {
   "property": "C07",
   "status": "proved",
   "theorems": [
    "Discs.mem_categoriesIter",
    "Discs.nodup_categoriesIter",
    "Discs.categoriesIter_count"
   ],
   "note": ""
  },
  {
   "property": "C08",
   "status": "proved",
   "theorems": [
    "Discs.blockGibbs_schedule",
    "Discs.hb_schedule",
    "Discs.blockGibbs_state_iterate",
    "Discs.hb_state_iterate"
   ],
   "note": "Stated on the iterated sampler state of both samplers."
  },
  {
   "property": "C09",
   "status": "proved",
   "theorems": [
    "Discs.rbm_blockgibbs_reversible",
    "Discs.rbm_blockgibbs_invariant"
   ],
   "note": "Two-stage kernel of the actual step on 0/1 samples, all sizes, weights and biases. The sampler's interface defect (pair result, no mask argument) is noted in DESIGN.md."
  },
  {
   "property": "C10",
   "status": "partial",
   "theorems": [
    "Discs.hb_not_invariant",
    "Discs.hb_defect",
    "Discs.hb_stochastic",
    "Discs.hb_block1_eq_gibbs",
    "Discs.hb_reversible_partial"
   ],
   "note": "False as stated: for every block size >= 2 there is a log-likelihood that is not preserved (radius logits are counts instead of log-counts). hb_defect gives the exact error; block size 1 is reversible."
  },
  {
   "property": "C11",
   "status": "proved",
   "theorems": [
    "Discs.hbCandidates_ball",
    "Discs.hbCandidates_count"
   ],
   "note": ""
  },
  {
   "property": "C12",
   "status": "proved",
   "theorems": [
    "Discs.applyWeight_error",
    "Discs.applyWeight_balanced",
    "Discs.applyWeightLog_balanced",
    "Discs.applyWeight_log"
   ],
   "note": "all four balancing functions, both scales, agreement of scales, error branch for any other name"
  },
  {
   "property": "C13",
   "status": "proved",
   "theorems": [
    "Discs.bernoulliLogp_prob",
    "Discs.bernoulliLogp_close",
    "Discs.bernoulliLogp_mono"
   ],
   "note": "Lebesgue measure of the accepting noise values."
  },
  {
   "property": "C14",
   "status": "proved",
   "theorems": [
    "Discs.mhStep_row"
   ],
   "note": ""
  },
  {
   "property": "C15",
   "status": "proved",
   "theorems": [
    "Discs.gwg_stochastic",
    "Discs.gwg_reversible",
    "Discs.gwg_nearlyInvariant_run"
   ],
   "note": "any number of flips, any gradient; exact with offset 0, explicit bound with the 1e-24 offset"
  },
  {
   "property": "C16",
   "status": "proved",
   "theorems": [
    "Discs.gwgAdaptive_stochastic",
    "Discs.gwgAdaptive_reversible",
    "Discs.gwgAdaptive_nearlyInvariant_run"
   ],
   "note": "at any radius read from the state"
  },
  {
   "property": "C17",
   "status": "proved",
   "theorems": [
    "Discs.cgwg_stochastic",
    "Discs.cgwg_reversible",
    "Discs.cgwg_nearlyInvariant_run",
    "Discs.gwgBuild_spec"
   ],
   "note": "single chain; see C18 for the failure with several chains"
  },
  {
   "property": "C18",
   "status": "partial",
   "theorems": [
    "Discs.rw_chainLocal",
    "Discs.gibbs_chainLocal",
    "Discs.blockGibbs_chainLocal",
    "Discs.hb_chainLocal",
    "Discs.gwgBinary_chainLocal",
    "Discs.gwgAdaptive_chainLocal",
    "Discs.pafsBinary_chainLocal",
    "Discs.pafsAdaptive_chainLocal",
    "Discs.pafsCateg_chainLocal",
    "Discs.pafsCategAdaptive_chainLocal",
    "Discs.dmalaBinary_chainLocal_partial",
    "Discs.dmalaCateg_chainLocal_partial",
    "Discs.dlmcBinary_chainLocal_partial",
    "Discs.dlmcCateg_chainLocal_partial",
    "Discs.cgwg_not_chainLocal",
    "Discs.dmala_not_chainLocal"
   ],
   "note": "False for categorical GWG (cgwg_not_chainLocal) and for adaptive DMALA's first step (dmala_not_chainLocal), where the step size is a batch average. Proved for all other samplers; DMALA/DLMC for step sizes read from configuration or state."
  },
  {
   "property": "C19",
   "status": "proved",
   "theorems": [
    "Discs.pafs_stochastic",
    "Discs.pafs_reversible",
    "Discs.pafs_nearlyInvariant_run",
    "Discs.pafs_flips"
   ],
   "note": "Exact reversibility with the ideal acceptance test, explicit bound with the code's acceptance offset, for arbitrary local scores. The Gumbel-top-k draw is represented by its law (sequential draws without replacement)."
  },
  {
   "property": "C20",
   "status": "proved",
   "theorems": [
    "Discs.pafsAdaptive_stochastic",
    "Discs.pafsAdaptive_reversible",
    "Discs.pafsAdaptive_nearlyInvariant_run",
    "Discs.pafsCategAdaptive_stochastic",
    "Discs.pafsCategAdaptive_reversible",
    "Discs.pafsCategAdaptive_nearlyInvariant_run"
   ],
   "note": "At any radius; binary and categorical. The order of the perturbed scores is represented by its law."
  },
  {
   "property": "C21",
   "status": "partial",
   "theorems": [
    "Discs.pafsCateg_not_invariant",
    "Discs.pafsCateg_kernel_partial",
    "Discs.pafsCateg_stochastic_partial"
   ],
   "note": "False of the code: the forward log-likelihood omits the probability of the new values (witness: one site, three categories, exact gradients, one step moves more than 1/20 of the mass). The partial theorems say exactly which kernel it is and that it is a probability kernel."
  },
  {
   "property": "C22",
   "status": "proved",
   "theorems": [
    "Discs.renormalize_eq_seqDraw",
    "Discs.renormalize_nonpos",
    "Discs.renormalize_exhausted",
    "Discs.seqDraw_total",
    "Discs.seqDraw_repeat",
    "Discs.renormalize_impossible"
   ],
   "note": "-inf first entry modelled explicitly. For arbitrary (also not normalised) scores every entry is at most 0, and is 0 once the mass is used up.  An entry of probability zero stays impossible until the mass is used up exactly (renormalize_impossible)."
  },
  {
   "property": "C23",
   "status": "proved",
   "theorems": [
    "Discs.multinomialCounts_eq",
    "Discs.multinomialCounts_sum"
   ],
   "note": "Loop modelled by well-founded recursion, so it terminates."
  },
  {
   "property": "C24",
   "status": "proved",
   "theorems": [
    "Discs.topK_spec",
    "Discs.selectedMask_spec"
   ],
   "note": ""
  },
  {
   "property": "C25",
   "status": "proved",
   "theorems": [
    "Discs.dmalaBinary_stochastic",
    "Discs.dmalaBinary_reversible",
    "Discs.dmalaBinary_nearlyInvariant",
    "Discs.dmalaBinary_nearlyInvariant_run",
    "Discs.dmalaCateg_stochastic",
    "Discs.dmalaCateg_reversible",
    "Discs.dmalaCateg_nearlyInvariant",
    "Discs.dmalaCateg_nearlyInvariant_run"
   ],
   "note": "Kernel of one chain at a fixed step size; exact reversibility with the guard constants at 0, explicit total-variation bounds with the code's constants."
  },
  {
   "property": "C26",
   "status": "proved",
   "theorems": [
    "Discs.dlmcBinaryStep_error",
    "Discs.dlmcBinary_stochastic",
    "Discs.dlmcBinary_reversible",
    "Discs.dlmcBinary_nearlyInvariant",
    "Discs.dlmcBinary_nearlyInvariant_run",
    "Discs.dlmcCateg_stochastic",
    "Discs.dlmcCateg_reversible",
    "Discs.dlmcCateg_nearlyInvariant",
    "Discs.dlmcCateg_nearlyInvariant_run"
   ],
   "note": "Kernel of one chain at a fixed step size; exact reversibility with the guard constants at 0, explicit total-variation bounds with the code's constants."
  },
  {
   "property": "C27",
   "status": "proved",
   "theorems": [
    "Discs.dlmcFlipProb_interpolate",
    "Discs.dlmcFlipProb_euler",
    "Discs.dlmcFlipProb_error",
    "Discs.dlmcFlipProb_mem",
    "Discs.dlmcFlipProb_strictMono",
    "Discs.dlmcFlipProb_tendsto"
   ],
   "note": ""
  },
  {
   "property": "C28",
   "status": "partial",
   "theorems": [
    "Discs.dNewLogTau_none_iff",
    "Discs.dSelectState_lower",
    "Discs.dSelectState_nan",
    "Discs.dmalaBinary_frozen",
    "Discs.dmala_logTau_nan",
    "Discs.dlmc_logTau_nan",
    "Discs.dRun_finite_partial"
   ],
   "note": "False of the code: an adaptive update can make the step size NaN, after which the chain never moves again (witnesses). The partial theorem keeps the step size finite as long as the update target stays positive."
  },
  {
   "property": "C29",
   "status": "partial",
   "theorems": [
    "Discs.dmala_first_used",
    "Discs.dlmc_first_used",
    "Discs.dFirst_update",
    "Discs.dmala_first_jump",
    "Discs.dUpdate_close_partial"
   ],
   "note": "False of the code for the first update, which starts from the initial value instead of the step size used (witness). The partial theorem bounds every later update."
  },
  {
   "property": "C30",
   "status": "proved",
   "theorems": [
    "Discs.argmax_oneHot_roundtrip",
    "Discs.argmax_oneHot_outside",
    "Discs.lbSelectCateg_row"
   ],
   "note": "round trip on valid categories, behaviour outside the range, row-wise form"
  },
  {
   "property": "C31",
   "status": "proved",
   "theorems": [
    "Discs.bernoulli_mean",
    "Discs.bernoulli_variance",
    "Discs.categ_weight"
   ],
   "note": "Mean and variance under the normalised distribution over all 0/1 samples; the categorical model factorises into per-site softmax."
  },
  {
   "property": "C32",
   "status": "proved",
   "theorems": [
    "Discs.bern_gradient_exact",
    "Discs.ising_gradient_exact",
    "Discs.maxcut_gradient_exact",
    "Discs.mis_gradient_exact"
   ],
   "note": "jax.grad modelled as the mathematical partial derivative; loopless graphs for the edge models; stated for every real sample, binary or not"
  },
  {
   "property": "C33",
   "status": "proved",
   "theorems": [
    "Discs.ising_counts_edges_once",
    "Discs.ising_messages",
    "Discs.card_gridEdges",
    "Discs.isingInitB_bound",
    "Discs.innerOuter_half",
    "Discs.isingInitB_disc"
   ],
   "note": "Float path, all grid sizes, couplings as built by make_init_params (and arbitrary couplings in ising_messages). innerOuter_half is a limit for square lattices (area of the disc)."
  },
  {
   "property": "C34",
   "status": "partial",
   "theorems": [
    "Discs.ising_number_type_matters",
    "Discs.ising_int_loses_couplings",
    "Discs.ising_number_type_partial"
   ],
   "note": "False: zeros_like(x) of an int32 sample truncates the messages; with |coupling| < 1 the integer energy has no interaction term. Holds for integer couplings."
  },
  {
   "property": "C35",
   "status": "proved",
   "theorems": [
    "Discs.potts_counts_agreeing_edges",
    "Discs.potts_messages"
   ],
   "note": "All grid sizes and numbers of categories."
  },
  {
   "property": "C36",
   "status": "partial",
   "theorems": [
    "Discs.fhmm_prior_is_sampler_law",
    "Discs.fhmm_prior_normalised",
    "Discs.cfhmm_rows_exceed_one",
    "Discs.cfhmm_stay_at_most_half",
    "Discs.cfhmm_alpha_sum",
    "Discs.cfhmm_prior_proportional_partial"
   ],
   "note": "Binary part proved. Categorical part false: every row of the transition matrix sums to more than one; the prior is proportional to the sampler's law."
  },
  {
   "property": "C37",
   "status": "proved",
   "theorems": [
    "Discs.rbm_forward_marginal",
    "Discs.crbm_forward_marginal",
    "Discs.rbm_stepH_conditional",
    "Discs.rbm_stepV_conditional",
    "Discs.rbm_init_mean"
   ],
   "note": "Binary and categorical forward; conditionals of step_h and step_v; bias initialisation reproduces the data mean."
  },
  {
   "property": "C38",
   "status": "proved",
   "theorems": [
    "Discs.mis_score",
    "Discs.mis_score_indep",
    "Discs.mis_score_le",
    "Discs.mis_maximiser_indep"
   ],
   "note": ""
  },
  {
   "property": "C39",
   "status": "proved",
   "theorems": [
    "Discs.clique_score",
    "Discs.clique_score_clique",
    "Discs.clique_score_le",
    "Discs.clique_maximiser"
   ],
   "note": ""
  },
  {
   "property": "C40",
   "status": "proved",
   "theorems": [
    "Discs.maxcut_score",
    "Discs.maxcut_swap"
   ],
   "note": ""
  },
  {
   "property": "C41",
   "status": "partial",
   "theorems": [
    "Discs.maxcut_logratio_exact",
    "Discs.mis_flip_difference",
    "Discs.mis_logratio_formula",
    "Discs.mis_logratio_exact_partial",
    "Discs.mis_logratio_wrong",
    "Discs.nc_cur_obj",
    "Discs.nc_logratio_exact_partial",
    "Discs.nc_logratio_wrong_padding",
    "Discs.nc_logratio_wrong_penalty",
    "Discs.bern_logratio_exact",
    "Discs.comb_neighbors_iff",
    "Discs.maxcut_neighbor_exact",
    "Discs.mis_neighbor_exact_partial"
   ],
   "note": "Exact for MaxCut and Bernoulli. False for MIS and NormCut on padded graphs (node 0 receives the padding edges) and for NormCut with a balance penalty; exact otherwise."
  },
  {
   "property": "C42",
   "status": "proved",
   "theorems": [
    "Discs.comb_evaluate",
    "Discs.comb_order",
    "Discs.nc_evaluate",
    "Discs.nc_order"
   ],
   "note": ""
  },
  {
   "property": "C43",
   "status": "proved",
   "theorems": [
    "Discs.graph_batches",
    "Discs.share_partition",
    "Discs.graph_batches_lost"
   ],
   "note": "Holds whenever the declared num_instances is at least the number of graphs; graph_batches_lost shows what a smaller declared number does."
  },
  {
   "property": "C44",
   "status": "proved",
   "theorems": [
    "Discs.graph2edges_represents",
    "Discs.graph2edges_padding",
    "Discs.graph2edges_bidir"
   ],
   "note": ""
  },
  {
   "property": "C45",
   "status": "proved",
   "theorems": [
    "Discs.cnf2graph_faithful",
    "Discs.cnf2graph_sat",
    "Discs.cnf2graph_short"
   ],
   "note": "networkx from_edgelist modelled by the edge list (node set = endpoints, independence depends only on the set of pairs)"
  },
  {
   "property": "C46",
   "status": "proved",
   "theorems": [
    "Discs.parseCfg_render",
    "Discs.parseCfg_roundtrip",
    "Discs.parseCfg_empty"
   ],
   "note": ""
  },
  {
   "property": "C47",
   "status": "proved",
   "theorems": [
    "Discs.sampling_run",
    "Discs.sampling_outputs",
    "Discs.sampling_count",
    "Discs.sampling_steps_iff",
    "Discs.sampling_steps_ratio"
   ],
   "note": "For ratios in [0,1]; sampling_steps_ratio gives the exact condition for other ratios: chain_length steps are made precisely if -1 < chain_length * ratio < chain_length + 1."
  },
  {
   "property": "C48",
   "status": "proved",
   "theorems": [
    "Discs.co_best",
    "Discs.co_best_exact",
    "Discs.co_best_sample",
    "Discs.co_best_mono",
    "Discs.co_trajectory",
    "Discs.masked_rows",
    "Discs.co_best_negative_ref",
    "Discs.rowMax_isGreatest",
    "Discs.rowArgmax_spec",
    "Discs.co_best_floor"
   ],
   "note": "Assumes positive reference objectives or ratios; co_best_negative_ref shows what the floor value -1 does otherwise. co_best_floor: if no logged ratio exceeds -10^9 the sample reported is all zeros."
  },
  {
   "property": "C49",
   "status": "proved",
   "theorems": [
    "Discs.layout_rows",
    "Discs.layout_few_models",
    "Discs.layout_single",
    "Discs.layout_replicated_mixes"
   ],
   "note": "Every layout the run gets past; for 1 < models < devices (and one instance with index other than 0) the code raises, see layout_few_models and layout_single."
  },
  {
   "property": "C50",
   "status": "partial",
   "theorems": [
    "Discs.results_single_partial",
    "Discs.results_one_batch_partial",
    "Discs.results_last",
    "Discs.results_lost",
    "Discs.results_reported",
    "Discs.results_others"
   ],
   "note": "False for more than one batch: results.pkl is overwritten per batch (results_last, results_lost)."
  },
  {
   "property": "C51",
   "status": "proved",
   "theorems": [
    "Discs.const_schedule",
    "Discs.linear_schedule",
    "Discs.exp_schedule",
    "Discs.exp_schedule_end_iff"
   ],
   "note": "optax formulas are trusted."
  },
  {
   "property": "C52",
   "status": "partial",
   "theorems": [
    "Discs.ess_norm_iff_partial",
    "Discs.ess_norm_half_partial",
    "Discs.ess_calls_half_partial",
    "Discs.ess_norm_wrong",
    "Discs.ess_norm_error"
   ],
   "note": "True exactly when half the chain is recorded; false otherwise (ess_norm_wrong)."
  },
  {
   "property": "C53",
   "status": "proved",
   "theorems": [
    "Discs.ais_unbiased",
    "Discs.image_base",
    "Discs.bernoulliProb_sum",
    "Discs.ebm_ais",
    "Discs.gibbs_ais_kernels",
    "Discs.ebm_ais_no_mean",
    "Discs.ais_nearly_unbiased"
   ],
   "note": "Kernels fixed in advance (non-adaptive samplers); ebm_ais_no_mean: without data_mean every weight is zero. With the offsets of the acceptance tests the bias is at most L times the cost of one step times exp(range of the network) (ais_nearly_unbiased, instantiated in C113)."
  },
  {
   "property": "C54",
   "status": "proved",
   "theorems": [
    "Discs.ema_first",
    "Discs.ema_weights",
    "Discs.ema_convexHull",
    "Discs.ema_interval",
    "Discs.ema_const",
    "Discs.emaRun_step"
   ],
   "note": ""
  },
  {
   "property": "C55",
   "status": "proved",
   "theorems": [
    "Discs.bufferUpdate_at",
    "Discs.bufferUpdate_other",
    "Discs.bufferSample_row",
    "Discs.buffer_history",
    "Discs.buffer_history_other"
   ],
   "note": "Indices are distinct (np.random.permutation prefix, sorted)."
  },
  {
   "property": "C56",
   "status": "proved",
   "theorems": [
    "Discs.lb_stochastic",
    "Discs.lb_reversible_tilted",
    "Discs.lb_invariant_iff"
   ],
   "note": ""
  },
  {
   "property": "C57",
   "status": "proved",
   "theorems": [
    "Discs.lbStep_ok_iff",
    "Discs.lbDriverStep_raises"
   ],
   "note": ""
  },
  {
   "property": "C58",
   "status": "proved",
   "theorems": [
    "Discs.dmalaFlip_odds",
    "Discs.dmalaCateg_odds"
   ],
   "note": ""
  },
  {
   "property": "C59",
   "status": "proved",
   "theorems": [
    "Discs.gwgBinary_moves",
    "Discs.gwgAdaptive_moves",
    "Discs.cgwg_moves",
    "Discs.pafsBinary_moves",
    "Discs.pafsAdaptive_moves",
    "Discs.pafsCategAdaptive_moves",
    "Discs.numFlips_nearest",
    "Discs.numFlips_clipped"
   ],
   "note": ""
  },
  {
   "property": "C60",
   "status": "partial",
   "theorems": [
    "Discs.cfhmm_batch_lost",
    "Discs.cfhmm_batch_kept_partial"
   ],
   "note": "False when the number of chains equals the number of categories (the integer batch is not one-hot encoded and then reshaped): refuted for every such size; holds otherwise."
  },
  {
   "property": "C61",
   "status": "proved",
   "theorems": [
    "Discs.ncObjective_normcut",
    "Discs.sum_boundary",
    "Discs.ncObjective_quad",
    "Discs.ncObjective_span"
   ],
   "note": ""
  },
  {
   "property": "C62",
   "status": "proved",
   "theorems": [
    "Discs.clique_gradient_shift"
   ],
   "note": ""
  },
  {
   "property": "C63",
   "status": "proved",
   "theorems": [
    "Discs.categ_gradient_exact",
    "Discs.potts_gradient_exact",
    "Discs.categ_score_exact",
    "Discs.potts_score_exact"
   ],
   "note": ""
  },
  {
   "property": "C64",
   "status": "proved",
   "theorems": [
    "Discs.scan_uniform",
    "Discs.configured_too_small"
   ],
   "note": ""
  },
  {
   "property": "C65",
   "status": "proved",
   "theorems": [
    "Discs.relabel_isomorphism",
    "Discs.relabel_skip"
   ],
   "note": ""
  },
  {
   "property": "C66",
   "status": "proved",
   "theorems": [
    "Discs.ratio_only_records"
   ],
   "note": ""
  },
  {
   "property": "C67",
   "status": "proved",
   "theorems": [
    "Discs.batchProcessing_rows",
    "Discs.shard_rows",
    "Discs.shard_unshard",
    "Discs.unshard_shard"
   ],
   "note": "For samplers whose chains do not interact within a device (see C18 for which do)."
  },
  {
   "property": "C68",
   "status": "proved",
   "theorems": [
    "Discs.pmean_full"
   ],
   "note": "The total gradient of a device is the mean over its examples."
  },
  {
   "property": "C69",
   "status": "proved",
   "theorems": [
    "Discs.updown_schedule"
   ],
   "note": "optax formulas are trusted."
  },
  {
   "property": "C70",
   "status": "proved",
   "theorems": [
    "Discs.batchDrop_spec",
    "Discs.deviceBatches_spec",
    "Discs.perProcess_exact"
   ],
   "note": "tf.data batch semantics trusted."
  },
  {
   "property": "C71",
   "status": "proved",
   "theorems": [
    "Discs.dataMean_valid",
    "Discs.rngGen_distinct"
   ],
   "note": "fold_in injective in its data is a hypothesis. The data set must not be empty (the mean of no images is NaN)."
  },
  {
   "property": "C72",
   "status": "partial",
   "theorems": [
    "Discs.gibbs_converges",
    "Discs.blockGibbs_converges",
    "Discs.hb_converges_partial",
    "Discs.rbm_converges",
    "Discs.rw_converges",
    "Discs.dmalaBinary_converges",
    "Discs.dmalaBinary_converges_nonadaptive",
    "Discs.dlmcBinary_converges",
    "Discs.dmalaCateg_converges",
    "Discs.dlmcCateg_converges",
    "Discs.gwg_converges",
    "Discs.gwgAdaptive_converges",
    "Discs.cgwg_converges",
    "Discs.gibbs_expectation",
    "Discs.hb_converges_own",
    "Discs.hb_never_converges",
    "Discs.hb_not_ergodic"
   ],
   "note": "Refuted for the Hamming ball with blocks of two or more sites (the default is 10): it converges geometrically, but to a law of its own, and stays a fixed distance from the target. False for path-auxiliary samplers with an even fixed number of flips and for one-flip GWG, see C73. DMALA/DLMC need step sizes that no longer change; categorical GWG is for one chain."
  },
  {
   "property": "C73",
   "status": "partial",
   "theorems": [
    "Discs.pafs_even_confined",
    "Discs.pafs_even_not_ergodic",
    "Discs.gwg_flat_oscillates",
    "Discs.gwg_flat_not_ergodic",
    "Discs.gwg_one_ergodic_iff",
    "Discs.pafs_ergodic_iff",
    "Discs.pafs_flat_not_ergodic",
    "Discs.gwg_one_forgets_iff",
    "Discs.pafs_forgets_iff",
    "Discs.gwg_one_limit"
   ],
   "note": "False as stated; the exact condition is proved, with an ideal acceptance test (gwg_one_ergodic_iff, pafs_ergodic_iff) and with the acceptance noise of the code on a grid of M = 2^23 values (gwg_one_forgets_iff, pafs_forgets_iff). With that noise a ratio above 1 - 1/M + 1e-24 is always accepted, so one-flip GWG forgets its start if and only if some flip has a smaller ratio, and the path-auxiliary sampler if and only if k is odd, k < D (or D = 1) and some path has a smaller ratio. The grid versions suppose that no ratio is 1e-24 or less. With an even number of flips the path-auxiliary sampler keeps the parity of the number of ones for every model."
  },
  {
   "property": "C74",
   "status": "proved",
   "theorems": [
    "Discs.fhmm_observation_law",
    "Discs.cfhmm_observation_law",
    "Discs.fhmm_target_is_posterior",
    "Discs.cfhmm_target_is_posterior",
    "Discs.fhmm_odds"
   ],
   "note": "jax.random.normal is taken to draw independent standard normals. The categorical factor contains the row sums of C36."
  },
  {
   "property": "C75",
   "status": "partial",
   "theorems": [
    "Discs.gibbs_batch",
    "Discs.blockGibbs_batch",
    "Discs.rbm_batch",
    "Discs.rw_batch",
    "Discs.gwgBinary_batch",
    "Discs.gwgAdaptive_batch",
    "Discs.pafsBinary_batch",
    "Discs.pafsAdaptive_batch",
    "Discs.pafsCategAdaptive_batch",
    "Discs.dmalaBinary_batch",
    "Discs.dmalaCateg_batch",
    "Discs.dlmcBinary_batch",
    "Discs.dlmcCateg_batch",
    "Discs.batch_run",
    "Discs.gibbs_batch_invariant",
    "Discs.blockGibbs_batch_invariant",
    "Discs.rbm_batch_invariant",
    "Discs.rw_batch_nearlyInvariant",
    "Discs.gwg_batch_nearlyInvariant",
    "Discs.pafs_batch_nearlyInvariant",
    "Discs.hb_batch",
    "Discs.hb_batch_not_independent"
   ],
   "note": "False for the Hamming-ball sampler: one radius is drawn for the whole batch (hb_batch_not_independent); it is a mixture of products over the radius (hb_batch). DMALA/DLMC only with step sizes not taken from the batch (see C18). Categorical GWG not chain-local, see C18."
  },
  {
   "property": "C76",
   "status": "proved",
   "theorems": [
    "Discs.gumbel_topK",
    "Discs.gumbel_max",
    "Discs.pafsBinary_from_noise",
    "Discs.pafsAdaptive_from_noise",
    "Discs.pafs_noise_nearlyInvariant"
   ],
   "note": "Noise is uniform on the unit cube (jax.random.uniform trusted); exact real arithmetic. Categorical path-auxiliary values are still drawn by the trusted jax.random.categorical."
  },
  {
   "property": "C77",
   "status": "partial",
   "theorems": [
    "Discs.samplerKeys_singleUse",
    "Discs.pafsCategorical_not_singleUse",
    "Discs.pafsCategorical_singleUse_partial",
    "Discs.modelKeys_singleUse",
    "Discs.fhmmParamKeys_singleUse_iff",
    "Discs.cfhmmParamKeys_not_nodup",
    "Discs.coRun_singleUse",
    "Discs.textRun_singleUse",
    "Discs.ebmParallelRun_singleUse",
    "Discs.ebmRun_singleUse",
    "Discs.ebmRun_not_singleUse",
    "Discs.samplingRun_not_singleUse",
    "Discs.samplingRun_singleUse_partial",
    "Discs.samplingRun_ignores_seed",
    "Discs.coResults_reuse",
    "Discs.trainProcesses_singleUse",
    "Discs.trainAll_singleUse_one",
    "Discs.trainAll_not_singleUse",
    "Discs.rngGen_singleUse",
    "Discs.rngGen_advance_zero",
    "Discs.textResults_reuse"
   ],
   "note": "Proved for every sampler but categorical PAFS and for the CO (one batch), text (one sentence), parallel EBM and single-process training drivers. Refuted for: categorical PAFS, both FHMM parameter draws, the sampling driver (the key choosing the saved chains is the root of all step keys, and is a constant), the sequential EBM driver with Gibbs-type samplers, several batches of CO instances (same seed each), initial chains on several processes. All sentences of the text experiment use the same keys (textResults_reuse)."
  },
  {
   "property": "C78",
   "status": "partial",
   "theorems": [
    "Discs.numCutAdjMat_eq",
    "Discs.ncEvaluate_cut",
    "Discs.numCut_eq",
    "Discs.ncEvaluate_balanceness_eq",
    "Discs.ncEvaluate_balanceness",
    "Discs.ncEvaluate_volume",
    "Discs.ncEvaluate_order_wrong",
    "Discs.nodeDegrees_order_wrong",
    "Discs.ncEvaluate_weight_wrong",
    "Discs.ncEvaluate_loop_wrong",
    "Discs.ncEvaluate_too_many",
    "Discs.nc_stack",
    "Discs.ncInit_covers",
    "Discs.ncInit_none"
   ],
   "note": "Proved for graphs with unit weights and no repeated edge whose nodes are listed as 0, 1, ... (volumes: also no loops); balanceness for every graph. Refuted for other node orders, other weights and loops. Padded graphs of different sizes can be stacked only in a special case (nc_stack). The evaluation raises exactly for a graph without edges and for labels that are too large (ncEvaluate_too_many)."
  },
  {
   "property": "C79",
   "status": "proved",
   "theorems": [
    "Discs.bEvaluate_mean_error",
    "Discs.bSampleVar_unbiased",
    "Discs.bEvaluate_mean_exact",
    "Discs.bEvaluate_var_error",
    "Discs.bMse_bounds",
    "Discs.bWindows_spec"
   ],
   "note": "Includes the NaN cases: one step (chains) and one chain (last samples)."
  },
  {
   "property": "C80",
   "status": "partial",
   "theorems": [
    "Discs.refUnique_eq",
    "Discs.refUnique_range",
    "Discs.refUnique_mono",
    "Discs.refUnique_repeat",
    "Discs.selfUnique_eq",
    "Discs.selfUnique_range",
    "Discs.unique_perm",
    "Discs.lmEvaluate_none",
    "Discs.lmEvaluate_some",
    "Discs.selfBleuRefs_eq",
    "Discs.lmPrepare_tokens",
    "Discs.cased_always_novel",
    "Discs.lmPrepare_eq"
   ],
   "note": "Exact values proved. Refuted: the reference number divides distinct phrases by occurrences (refUnique_repeat) and compares cased predictions with lower-cased references (cased_always_novel); evaluation fails if all sentences are shorter than max_n_grams. BLEU is in C120."
  },
  {
   "property": "C81",
   "status": "partial",
   "theorems": [
    "Discs.tiEnergy_eq",
    "Discs.maskedCond_isProb",
    "Discs.maskedCond_blind",
    "Discs.tiEnergy_weight",
    "Discs.tiEnergy_single",
    "Discs.tiEnergy_out_of_range",
    "Discs.tiInitLaw_eq",
    "Discs.tiInitLaw_sum",
    "Discs.tiEnergy_not_masked",
    "Discs.tiEnergy_masked_partial",
    "Discs.tiEnergy_bert",
    "Discs.tiEnergy_bert_partial",
    "Discs.tiEnergy_bert_not_masked",
    "Discs.tiSingleForward_some",
    "Discs.tiSingleForward_none"
   ],
   "note": "Refuted: the mask row is written out of bounds and dropped, so the predicted position shows the zero row instead of [MASK]; holds for networks that do not tell these rows apart. With as many positions as categories there is no energy; for BERT this cannot occur (tiSingleForward_some)."
  },
  {
   "property": "C82",
   "status": "partial",
   "theorems": [
    "Discs.infillLoop_eq",
    "Discs.infillLoop_partition",
    "Discs.createInfill_sizes",
    "Discs.createInfill_entry",
    "Discs.infillPositions_spec",
    "Discs.infillPositions_count",
    "Discs.tiDecode_spec",
    "Discs.fillIn_spec",
    "Discs.infill_reference_leak",
    "Discs.infill_references_disjoint_partial",
    "Discs.createInfill_ok_iff"
   ],
   "note": "Refuted: a line occurring twice stays among the references when its first copy is infilled; holds for corpora of distinct lines."
  },
  {
   "property": "C83",
   "status": "partial",
   "theorems": [
    "Discs.addPrefix_inj",
    "Discs.addPrefix_strip",
    "Discs.textSentences_topk",
    "Discs.textSentences_exact_partial",
    "Discs.textSentences_plain",
    "Discs.textSentences_altered",
    "Discs.resampleLoop_eq",
    "Discs.textResults_fails"
   ],
   "note": "Refuted: from the 11th resampling on the sentence is altered (exactly then), and the jitted evaluator is called with strings, so the run always ends in a TypeError before saving. Holds for at most ten resamplings."
  },
  {
   "property": "C84",
   "status": "partial",
   "theorems": [
    "Discs.mainConfig_plain",
    "Discs.mainConfig_graph",
    "Discs.mainConfig_bert",
    "Discs.mainConfig_ignored",
    "Discs.mainConfig_default_erases",
    "Discs.updateSaveDir_spec",
    "Discs.getSweeps_spec",
    "Discs.getSweeps_edge",
    "Discs.mem_cartesian",
    "Discs.mainConfig_lost",
    "Discs.mainConfigT_same",
    "Discs.updateT_raises_iff",
    "Discs.mainConfigT_clash",
    "Discs.mainConfigT_eq"
   ],
   "note": "Exact precedence proved for all three kinds of models. Refuted: for graph and language models the experiment configuration wins over the model and sampler configuration, so the default --config erases their names; with an empty graph_type or bert_model the experiment configuration is ignored. Sweeps proved. Type checks of ml_collections: what raises (updateT_raises_iff, mainConfigT_clash), what is converted (mainConfigT_same), and that nothing happens where every file gives a key one type (mainConfigT_eq); their rules are written from the documentation, values None left out."
  },
  {
   "property": "C85",
   "status": "partial",
   "theorems": [
    "Discs.clusters_partition",
    "Discs.diffKey_iff",
    "Discs.clusters_classes_partial",
    "Discs.clusters_order_dependent",
    "Discs.rowAppend_eq",
    "Discs.organizeCluster_spec",
    "Discs.sortSamplers_spec",
    "Discs.sortSamplers_drops",
    "Discs.shipped_clusters",
    "Discs.shipped_clusters_name"
   ],
   "note": "Refuted: with different key sets the groups depend on the order of the folders, and the rows of the Gibbs and locally-balanced samplers are dropped when sorting. Holds for experiments with the same keys.  In the shipped sweeps all jobs have the same keys, so that the clusters are right whichever runs are there and in whatever order (shipped_clusters, shipped_clusters_name)."
  },
  {
   "property": "C86",
   "status": "partial",
   "theorems": [
    "Discs.experimentConfig_folder",
    "Discs.folder_roundtrip_partial",
    "Discs.experimentConfig_cfg",
    "Discs.folder_roundtrip_cfg_partial",
    "Discs.findWord_none",
    "Discs.folder_collisions",
    "Discs.stripSection_spec",
    "Discs.parseValue_tuple",
    "Discs.folder_roundtrip_paths",
    "Discs.gcsShort_eq",
    "Discs.gcsShort_isSome",
    "Discs.paths_collide"
   ],
   "note": "Refuted: shapes are reduced to their first dimension, '/' and '-' are confused, settings with the same last component overwrite one another, paths below /gcs are cut to their last three components (paths_collide; fewer components stop the launcher, gcsShort_isSome). Holds for plain keys and values with distinct short names; what is read of values with slashes and of paths is folder_roundtrip_paths; of a swept cfg_str what is read back is the part after its first two characters up to its first comma. Escapes in repr are not modelled."
  },
  {
   "property": "C87",
   "status": "partial",
   "theorems": [
    "Discs.gibbs_averages",
    "Discs.blockGibbs_averages",
    "Discs.rbm_averages",
    "Discs.rw_averages",
    "Discs.dmalaBinary_averages",
    "Discs.dlmcBinary_averages",
    "Discs.dmalaCateg_averages",
    "Discs.dlmcCateg_averages",
    "Discs.gwg_averages",
    "Discs.gwgAdaptive_averages",
    "Discs.cgwg_averages",
    "Discs.gibbs_average_prob",
    "Discs.hb_averages_biased"
   ],
   "note": "Refuted for the Hamming ball when a block covers the sample: the shares of time stay a fixed distance from the target. Same restrictions as C72."
  },
  {
   "property": "C88",
   "status": "partial",
   "theorems": [
    "Discs.rw_keeps_target_partial",
    "Discs.rwAdaptive_two_steps",
    "Discs.rwAdaptive_not_kept",
    "Discs.rwAdaptive_not_kept_default",
    "Discs.gwgAdaptive_site",
    "Discs.gwgAdaptive_not_kept",
    "Discs.gwgAdaptive_not_kept_default",
    "Discs.pafsAdaptive_site",
    "Discs.pafsAdaptive_not_kept",
    "Discs.pafsAdaptive_not_kept_default",
    "Discs.dmalaAdaptive_site",
    "Discs.dmalaAdaptive_not_kept",
    "Discs.dmalaAdaptive_not_kept_default",
    "Discs.dlmcAdaptive_site",
    "Discs.dlmcAdaptive_not_kept",
    "Discs.dlmcAdaptive_not_kept_default",
    "Discs.dlmcEuler_not_kept",
    "Discs.dmalaCategAdaptive_not_kept",
    "Discs.dmalaCategAdaptive_not_kept_default",
    "Discs.dlmcCategAdaptive_not_kept",
    "Discs.dlmcCategAdaptive_not_kept_default",
    "Discs.dlmcCategEuler_not_kept",
    "Discs.halfGrad_deriv"
   ],
   "note": "Refuted for the adaptive random walk (every D >= 2, every rate in (0, 1)), adaptive GWG and adaptive path-auxiliary sampler (every D >= 2, rates between 1/2 and 3/4; with the configured rate and the code's offset up to 10^10 sites): the target is lost within two or three steps, with the exact law of the run. Holds without adaptation. Refuted also for DMALA and DLMC, binary and categorical (every D, every C > 2, every rate in [0, 1), both solvers; binary Euler only with the weight t/(1+t)) within two steps from the initial state; the categorical models are given with their true gradient (halfGrad_deriv). Whether the bias persists in the long run depends on the model (C90)."
  },
  {
   "property": "C89",
   "status": "proved",
   "theorems": [
    "Discs.gwg_proposal_law",
    "Discs.pafs_proposal_law",
    "Discs.gwg_bernoulli_law",
    "Discs.gwg_mis_law",
    "Discs.gwg_masked_law",
    "Discs.cgwg_proposal_law",
    "Discs.cgwg_categ_law",
    "Discs.pafsCateg_proposal_law",
    "Discs.mis_padded_law",
    "Discs.maxcut_padded_law",
    "Discs.clique_padded_law"
   ],
   "note": "The path-auxiliary statements are about the scores from which the first site is drawn (later sites: C22, C76). Real arithmetic: exp(-1e9) is 0 in float32."
  },
  {
   "property": "C90",
   "status": "partial",
   "theorems": [
    "Discs.pafsAdaptive_average",
    "Discs.pafsAdaptive_not_estimate",
    "Discs.gwgAdaptive_average",
    "Discs.gwgAdaptive_not_estimate",
    "Discs.rwAdaptive_site",
    "Discs.rwAdaptive_average",
    "Discs.rwAdaptive_not_estimate"
   ],
   "note": "Refuted for all three samplers: on two sites the share of time at the likelier value converges to a number below its probability (closed form for GWG and the path-auxiliary sampler at every rate in (1/2, 2/3]; numerical enclosure for the random walk at its default rate), because adaptation never stops. Averages do converge to expectations for radii that no longer change: C87. DMALA and DLMC not treated; more than two sites not treated."
  },
  {
   "property": "C91",
   "status": "proved",
   "theorems": [
    "Discs.pcdLoss_hasFDerivAt",
    "Discs.negLogLik_hasFDerivAt",
    "Discs.pcdGrad_bias",
    "Discs.pcdGrad_unbiased",
    "Discs.rbmScore_differentiable",
    "Discs.rbm_pcd_unbiased",
    "Discs.rbm_cd_bias",
    "Discs.binarise_law"
   ],
   "note": "The gradient code (jax.value_and_grad) is read as the Frechet derivative. rbm_cd_bias gives |bias| <= A * c^k, c < 1."
  },
  {
   "property": "C92",
   "status": "partial",
   "theorems": [
    "Discs.train_updates",
    "Discs.train_events",
    "Discs.supplies_repeat",
    "Discs.supplies_once",
    "Discs.final_saved",
    "Discs.constantLr_logged",
    "Discs.updown_logged",
    "Discs.upExpDown_schedule",
    "Discs.train_raises"
   ],
   "note": "Order of batches, rates and frequencies proved. Refuted: without repetition (RBM training) at most one epoch of updates is made; during warm-up the logged rate is that of the next update (the first update is made at rate 0); the final state is saved only if save_every divides the number of updates. Frequencies must not be zero: otherwise the run raises after its first update (train_raises)."
  },
  {
   "property": "C93",
   "status": "proved",
   "theorems": [
    "Discs.torchTarget_inj",
    "Discs.convertTorch_spec",
    "Discs.toFlax_conv",
    "Discs.toFlax_dense",
    "Discs.toFlax_bias",
    "Discs.torchTarget_collision",
    "Discs.toFlax_rank",
    "Discs.torchTarget_names"
   ],
   "note": "For checkpoint names in standard form (Spec.StandardName), as PyTorch produces them; torchTarget_collision shows that other names can collide. Loading the pickle and the network itself are not modelled."
  },
  {
   "property": "C94",
   "status": "proved",
   "theorems": [
    "Discs.gridSize_room",
    "Discs.tileImgs_cells",
    "Discs.tile_places_inj",
    "Discs.plotShards_chain"
   ],
   "note": "Arrays are shape and row-major entries. Both training scripts import the module from a package where it does not exist (DESIGN.md)."
  },
  {
   "property": "C95",
   "status": "partial",
   "theorems": [
    "Discs.shuffleRows_perm",
    "Discs.reshapeData_transposed",
    "Discs.transposed_at",
    "Discs.binomialRows_drawn",
    "Discs.load_static",
    "Discs.load_dynamic",
    "Discs.load_omniglot",
    "Discs.load_omniglot_zero",
    "Discs.load_caltech",
    "Discs.load_frey",
    "Discs.load_histo",
    "Discs.load_unknown",
    "Discs.load_dynamic_train",
    "Discs.load_omniglot_train"
   ],
   "note": "Splits, axes, binarisation of validation and test images and unknown names proved. Refuted: the training images of dynamic_mnist and omniglot stay grey although declared binary (only validation and test images are binarised, and training uses them as they are); n_validation = 0 gives an empty training set. Reading of files not modelled."
  },
  {
   "property": "C96",
   "status": "partial",
   "theorems": [
    "Discs.dictGet_del",
    "Discs.label_iff",
    "Discs.processKeys_keys",
    "Discs.approx_invisible",
    "Discs.block_label",
    "Discs.saver_iff",
    "Discs.saver_adaptive",
    "Discs.jobDict_unit",
    "Discs.shipped_labels",
    "Discs.shipped_labels_read",
    "Discs.floatRepr_value",
    "Discs.intRepr_value",
    "Discs.shipped_floats"
   ],
   "note": "Exactly what labels distinguish is proved (label_iff, saver_iff). Refuted: approx_with_grad is dropped without a trace, hb-10-1 and bg-2 are written for every block size, results.csv lists samplers with adaptive=False under the adaptive name.  In the shipped sweeps the labels suffice: every folder is read back with all swept settings and a known label (shipped_labels_read), labels agree exactly if the swept sampler settings agree, and no two jobs with different settings share label and other keys (shipped_labels).  The texts of numbers say their values (floatRepr_value, intRepr_value)."
  },
  {
   "property": "C97",
   "status": "partial",
   "theorems": [
    "Discs.sortFolders_spec",
    "Discs.sortFolders_lost",
    "Discs.padBars_iff",
    "Discs.barHeights_some",
    "Discs.readNum_float",
    "Discs.readNum_int",
    "Discs.tickText_eq",
    "Discs.tick_float",
    "Discs.tick_int",
    "Discs.shipped_ticks",
    "Discs.ticks_fractions",
    "Discs.tickFigure_complete"
   ],
   "note": "Order proved when the folder holds no pictures. Refuted: p pictures among the folders drop the last p experiments; bars are right if and only if a sampler's missing experiments are the last ones (zeros are appended at the end, later results move to earlier ticks).  Ticks are read back from the folder names: integers are exact (tick_int), fractions are cut off (tick_float). In the shipped sweeps of the classical models chain lengths, categories and shapes stand where they should (shipped_ticks). Refuted for fractions: the sixteen temperatures of the Ising sweep share the tick 0, three of four penalties the tick 1 (ticks_fractions).  A complete sweep is drawn if and only if no two swept values share a tick (tickFigure_complete), so that sweeps over such fractions end at the assertion of line 102."
  },
  {
   "property": "C98",
   "status": "partial",
   "theorems": [
    "Discs.extract_parallel",
    "Discs.extract_single",
    "Discs.barEE_value",
    "Discs.barEE_default"
   ],
   "note": "Exact for runs with run_parallel. Refuted: without it the first character of the mean and the last of the deviation are cut off; without a chain length in the folder name the height is right only for 100000 (100001) steps. float() of the two words is not modelled."
  },
  {
   "property": "C99",
   "status": "partial",
   "theorems": [
    "Discs.stepCurve_points",
    "Discs.stepCurve_right_iff",
    "Discs.stepCurve_shift",
    "Discs.stepCurve_mono",
    "Discs.timeCurve_shift"
   ],
   "note": "Values and monotonicity proved. Refuted: points are drawn logging interval minus one steps too early (one interval too early in time), and with interval 1000 if the folder name has none."
  },
  {
   "property": "C100",
   "status": "proved",
   "theorems": [
    "Discs.setRows_at",
    "Discs.oneHotEmbed_rowsOf",
    "Discs.completed_pos",
    "Discs.completed_off",
    "Discs.bertLogits_completed",
    "Discs.bertLogits_ids",
    "Discs.bert_reorder",
    "Discs.attnWeights_isProb",
    "Discs.attnWeights_masked",
    "Discs.attnWeights_all_masked",
    "Discs.vecVar_eq",
    "Discs.layerNorm_moments",
    "Discs.differentiable_bertLogits",
    "Discs.differentiable_tiForward",
    "Discs.maskedCond_bert",
    "Discs.bertHead_untie",
    "Discs.tiEnergy_bert",
    "Discs.tiEnergy_bert_partial",
    "Discs.tiSingleForward_some",
    "Discs.tiSingleForward_none",
    "Discs.tiEnergy_bert_not_masked",
    "Discs.bert_transformer",
    "Discs.bertLogits_transformer"
   ],
   "note": "Over the reals, dropout off, one sentence. The pooler, the next-sentence head, other architectures of the file and the loading of weights are not modelled."
  },
  {
   "property": "C101",
   "status": "proved",
   "theorems": [
    "Discs.resnet_torch",
    "Discs.convertTorch_converted",
    "Discs.resnet_converted",
    "Discs.convertTorch_accepts"
   ],
   "note": "The PyTorch network is a specification written from the names and shapes in pt2params.py; its source is not in the repository. Over the reals."
  },
  {
   "property": "C102",
   "status": "partial",
   "theorems": [
    "Discs.essOf_eq",
    "Discs.cutoff_exists",
    "Discs.acov_zero_iff",
    "Discs.essOf_const",
    "Discs.essOf_range",
    "Discs.essOf_affine",
    "Discs.essOf_complement",
    "Discs.essOf_reverse",
    "Discs.essOf_first_negative",
    "Discs.essOf_last",
    "Discs.essOf_alternating",
    "Discs.getEss_range",
    "Discs.getEss_moments"
   ],
   "note": "All clauses but the last: a chain that changes in its last step only and a chain alternating between two values have the largest value (essOf_last, essOf_alternating). Over the reals; the library's estimator is written from its documentation (default arguments), sums in place of Fourier transforms."
  },
  {
   "property": "C103",
   "status": "partial",
   "theorems": [
    "Discs.rw_grid_run",
    "Discs.gwg_grid_run",
    "Discs.gwgAdaptive_grid_run",
    "Discs.cgwg_grid_run",
    "Discs.pafs_grid_run",
    "Discs.pafsAdaptive_grid_run",
    "Discs.pafsCategAdaptive_grid_run",
    "Discs.dmalaBinary_grid_run",
    "Discs.dmalaCateg_grid_run",
    "Discs.dlmcBinary_grid_run",
    "Discs.dlmcCateg_grid_run",
    "Discs.gridAccept_close",
    "Discs.gridAccept_rare",
    "Discs.gridAccept_zero",
    "Discs.rw_grid_converges",
    "Discs.rw_grid_rare"
   ],
   "note": "All clauses but the last, which rw_grid_rare refutes: every move with ratio in (1e-24, 2^-23] is accepted with probability exactly 2^-23 (gridAccept_rare), so rare states are visited far too often. Only the acceptance noise is discretised; sums and logarithms stay exact."
  },
  {
   "property": "C104",
   "status": "partial",
   "theorems": [
    "Discs.categoricalFrom_softmax",
    "Discs.categoricalG_close",
    "Discs.gibbs_gridDraw_run",
    "Discs.blockGibbs_gridDraw_run",
    "Discs.categoricalG_never",
    "Discs.gibbs_gridDraw_trapped",
    "Discs.gibbs_gridDraw_refuted",
    "Discs.selectedMask_ties"
   ],
   "note": "The first two clauses are proved. The last two are false: a category 21 below another is never drawn (categoricalG_never), a Gibbs chain at a state whose neighbours are all 21 below never moves (gibbs_gridDraw_trapped, gibbs_gridDraw_refuted), and the mask form selects all n sites when all perturbed scores tie (selectedMask_ties). Sums and logarithms stay exact."
  },
  {
   "property": "C105",
   "status": "partial",
   "theorems": [
    "Discs.getGraphs_longest",
    "Discs.getGraphs_exact",
    "Discs.getGraphs_unknown",
    "Discs.fileList_perm",
    "Discs.fileList_contents",
    "Discs.rand_loads",
    "Discs.er_loads",
    "Discs.density_loads",
    "Discs.sat_loads",
    "Discs.rb_loads",
    "Discs.twitter_loads",
    "Discs.loaderSizes_cfg",
    "Discs.optsicom_loads",
    "Discs.optsicom_noise_ignored",
    "Discs.getGraphs_optsicom",
    "Discs.keep_names",
    "Discs.gap_loads",
    "Discs.twitter_values",
    "Discs.optsicomNoise_spec"
   ],
   "note": "Proved but for two clauses: the noise of OptsicomGen is never applied (optsicom_noise_ignored), and TwitterGraphs drops graphs of files with fewer values than graphs (twitter_loads is an equivalence). Configured sizes are taken as they are (loaderSizes_cfg). Reading of pickles and text is not modelled; networkx graphs are insertion-ordered adjacency lists. The ten files of OptsicomGen belong in discs/graph_loader/optsicom, which the repository does not contain: in the pinned tree the class raises FileNotFoundError; optsicom_loads is about a tree with the files."
  },
  {
   "property": "C106",
   "status": "partial",
   "theorems": [
    "Discs.startLaw_isLaw",
    "Discs.startLaw_converges",
    "Discs.startLaw_nearer",
    "Discs.startLaw_ratio",
    "Discs.initRandint_uniform",
    "Discs.initBernoulli_spec",
    "Discs.initHalf_uniform",
    "Discs.categLog_spec",
    "Discs.initFhmmCateg_uniform",
    "Discs.initDataMean_spec",
    "Discs.initCategRbm_spec",
    "Discs.initNormCut_spec",
    "Discs.uniform_ratio",
    "Discs.gibbs_run_from_init",
    "Discs.rbm_run_from_init",
    "Discs.rw_run_from_init",
    "Discs.built_run_from_init"
   ],
   "note": "Refuted for the categorical RBM without data mean, whose constructor raises (initCategRbm_spec). The text model's initial law is in C81 (tiInitLaw_eq, tiInitLaw_sum). The theorems on runs hold for every stochastic, (nearly) invariant kernel; they are instantiated for Gibbs, RBM block Gibbs and the random walk, and for every sound sampler a configuration can build (built_run_from_init: validity and no step further away than the cost of its offsets; convergence rates are in C72). Draws of randint, bernoulli, categorical and shuffle are ideal."
  },
  {
   "property": "C107",
   "status": "proved",
   "theorems": [
    "Discs.bernoulliLogpF_near",
    "Discs.bernForwardF_err",
    "Discs.maxcutObjectiveF_err",
    "Discs.maxcutObjectiveF_exact",
    "Discs.maxcutForwardF",
    "Discs.misForwardF",
    "Discs.misForwardF_exact",
    "Discs.cliqueForwardF",
    "Discs.rwF_run",
    "Discs.rwF_converges",
    "Discs.rwF_converges_energy",
    "Discs.bern_rwF_run",
    "Discs.maxcut_rwF_run",
    "Discs.mis_rwF_run",
    "Discs.bernForwardF_blind",
    "Discs.bern_rwF_blind",
    "Discs.exists_isRound"
   ],
   "note": "Numbers have 24 significant bits and unbounded exponents: no overflow, subnormals, NaN or reduced-precision matrix products. Flips and offsets of the proposal are ideal draws with an arbitrary flip probability. The other samplers and models are still real-valued."
  },
  {
   "property": "C108",
   "status": "proved",
   "theorems": [
    "Discs.lbLogAccF_err",
    "Discs.lbF_run",
    "Discs.lbF_converges",
    "Discs.flipLlF_err",
    "Discs.bernoulliG_close",
    "Discs.flipF_run",
    "Discs.flipF_converges",
    "Discs.gwgLlF_err",
    "Discs.gwgF_run",
    "Discs.categLlF_err",
    "Discs.categF_run",
    "Discs.categF_converges",
    "Discs.round_absorbs_lt",
    "Discs.lbLogAccF_blind",
    "Discs.lbStepF_blind",
    "Discs.flipF_blind",
    "Discs.exists_sumF"
   ],
   "note": "Numbers have 24 significant bits and unbounded exponents. The computed flip probabilities and log-probabilities are arbitrary tables; the hypotheses bound only their normalisation, and how far the ones recomputed at the proposal may differ. Gumbel noise is transformed exactly. Path auxiliary samplers are covered by the general statements only (lbF_run), categorical GWG is not (its batched acceptance ratio mixes chains, C18)."
  },
  {
   "property": "C109",
   "status": "partial",
   "theorems": [
    "Discs.const_drift",
    "Discs.linear_drift",
    "Discs.exp_drift",
    "Discs.rw_anneal",
    "Discs.rw_anneal_optimum",
    "Discs.dmala_anneal_optimum",
    "Discs.dlmc_anneal_optimum",
    "Discs.rw_anneal_linear",
    "Discs.rw_anneal_exp",
    "Discs.rw_anneal_exp_stuck",
    "Discs.nearFresh_best",
    "Discs.rw_anneal_best",
    "Discs.maxcut_gap",
    "Discs.mis_gap",
    "Discs.mis_gap_tight",
    "Discs.mis_infeasible_weight",
    "Discs.shipped_exp_end",
    "Discs.maxcut_rw_anneal",
    "Discs.gibbs_anneal",
    "Discs.gibbs_anneal_optimum",
    "Discs.gibbs_anneal_linear",
    "Discs.gibbs_anneal_exp",
    "Discs.gibbs_anneal_exp_stuck",
    "Discs.blockGibbs_anneal",
    "Discs.blockGibbs_anneal_long",
    "Discs.maxcut_gibbs_anneal",
    "Discs.annealGrad_eq",
    "Discs.gwg_anneal",
    "Discs.gwgAdaptive_anneal",
    "Discs.gwgAdaptive_anneal_optimum",
    "Discs.gwgAdaptive_anneal_long"
   ],
   "note": "Proved for the random walk and for binary DMALA and DLMC with step sizes not taken from the batch. That long runs end at final_temperature is refuted for exp_decay whenever init_temperature*decay_rate is larger, which is the case in every shipped configuration (rw_anneal_exp_stuck, shipped_exp_end). The radii of the random walk are a given sequence inside the stated range. GWG is covered for at least two flips per step (with one flip per step a run can alternate, C73). Path auxiliary samplers are covered only as searches (C115)."
  },
  {
   "property": "C110",
   "status": "partial",
   "theorems": [
    "Discs.build_ok_iff",
    "Discs.build_consistent",
    "Discs.built_targets",
    "Discs.built_targets_run",
    "Discs.built_runs_iff",
    "Discs.built_hammingBall_iff",
    "Discs.built_pathAux_categ_wrong",
    "Discs.shipped_built",
    "Discs.shipped_sound",
    "Discs.build_attrs",
    "Discs.built_dim_positions",
    "Discs.built_dlmc_step",
    "Discs.built_dmala_step",
    "Discs.prod_positions",
    "Discs.comb_subsets"
   ],
   "note": "That every built sampler keeps its target is refuted for Hamming balls with a block of more than one site (built_hammingBall_iff) and for fixed-flip path auxiliary samplers with three categories (built_pathAux_categ_wrong). Legal states exclude the first step of adaptive DMALA and DLMC without co_opt_prob (C25, C26) and radii of the random walk outside [0, dim]. Types of configuration values are not checked."
  },
  {
   "property": "C111",
   "status": "partial",
   "theorems": [
    "Discs.coherent_energy",
    "Discs.built_keeps_model",
    "Discs.bern_coherent",
    "Discs.fhmm_coherent",
    "Discs.rbm_coherent",
    "Discs.categ_coherent",
    "Discs.potts_coherent",
    "Discs.cfhmm_coherent",
    "Discs.crbm_coherent",
    "Discs.mis_coherent",
    "Discs.clique_coherent",
    "Discs.maxcut_coherent",
    "Discs.nc_coherent",
    "Discs.nc_exact_energy",
    "Discs.two_categories_blind",
    "Discs.categ_two_change",
    "Discs.ising_integer_samplers",
    "Discs.ising_gradient_samplers",
    "Discs.ising_laws_differ",
    "Discs.ising_gibbs_limit",
    "Discs.ising_coherent_iff",
    "Discs.bern_scores",
    "Discs.ising_scores",
    "Discs.maxcut_scores",
    "Discs.mis_scores",
    "Discs.clique_scores",
    "Discs.maxcut_exact_scores",
    "Discs.categ_scores",
    "Discs.potts_scores",
    "Discs.nc_exact_scores_partial",
    "Discs.image_coherent"
   ],
   "note": "Refuted for the Ising model (ising_coherent_iff, ising_gibbs_limit) and for penalised NormCut with exact log-ratios (nc_exact_energy). The bounds are those of C110. The categorical FHMM is covered if its number of chains differs from its number of categories. Image models are covered for any network (image_coherent). Text infilling is not covered (its values do not agree, C81)."
  },
  {
   "property": "C112",
   "status": "partial",
   "theorems": [
    "Discs.graphConfig_ok_iff",
    "Discs.graphConfig_loader",
    "Discs.graphConfig_numModels",
    "Discs.graphRun_ok",
    "Discs.graphRun_scanned",
    "Discs.graphRun_declared_iff",
    "Discs.declared_nodes_unchecked",
    "Discs.ba_config",
    "Discs.ba_run_iff",
    "Discs.gap_run_iff",
    "Discs.nets_run",
    "Discs.declared_run",
    "Discs.er_run",
    "Discs.er_run_iff"
   ],
   "note": "Partial because the claim that every configured data set runs is refuted: Barabasi-Albert data with more than four edges per node (ba_run_iff), random normalised cuts (gap_run_iff), graphs with more nodes than declared run on samples that are too short (declared_nodes_unchecked). graphRun_declared_iff covers a data set that fits in one batch with room for a dummy, as all shipped declared sizes do. One process (no sharding; C43 has the general case). A graph is its number of nodes and edges."
  },
  {
   "property": "C113",
   "status": "partial",
   "theorems": [
    "Discs.ais_of_kernels",
    "Discs.blockGibbs_ais",
    "Discs.rw_fixed_ais",
    "Discs.rwAdaptive_ais_biased",
    "Discs.rwAdaptive_ais_biased_default",
    "Discs.dmalaAdaptive_ais_biased",
    "Discs.dmalaAdaptive_ais_biased_default",
    "Discs.dlmcAdaptive_ais_biased",
    "Discs.dlmcAdaptive_ais_biased_default",
    "Discs.gwgAdaptive_ais_biased",
    "Discs.gwgAdaptive_ais_biased_default",
    "Discs.pafsAdaptive_ais_biased",
    "Discs.pafsAdaptive_ais_biased_default",
    "Discs.hb_ais_biased",
    "Discs.built_ais",
    "Discs.built_image_ais",
    "Discs.dlmcEuler_ais_biased",
    "Discs.dlmcEuler_ais_biased_default"
   ],
   "note": "Partial because the claim is refuted for six of the seven samplers as configured. The refutations are for one chain (batch of one) and models whose gradient is zero at every sample; the bound on the offset 1e-24 of the acceptance test limits the default instances to 5000 sites (random walk), 800 (DMALA), 1000 (DLMC with either solver), 250 (GWG, path auxiliary). Without adaptation the claim holds up to the offsets for every sound built sampler and any number of chains (built_ais, built_image_ais); rw_fixed_ais is the exact statement for the ideal acceptance test. With the Euler solver the refutation is for the balancing function t/(1+t); with the square root and a flat model the flip probability sits at its cap of 1/2 during these steps."
  },
  {
   "property": "C114",
   "status": "partial",
   "theorems": [
    "Discs.rw_trapped",
    "Discs.rw_stuck",
    "Discs.rw_hot_stuck",
    "Discs.rw_maxcut_misses",
    "Discs.rw_ising_stuck",
    "Discs.rw_batch_trapped",
    "Discs.rw_batch_hot",
    "Discs.rw_batch_caught",
    "Discs.rw_batch_stuck",
    "Discs.rw_batch_maxcut_misses",
    "Discs.rw_fixed_explores_partial",
    "Discs.rw_categ_explores_partial",
    "Discs.maxcut_flipSymmetric",
    "Discs.ising_flipSymmetric"
   ],
   "note": "Partial because the claim is refuted for the adaptive walk on two categories, for one chain (rw_trapped, rw_stuck, rw_hot_stuck, rw_maxcut_misses, rw_ising_stuck) and for any number of chains that share a radius, on cold models too and for every acceptance noise (rw_batch_caught, rw_batch_stuck, rw_batch_maxcut_misses, rw_batch_trapped, rw_batch_hot). Proved for a fixed radius and for three or more categories, for one chain."
  },
  {
   "property": "C115",
   "status": "partial",
   "theorems": [
    "Discs.pafs_visits",
    "Discs.pafs_visits_iff",
    "Discs.pafs_search",
    "Discs.pafs_even_misses",
    "Discs.pafs_all_misses",
    "Discs.pafsAdaptive_even_misses",
    "Discs.pafs_star_misses",
    "Discs.gwg_visits",
    "Discs.gwgAdaptive_visits",
    "Discs.gwgAdaptive_visits_tendsto"
   ],
   "note": "Partial because the claim is refuted for the path auxiliary sampler with an even number of flips and with as many flips as sites; pafs_visits_iff is the exact condition. GWG: any fixed number of draws (gwg_visits) and adaptive, whatever the radius does (gwgAdaptive_visits). Missing: adaptive path auxiliary runs whose radius rounds to odd and even numbers in turn (hot models: C119)."
  },
  {
   "property": "C116",
   "status": "partial",
   "theorems": [
    "Discs.shortfall_eq_miss",
    "Discs.gibbs_reports",
    "Discs.blockGibbs_reports",
    "Discs.gibbs_reports_tendsto",
    "Discs.gwg_reports",
    "Discs.gwg_reports_one",
    "Discs.pafs_reports",
    "Discs.dmala_reports",
    "Discs.dlmc_reports",
    "Discs.pafs_even_reports",
    "Discs.pafs_star_reports",
    "Discs.gwg_reports_one_holding",
    "Discs.gwg_reports_one_any",
    "Discs.gwg_reports_one_tendsto",
    "Discs.gwg_reports_const",
    "Discs.gwg_reports_linear",
    "Discs.gwg_reports_exp",
    "Discs.maxcut_exactGrad",
    "Discs.mis_exactGrad",
    "Discs.gwgAdaptive_reports_odd",
    "Discs.gwgAdaptive_reports",
    "Discs.gwgAdaptive_reports_long",
    "Discs.pafs_reports_holding",
    "Discs.pafs_balanced_reports",
    "Discs.pafs_reports_even_iff",
    "Discs.pafs_square_misses",
    "Discs.pafs_hot_reports",
    "Discs.pafs_hot_star_reports"
   ],
   "note": "Partial because the claim is refuted for path auxiliary with an even number of flips. GWG with one draw and any log interval is proved for exact scores (MaxCut, MIS) and the three schedules of the experiment; adaptive GWG on a batch with a shared radius for every log interval if the target rate is below one (gwgAdaptive_reports), with a rate that improves with the number of chains for odd ones (gwgAdaptive_reports_odd). Path auxiliary with an odd number of flips and an even log interval: exact condition at constant temperature (pafs_reports_even_iff), with a model that fails it (pafs_square_misses). Adaptive path auxiliary: refuted at high temperatures (pafs_hot_reports, pafs_hot_star_reports), where the probability stays above a positive number however long the run is. Missing: that condition for exact scores and three flips or more; adaptive path auxiliary at lower temperatures. The random walk is in C109 (rw_anneal_best)."
  },
  {
   "property": "C117",
   "status": "partial",
   "theorems": [
    "Discs.launch_starts_iff",
    "Discs.overrides_spec",
    "Discs.launch_agree",
    "Discs.swept_arrives_plain",
    "Discs.swept_arrives_graph",
    "Discs.swept_arrives_text",
    "Discs.shipped_starts",
    "Discs.shipped_samplers",
    "Discs.shipped_arrive",
    "Discs.shipped_experiment",
    "Discs.shipped_models",
    "Discs.potts_sweep_runs_categorical",
    "Discs.gap_sweep_repeats",
    "Discs.shipped_unsound",
    "Discs.shipped_settings",
    "Discs.shipped_ignored",
    "Discs.lm_adaptive_ignored",
    "Discs.swept_lost_empty_graph",
    "Discs.empty_graph_witness",
    "Discs.launchT_same",
    "Discs.launchT_eq",
    "Discs.shipped_typed",
    "Discs.float_refused",
    "Discs.shipped_integers"
   ],
   "note": "Partial because the claim is refuted for shipped sweeps (shipped_starts for optsicom_sampler_sweep.py, shipped_unsound, shipped_models, gap_sweep_repeats). Overrides on the launcher's own command line are in C131. Not modelled: the parsing of texts by config_flags beyond the types of values.  The sampler that is built holds every swept sampler setting (shipped_settings), except a swept adaptive of Gibbs-with-gradients on more than two categories, which nothing reads (shipped_ignored); the two language-model sweeps ask for it (lm_adaptive_ignored).  With model_config.graph_type swept to the empty text nothing of the experiment configuration arrives, not even the folder (swept_lost_empty_graph); no shipped sweep does this.  Type checks of ml_collections never matter with the shipped files, for any overrides (shipped_typed). Settings written as integers refuse floats (float_refused): the Potts coupling, the deviation of the FHMM, initial temperatures of mis and normcut (shipped_integers)."
  },
  {
   "property": "C118",
   "status": "partial",
   "theorems": [
    "Discs.coLayout_isSome",
    "Discs.plainLayout_spec",
    "Discs.results_reported",
    "Discs.reported_count",
    "Discs.shipped_layout_plain",
    "Discs.shipped_layout_graph",
    "Discs.shipped_layout_nets",
    "Discs.shipped_layout_gap",
    "Discs.gap_default_raises",
    "Discs.shipped_reports",
    "Discs.device_findings_inhabited"
   ],
   "note": "Partial because two shipped sweeps refute the claim (gap_default_raises, shipped_reports for the er sweep). Where a configuration declares no number of instances the loader counts the files; shipped_reports then assumes that they fit in a batch."
  },
  {
   "property": "C119",
   "status": "partial",
   "theorems": [
    "Discs.pafs_hot_trapped",
    "Discs.pafs_hot_misses",
    "Discs.pafs_hot_average",
    "Discs.pafs_hot_full",
    "Discs.pafs_flat_stuck",
    "Discs.pafs_hot_schedule",
    "Discs.pafs_visits"
   ],
   "note": "Partial because the claim is refuted on hot and flat models for every random draw (pafs_hot_trapped, pafs_hot_misses, pafs_hot_average, pafs_flat_stuck, pafs_hot_schedule). With a fixed number of flips pafs_visits of C115 gives the positive part. Missing: adaptive runs on cold models."
  },
  {
   "property": "C120",
   "status": "partial",
   "theorems": [
    "Discs.lmBleus_eq",
    "Discs.lmBleu4_eq",
    "Discs.defaultBleu_eq",
    "Discs.bleu4_range",
    "Discs.bleu4_eq_zero",
    "Discs.bleu4_eq_one",
    "Discs.bleu4_copies",
    "Discs.bleu4_short",
    "Discs.bleu4_more_refs_partial",
    "Discs.bleu4_junk",
    "Discs.bleu4_perm",
    "Discs.bleu4_refs",
    "Discs.printed_bleu3",
    "Discs.lmEvaluate_bleu",
    "Discs.lmEvaluate_bleu_none",
    "Discs.reported_range",
    "Discs.reported_cased",
    "Discs.reported_short",
    "Discs.reported_copies",
    "Discs.reported_joint_lower"
   ],
   "note": "Partial because two clauses are refuted: copies (bleu4_short, reported_short, reported_cased; true from four lower-case tokens on, reported_copies) and further references (bleu4_junk, reported_joint_lower; bleu4_more_refs_partial says when it holds). corpus_bleu of nltk 3.8.1 is written from its documentation, over the reals."
  },
  {
   "property": "C121",
   "status": "partial",
   "theorems": [
    "Discs.ee_files_parallel",
    "Discs.ee_curve",
    "Discs.ee_files_single",
    "Discs.ee_files_none",
    "Discs.small_batch_raises",
    "Discs.ee_curve_raises",
    "Discs.mse_wrong_axis",
    "Discs.ee_plot_missing",
    "Discs.shipped_ee_no_files",
    "Discs.shipped_ee_labels"
   ],
   "note": "Partial because refuted in part: one device (ee_files_single), small batches (small_batch_raises), the shipped sweep (shipped_ee_no_files), labels (shipped_ee_labels), shapes with several dimensions (ee_curve_raises, mse_wrong_axis). What holds is ee_files_parallel and ee_curve: several devices, shape (1, \u2026, 1, D)."
  },
  {
   "property": "C122",
   "status": "partial",
   "theorems": [
    "Discs.temp_plot",
    "Discs.mapTemp_last",
    "Discs.tempKeys_last",
    "Discs.tempWords_plain",
    "Discs.temp_heights",
    "Discs.temp_plot_fails",
    "Discs.temp_missing",
    "Discs.tempWords_padded",
    "Discs.temp_padded_fails",
    "Discs.tempDrawn_hides",
    "Discs.temp_axis_wrong"
   ],
   "note": "Partial because refuted in part: the first position is fixed (Spec.drawnAt in temp_plot), other last keys (temp_axis_wrong), missing runs (temp_plot_fails with temp_missing), padded numbers (temp_padded_fails), hidden samplers (tempDrawn_hides). What holds is temp_plot, with tempKeys_last for the keys and temp_heights for the numbers."
  },
  {
   "property": "C123",
   "status": "partial",
   "theorems": [
    "Discs.ebm_figure",
    "Discs.ebm_too_many",
    "Discs.ebm_first_unknown",
    "Discs.ebm_stale",
    "Discs.ebm_no_branch",
    "Discs.dumpImages_none",
    "Discs.dumpImages_visualize",
    "Discs.ebm_needs_files"
   ],
   "note": "Partial because refuted in part: too many folders, unknown names, files that nobody writes. What holds is ebm_figure."
  },
  {
   "property": "C124",
   "status": "partial",
   "theorems": [
    "Discs.logz_plot",
    "Discs.logz_run_shown",
    "Discs.logz_files",
    "Discs.logz_shipped",
    "Discs.logz_shipped_sweep",
    "Discs.logz_axis",
    "Discs.logz_hides",
    "Discs.logz_approx_hidden",
    "Discs.logz_unknown",
    "Discs.logz_missing"
   ],
   "note": "Partial because refuted in part: hidden runs (logz_hides, logz_approx_hidden), unknown samplers (logz_unknown), missing files (logz_missing), the axis (logz_axis). What holds is logz_plot, for runs with the same keys, which the shipped sweep has (logz_shipped, logz_shipped_sweep)."
  },
  {
   "property": "C125",
   "status": "partial",
   "theorems": [
    "Discs.rbm_sampled_as_trained",
    "Discs.rbm_forward_value",
    "Discs.rbm_run_settings",
    "Discs.deep_initLaw",
    "Discs.ebm_sampled_as_trained",
    "Discs.ebm_converted",
    "Discs.saved_ignores_average",
    "Discs.shipped_rbm_jobs",
    "Discs.deep_missing",
    "Discs.rbm_training_ignores_mean",
    "Discs.rbm_categories_untrainable",
    "Discs.rbm_wrong_class",
    "Discs.rbm_default_fails",
    "Discs.rbm_save_dir_late",
    "Discs.ebm_unknown_dataset",
    "Discs.deep_empty_path",
    "Discs.ebm_wrong_categories",
    "Discs.rbm_folder_categories"
   ],
   "note": "Proved for binary RBMs and image models, trained or converted. Partial because refuted in part: categorical RBMs (rbm_categories_untrainable, rbm_wrong_class, shipped_rbm_jobs), the shipped settings (rbm_default_fails), the mean in RBM training (rbm_training_ignores_mean), save_dir_name (rbm_save_dir_late)."
  },
  {
   "property": "C126",
   "status": "partial",
   "theorems": [
    "Discs.nc_row_scores",
    "Discs.nc_cost_of_row",
    "Discs.nc_run_row",
    "Discs.nc_run_floor",
    "Discs.nc_table",
    "Discs.nc_table_exists",
    "Discs.nc_label_iff",
    "Discs.nc_wrong_graph"
   ],
   "note": "Proved for graphs whose nodes are listed as 0, 1, \u2026 and runs whose best logged cost is below 10^9. Partial because refuted in part: costs above the floor (nc_run_floor), results of another graph (nc_wrong_graph), one bad folder (nc_table_exists)."
  },
  {
   "property": "C127",
   "status": "proved",
   "theorems": [
    "Discs.dmala_reset_rate",
    "Discs.dlmc_reset_rate",
    "Discs.dmala_first_hops",
    "Discs.dlmc_first_hops",
    "Discs.dmala_categ_first_hops",
    "Discs.dlmc_categ_first_hops",
    "Discs.d_logZ_run"
   ],
   "note": "Hops are counted by Spec.batchHops; the kernels are those of C90's batches. n must be positive; categorical DLMC needs a known solver (otherwise the step raises)."
  },
  {
   "property": "C128",
   "status": "proved",
   "theorems": [
    "Discs.buildOptimizer_spec",
    "Discs.clipGlobal_spec",
    "Discs.update_le",
    "Discs.run_le",
    "Discs.run_decay_le",
    "Discs.first_update",
    "Discs.updown_run_le"
   ],
   "note": "The transformations of optax are written out with their default settings; other optimiser names (lamb, sgd, ...) are not modelled. Real arithmetic."
  },
  {
   "property": "C129",
   "status": "proved",
   "theorems": [
    "Discs.gen_connected_graph",
    "Discs.gen_connected_none_iff",
    "Discs.gen_connected_returns",
    "Discs.gen_connected_weights",
    "Discs.gen_connected_ba",
    "Discs.largestPart_joined",
    "Discs.gen_connected_gives_up"
   ],
   "note": "The draws of networkx and numpy are inputs (any graph on 0..n-1, any uniform and normal numbers); the order of the edges of a subgraph view is taken to be that of the drawn graph. gen_connected_gives_up is a concrete call that returns None. No other module of the repository calls the function."
  },
  {
   "property": "C130",
   "status": "proved",
   "theorems": [
    "Discs.rw_acceptance",
    "Discs.gwg_acceptance",
    "Discs.gwgAdaptive_acceptance",
    "Discs.cgwg_acceptance",
    "Discs.pafs_acceptance",
    "Discs.pafsAdaptive_acceptance",
    "Discs.pafsCateg_acceptance",
    "Discs.pafsCategAdaptive_acceptance",
    "Discs.dmala_acceptance",
    "Discs.dmalaCateg_acceptance",
    "Discs.dlmc_acceptance",
    "Discs.dlmcCateg_acceptance",
    "Discs.resampling_reports",
    "Discs.adapt_reported",
    "Discs.adapt_reported_categ",
    "Discs.dmala_adapt_reported"
   ],
   "note": "Real arithmetic; the log-ratio of the acceptance test is a real number (NaN arises only from the step size in this model). The locally balanced sampler reports nothing (C56)."
  },
  {
   "property": "C131",
   "status": "partial",
   "theorems": [
    "Discs.jobRoot_inj",
    "Discs.saveAll_eq",
    "Discs.launched_kept",
    "Discs.launch_saveRoot",
    "Discs.shipped_saveRoot",
    "Discs.shipped_names",
    "Discs.localRoot_eq",
    "Discs.local_lost",
    "Discs.launcher_override_refused",
    "Discs.launcher_override_fatal",
    "Discs.launchWith_none"
   ],
   "note": "Proved for launched jobs with the default of --save_folder_pattern; XManager is taken to number experiments and work units without repetition. Partial because refuted in part: local runs (local_lost) and options of the launcher (launcher_override_fatal). A folder is one entry on disc: the names of the files in it are fixed."
  },
  {
   "property": "C132",
   "status": "partial",
   "theorems": [
    "Discs.graph_section",
    "Discs.shipped_penalty",
    "Discs.shipped_mis_solves",
    "Discs.shipped_clique_value",
    "Discs.shipped_clique_tie",
    "Discs.shipped_clique_not_solved",
    "Discs.shipped_normcut_cost",
    "Discs.penalty_override_refused",
    "Discs.penalty_override_lost",
    "Discs.penalty_override_er"
   ],
   "note": "Proved for maximum independent set (shipped_mis_solves) and for the highest score of maximum clique (shipped_clique_value). Refuted for the samples of maximum clique (shipped_clique_tie says on which graphs, shipped_clique_not_solved gives one for every job) and for normalised cut (shipped_normcut_cost: what is minimised instead).  What an override of the penalty does, for any job over the shipped files: refused for maximum clique, maximum cut and normalised cut, lost on the SATLIB graphs, taken on the Erd\u0151s\u2013R\u00e9nyi graphs."
  }
 ]
}