{
 "claims": [
  {
   "property": "C01",
   "status": "proved",
   "theorems": [
    "Props.LinearChain.partition_exact",
    "Props.LinearChain.sum_any_semiring",
    "Props.LinearChain.partition_closed_form",
    "Props.LinearChain.partition_bounds"
   ],
   "note": "Exact for every commutative semiring and for the log semiring with zero=-inf; with the library's zero=-1e5 the exact closed form and two-sided bound are proved."
  },
  {
   "property": "C02",
   "status": "proved",
   "theorems": [
    "Props.LinearChain.truncation",
    "Props.LinearChain.padding_irrelevant"
   ],
   "note": ""
  },
  {
   "property": "C03",
   "status": "proved",
   "theorems": [
    "Props.LinearChain.max_spec",
    "Props.LinearChain.max_threshold_needed"
   ],
   "note": ""
  },
  {
   "property": "C04",
   "status": "proved",
   "theorems": [
    "Props.LinearChain.argmax_spec"
   ],
   "note": "For every tie-breaking rule; potentials must exceed the -1e5 stand-in (max_threshold_needed shows this is necessary)."
  },
  {
   "property": "C05",
   "status": "proved",
   "theorems": [
    "Props.LinearChain.kmax_spec"
   ],
   "note": "Requires at least k sequences and 2*edges*max|phi| < 1e5."
  },
  {
   "property": "C06",
   "status": "proved",
   "theorems": [
    "Props.LinearChain.topk_spec"
   ],
   "note": "For every tie-breaking rule; same guard as C05."
  },
  {
   "property": "C07",
   "status": "proved",
   "theorems": [
    "Props.LinearChain.marginals_spec",
    "Props.LinearChain.marginals_limit",
    "Props.LinearChain.edgeProb_sum",
    "Props.LinearChain.edgeProb_consistent",
    "Props.LinearChain.marginals_sum"
   ],
   "note": "Error bound explicit (from zero=-1e5), limit exact."
  },
  {
   "property": "C08",
   "status": "proved",
   "theorems": [
    "Props.LinearChain.logProb_event",
    "Props.LinearChain.logProb_normalised",
    "Props.TreeCRF.logProb_spec",
    "Props.TreeCRF.logProb_normalised",
    "Props.SemiMarkov.logProb_spec",
    "Props.SemiMarkov.logProb_normalised",
    "Props.Dependency.logProb_spec",
    "Props.Dependency.logProb_normalised",
    "Props.LabelledDependency.logProb_spec",
    "Props.LabelledDependency.logProb_normalised"
   ],
   "note": "log_prob(to_event y) = score - partition exactly; probabilities sum to 1 up to the explicit error of zero=-1e5."
  },
  {
   "property": "C09",
   "status": "proved",
   "theorems": [
    "Props.LinearChain.entropy_spec",
    "Props.LinearChain.entropy_limit",
    "Props.LinearChain.chainEntropy_bounds"
   ],
   "note": "Error bound explicit (from zero=-1e5), limit exact."
  },
  {
   "property": "C10",
   "status": "proved",
   "theorems": [
    "Props.LinearChain.crossEntropy_spec",
    "Props.LinearChain.kl_spec",
    "Props.LinearChain.chainKL_facts"
   ],
   "note": "Error bound explicit (from zero=-1e5)."
  },
  {
   "property": "C100",
   "status": "proved",
   "theorems": [
    "Props.Enumerate.chain_each_once",
    "Props.Enumerate.chain_sum",
    "Props.Enumerate.chain_log_exact",
    "Props.Enumerate.chain_log",
    "Props.Enumerate.chain_max",
    "Props.Enumerate.chain_count",
    "Props.Enumerate.semi_each_once",
    "Props.Enumerate.semi_sum",
    "Props.Enumerate.semi_log_exact",
    "Props.Enumerate.semi_log",
    "Props.Enumerate.semi_max",
    "Props.Enumerate.hsmm_sum",
    "Props.Enumerate.dep_each_once",
    "Props.Enumerate.nonproj_each_once",
    "Props.Enumerate.dep_sum",
    "Props.Enumerate.dep_log",
    "Props.Enumerate.dep_max",
    "Props.Enumerate.nonproj_log",
    "Props.Enumerate.nonproj_bounds",
    "Props.Enumerate.spanning_terminates",
    "Props.Enumerate.tree_each_once",
    "Props.Enumerate.tree_sum",
    "Props.Enumerate.tree_log",
    "Props.Enumerate.tree_max",
    "Props.Enumerate.cfg_each_once",
    "Props.Enumerate.cfg_sum",
    "Props.Enumerate.cfg_log",
    "Props.Enumerate.cfg_max",
    "Props.Enumerate.cfg_one_word"
   ],
   "note": "AlignmentTest.enumerate raises AttributeError before it enumerates (its class has no _check_potentials), so there is nothing to compare with."
  },
  {
   "property": "C101",
   "status": "proved",
   "theorems": [
    "Props.Enumerate.chain_events",
    "Props.Enumerate.chain_std_fails"
   ],
   "note": "A length below 2 leaves an entry of an uninitialised tensor as slice bound; the model returns an error there."
  },
  {
   "property": "C102",
   "status": "proved",
   "theorems": [
    "Props.ChainMask.argmax_masked",
    "Props.ChainMask.topk_masked",
    "Props.ChainMask.partition_masked",
    "Props.ChainMask.marginals_masked",
    "Props.ChainMask.maskEdgeProb_forbidden",
    "Props.ChainMask.room_needed"
   ],
   "note": ""
  },
  {
   "property": "C103",
   "status": "proved",
   "theorems": [
    "Props.PositionWise.greedy_optimal",
    "Props.PositionWise.beam_optimal",
    "Props.PositionWise.positionWise_monotone",
    "Props.PositionWise.positionWise_guard",
    "Props.PositionWise.greedy_agrees",
    "Props.PositionWise.beam_agrees",
    "Props.PositionWise.test_autoregressive",
    "Props.PositionWise.greedy_not_optimal"
   ],
   "note": "Real arithmetic. The network of the test is modelled with the batch row in its state."
  },
  {
   "property": "C104",
   "status": "proved",
   "theorems": [
    "Props.MaskedSegments.argmax_spec",
    "Props.MaskedSegments.topk_spec",
    "Props.MaskedSegments.partition_spec",
    "Props.MaskedSegments.marginals_spec",
    "Props.MaskedSpans.argmax_spec",
    "Props.MaskedSpans.topk_spec",
    "Props.MaskedSpans.partition_spec",
    "Props.MaskedSpans.marginals_spec",
    "Props.MaskedArcs.argmax_spec",
    "Props.MaskedArcs.topk_spec",
    "Props.MaskedArcs.partition_spec",
    "Props.MaskedArcs.marginals_spec",
    "Props.MaskedGrammar.argmax_spec",
    "Props.MaskedGrammar.kmax_spec",
    "Props.MaskedGrammar.partition_spec",
    "Props.MaskedGrammar.marginals_spec"
   ],
   "note": "the stand-in -1e5 and the error it causes are part of the model; sampling under masks is not stated"
  },
  {
   "property": "C105",
   "status": "proved",
   "theorems": [
    "Props.BertTagger.forward_spec",
    "Props.BertTagger.forward_short",
    "Props.BertTagger.validate_spec",
    "Props.BertTagger.first_tag_ignored",
    "Props.BertTagger.wrong_le",
    "Props.BertTagger.loss_spec",
    "Props.BertTagger.loss_skip",
    "Props.BertTagger.emission_spec"
   ],
   "note": "Real arithmetic; dropout and the pretrained network are inputs; subtraction of tables of different sizes raises in the model (PyTorch repeats size 1)."
  },
  {
   "property": "C106",
   "status": "proved",
   "theorems": [
    "Props.TreeLSTM.network_spec",
    "Props.TreeLSTM.rows_separate",
    "Props.TreeLSTM.twice_differs",
    "Props.TreeLSTM.reward_spec",
    "Props.TreeLSTM.policy_gradient",
    "Props.TreeLSTM.expanded_eq"
   ],
   "note": "Real arithmetic; dgl is modelled after its documentation (frontier-wise pull, messages in the order of the edges, node function applied to nodes without incoming edges)."
  },
  {
   "property": "C107",
   "status": "proved",
   "theorems": [
    "Props.Mirror.tree_any_semiring",
    "Props.Mirror.tree_queries",
    "Props.Mirror.tree_kmax",
    "Props.Mirror.tree_count",
    "Props.Mirror.tree_marginals",
    "Props.Mirror.dep_any_semiring",
    "Props.Mirror.dep_queries",
    "Props.Mirror.dep_count",
    "Props.Mirror.dep_kmax",
    "Props.Mirror.dep_marginals",
    "Props.Mirror.cfg_any_semiring",
    "Props.Mirror.cfg_queries",
    "Props.Mirror.cfg_kmax",
    "Props.Mirror.cfg_count",
    "Props.Mirror.cfg_marginals"
   ],
   "note": "kmax for potentials far from the stand-in -1e5, as in the specifications of kmax. Linear chains: C83. Semi-Markov models are not included: their stand-in effects are not symmetric."
  },
  {
   "property": "C108",
   "status": "proved",
   "theorems": [
    "Props.TreeLabels.any_semiring",
    "Props.TreeLabels.partition",
    "Props.TreeLabels.max",
    "Props.TreeLabels.marginals",
    "Props.TreeLabels.root_label",
    "Props.TreeLabels.tree_prob",
    "Props.TreeLabels.entropy",
    "Props.TreeLabels.arc_marginals",
    "Props.TreeLabels.arc_entropy"
   ],
   "note": "Exact: no error from the stand-in -1e5."
  },
  {
   "property": "C109",
   "status": "proved",
   "theorems": [
    "Props.SpanLSTM.span_scores",
    "Props.SpanLSTM.rows_separate",
    "Props.SpanLSTM.root_is_blind",
    "Props.SpanLSTM.padding_matters"
   ],
   "note": "The user may expect invariance under padding: padding_matters refutes it."
  },
  {
   "property": "C11",
   "status": "proved",
   "theorems": [
    "Props.LinearChain.count_spec",
    "Props.LinearChain.count_finite"
   ],
   "note": ""
  },
  {
   "property": "C110",
   "status": "proved",
   "theorems": [
    "Props.TreeEval.accuracy_spec",
    "Props.TreeEval.accuracy_bounds",
    "Props.TreeEval.later_ignored",
    "Props.TreeEval.no_batches",
    "Props.TreeEval.batch_spec"
   ],
   "note": ""
  },
  {
   "property": "C111",
   "status": "proved",
   "theorems": [
    "Props.Likelihood.chain_tangent",
    "Props.Likelihood.chain_best",
    "Props.Likelihood.semimarkov_tangent",
    "Props.Likelihood.semimarkov_best",
    "Props.Likelihood.tree_tangent",
    "Props.Likelihood.tree_best",
    "Props.Likelihood.dependency_tangent",
    "Props.Likelihood.dependency_best",
    "Props.Likelihood.labelled_tangent",
    "Props.Likelihood.labelled_best"
   ],
   "note": ""
  },
  {
   "property": "C112",
   "status": "proved",
   "theorems": [
    "Props.Ascent.chain_parabola",
    "Props.Ascent.chain_step",
    "Props.Ascent.semimarkov_parabola",
    "Props.Ascent.semimarkov_step",
    "Props.Ascent.tree_parabola",
    "Props.Ascent.tree_step",
    "Props.Ascent.arc_parabola",
    "Props.Ascent.dependency_step",
    "Props.Ascent.labelled_step"
   ],
   "note": ""
  },
  {
   "property": "C113",
   "status": "proved",
   "theorems": [
    "Props.TreeInfinity.plain_spec",
    "Props.TreeInfinity.guarded_spec",
    "Props.TreeInfinity.padding_nan",
    "Props.TreeInfinity.label_everywhere",
    "Props.TreeInfinity.finite"
   ],
   "note": "torch's backward formula for logsumexp, grad * (self - result).exp(), is trusted; guarded_spec covers versions that guard it."
  },
  {
   "property": "C114",
   "status": "proved",
   "theorems": [
    "Props.Bregman.tree_spec",
    "Props.Bregman.tree_grad",
    "Props.Bregman.tree_both",
    "Props.Bregman.tree_small",
    "Props.Bregman.chain_spec",
    "Props.Bregman.chain_grad",
    "Props.Bregman.chain_small",
    "Props.Bregman.chain_both",
    "Props.Bregman.dependency_entropy",
    "Props.Bregman.labelled_entropy"
   ],
   "note": "Real arithmetic. The entropy identity of the chain holds up to the -1e5 stand-in only (C09) and is not restated here."
  },
  {
   "property": "C115",
   "status": "proved",
   "theorems": [
    "Props.ChainInfinity.spec",
    "Props.ChainInfinity.limit"
   ],
   "note": "Rounding is not modelled; the backward formulas of torch operations are trusted. If every sequence uses a forbidden transition, the theorem says only that the numbers are finite and in [0,1]."
  },
  {
   "property": "C116",
   "status": "proved",
   "theorems": [
    "Props.SemiInfinity.spec",
    "Props.SemiInfinity.limit"
   ],
   "note": "Rounding is not modelled; the backward formulas of torch operations are trusted. If every segmentation uses a forbidden segment, the theorem says only that the numbers are finite and in [0,1]."
  },
  {
   "property": "C117",
   "status": "proved",
   "theorems": [
    "Props.DepInfinity.plain_spec",
    "Props.DepInfinity.guarded_spec",
    "Props.DepInfinity.neighbours_allowed",
    "Props.DepInfinity.neighbour_nan",
    "Props.DepInfinity.no_tree_nan",
    "Props.DepInfinity.finite"
   ],
   "note": "Rounding is not modelled; the backward formulas of torch operations are trusted. Labelled arcs and the single-root variant are not covered."
  },
  {
   "property": "C118",
   "status": "proved",
   "theorems": [
    "Props.CFGInfinity.guarded_spec",
    "Props.CFGInfinity.plain_spec",
    "Props.CFGInfinity.plain_iff",
    "Props.CFGInfinity.open_spec",
    "Props.CFGInfinity.stuck_nan",
    "Props.CFGInfinity.words_nan"
   ],
   "note": "Rounding is not modelled; the backward formulas of torch operations are trusted. One length per batch row."
  },
  {
   "property": "C119",
   "status": "proved",
   "theorems": [
    "Props.InfArgmax.tree_spec",
    "Props.InfArgmax.dependency_spec",
    "Props.InfArgmax.labelled_spec",
    "Props.InfArgmax.chain_spec",
    "Props.InfArgmax.semi_spec",
    "Props.InfArgmax.grammar_spec",
    "Props.InfArgmax.exists_pick"
   ],
   "note": "torch.max propagates the gradient to one largest entry (trusted, as in C03). Rounding is not modelled."
  },
  {
   "property": "C12",
   "status": "proved",
   "theorems": [
    "Props.LinearChain.sampled_law",
    "Props.LinearChain.sample_law",
    "Props.LinearChain.sample_deviation_tendsto",
    "Props.LinearChain.batchEvent_injective",
    "Props.TreeCRF.sampled_law",
    "Props.TreeCRF.sample_law",
    "Props.TreeCRF.batchEvent_injective",
    "Props.SemiMarkov.sample_law",
    "Props.Dependency.sampled_law",
    "Props.Dependency.sample_law",
    "Props.Dependency.batchEvent_injective",
    "Props.LabelledDependency.sampled_law",
    "Props.LabelledDependency.sample_law",
    "Props.LabelledDependency.batchEvent_injective"
   ],
   "note": "For every autograd tape representing the computation and every source of independent softmax draws: joint law of the batch within 1-exp(-err) total variation (err from zero=-1e5), exact in the limit. Sampling.passes_exist shows the hypotheses are satisfiable."
  },
  {
   "property": "C120",
   "status": "proved",
   "theorems": [
    "Props.InfEntropy.tree_entropy",
    "Props.InfEntropy.dependency_entropy",
    "Props.InfEntropy.labelled_entropy",
    "Props.InfEntropy.semi_entropy",
    "Props.InfEntropy.grammar_entropy",
    "Props.InfEntropy.chain_entropy",
    "Props.InfEntropy.tree_kl",
    "Props.InfEntropy.tree_cross_entropy",
    "Props.InfEntropy.chain_kl",
    "Props.InfEntropy.chain_cross_entropy"
   ],
   "note": "Rounding is not modelled."
  },
  {
   "property": "C121",
   "status": "proved",
   "theorems": [
    "Props.InfSample.tree_spec",
    "Props.InfSample.dependency_spec",
    "Props.InfSample.labelled_spec",
    "Props.InfSample.chain_spec",
    "Props.InfSample.semi_spec"
   ],
   "note": "torch.multinomial is modelled: it raises iff a probability is NaN, and draws every index of positive probability and no other. Probabilities that underflow to 0 are not modelled."
  },
  {
   "property": "C122",
   "status": "proved",
   "theorems": [
    "Props.InfTopk.tree_spec",
    "Props.InfTopk.dependency_spec",
    "Props.InfTopk.labelled_spec",
    "Props.InfTopk.semi_spec",
    "Props.InfTopk.grammar_kmax",
    "Props.InfTopk.grammar_topk",
    "Props.InfTopk.chain_spec",
    "Props.InfTopk.exists_sel"
   ],
   "note": "The bound keeps every allowed score above the stand-in, as in C05, C48 and C52."
  },
  {
   "property": "C123",
   "status": "proved",
   "theorems": [
    "Props.InfNonProj.partition_spec",
    "Props.InfNonProj.partition_counts_forbidden",
    "Props.InfNonProj.marginals_spec",
    "Props.InfNonProj.agrees",
    "Props.InfNonProj.dead_finite"
   ],
   "note": "lengths are None, except in agrees; for lengths see C31."
  },
  {
   "property": "C124",
   "status": "proved",
   "theorems": [
    "Props.DepLabelInfinity.plain_spec",
    "Props.DepLabelInfinity.guarded_spec",
    "Props.DepLabelInfinity.neighbours_allowed",
    "Props.DepLabelInfinity.forbidden_arc_nan",
    "Props.DepLabelInfinity.no_tree_nan",
    "Props.DepLabelInfinity.finite"
   ],
   "note": "several roots (multiroot=True), the default of DependencyCRF; backward formulas of torch are trusted."
  },
  {
   "property": "C125",
   "status": "proved",
   "theorems": [
    "Props.DepRootInfinity.plain_spec",
    "Props.DepRootInfinity.guarded_spec",
    "Props.DepRootInfinity.neighbours_allowed",
    "Props.DepRootInfinity.neighbour_nan",
    "Props.DepRootInfinity.no_tree_nan",
    "Props.DepRootInfinity.finiteProps.DepRootLabelInfinity.plain_spec",
    "Props.DepRootLabelInfinity.guarded_spec",
    "Props.DepRootLabelInfinity.neighbours_allowed",
    "Props.DepRootLabelInfinity.forbidden_arc_nan",
    "Props.DepRootLabelInfinity.no_tree_nan",
    "Props.DepRootLabelInfinity.finite"
   ],
   "note": "multiroot=False; backward formulas of torch are trusted."
  },
  {
   "property": "C126",
   "status": "proved",
   "theorems": [
    "Props.HMMZero.inference",
    "Props.HMMZero.viterbi",
    "Props.HMMZero.sampling",
    "Props.HMMZero.entropy_nan"
   ],
   "note": "A row with one observation loses its scores (C75). Rounding is not modelled."
  },
  {
   "property": "C127",
   "status": "proved",
   "theorems": [
    "Props.HSMMZero.inference",
    "Props.HSMMZero.viterbi",
    "Props.HSMMZero.sampling",
    "Props.HSMMZero.entropy_nan"
   ],
   "note": "A row without observations loses its scores (C76). Rounding is not modelled."
  },
  {
   "property": "C128",
   "status": "proved",
   "theorems": [
    "Props.InfGumbel.tree_spec",
    "Props.InfGumbel.dependency_spec",
    "Props.InfGumbel.labelled_spec",
    "Props.InfGumbel.chain_spec",
    "Props.InfGumbel.semi_spec"
   ],
   "note": "The set of results is an upper bound (the noise of different cells is taken to be unrelated). For chains, that the result is a tag sequence needs bounds on the noise (C63). The gradient through the result is not covered here (C88)."
  },
  {
   "property": "C129",
   "status": "proved",
   "theorems": [
    "Props.PCFGZero.likelihood",
    "Props.PCFGZero.posterior_or_nan",
    "Props.PCFGZero.nan_iff",
    "Props.PCFGZero.always_nan",
    "Props.PCFGZero.viterbi",
    "Props.PCFGZero.entropy_nan"
   ],
   "note": "The statement says what the code does; that marginals are NaN for grammars with zeros is a defect of the code (the gradient of logsumexp over a block of -inf). Errors of the stand-in are bounded by the explicit terms gap and floor, for positive probabilities at least exp(-B)."
  },
  {
   "property": "C13",
   "status": "proved",
   "theorems": [
    "Props.LinearChain.toParts_spec",
    "Props.LinearChain.fromParts_spec",
    "Props.LinearChain.fromParts_toParts",
    "Props.LinearChain.toParts_fromParts"
   ],
   "note": "N>=2; lengths>=1 (toParts_length_zero and fromParts_single_tag show the limits)."
  },
  {
   "property": "C130",
   "status": "proved",
   "theorems": [
    "Props.InfCross.cross_entropy",
    "Props.InfCross.kl"
   ],
   "note": "Exact arithmetic: exp(-1e5) is positive, so that a forbidden transition always has some weight in the first model; in single precision it is 0, and where the first model gives no weight at all the product 0 * inf is NaN instead of +inf. That constraints of the first model make kl NaN, and shared constraints both, is a defect of the code (C120)."
  },
  {
   "property": "C131",
   "status": "proved",
   "theorems": [
    "Props.InfBeam.log_prob",
    "Props.InfBeam.greedy",
    "Props.InfBeam.beam",
    "Props.InfBeam.sample_without_replacement",
    "Props.InfBeam.greedy_stuck"
   ],
   "note": "max and topk are only assumed to be right for arguments without NaN. The third result of greedy_max and greedy_tempmax are not covered with -inf; for sample see C132."
  },
  {
   "property": "C132",
   "status": "proved",
   "theorems": [
    "Props.InfARSample.sample_law",
    "Props.InfARSample.sample_draws_exist",
    "Props.InfARSample.sample_permitted",
    "Props.InfARSample.sample_stuck"
   ],
   "note": "Trusted: torch.distributions.Categorical draws by the softmax of its logits, and raises if they are all -inf."
  },
  {
   "property": "C133",
   "status": "proved",
   "theorems": [
    "Props.InfBeam.beam_exact"
   ],
   "note": "Trusted: torch.topk as in C131."
  },
  {
   "property": "C134",
   "status": "proved",
   "theorems": [
    "Props.TempPath.objective",
    "Props.TempPath.path_last",
    "Props.TempPath.path_zero",
    "Props.TempPath.path_sum",
    "Props.TempPath.path_not_onehot"
   ],
   "note": "Trusted: autograd computes the derivative where it exists."
  },
  {
   "property": "C135",
   "status": "proved",
   "theorems": [
    "Props.ChainMarkov.logProb_markov",
    "Props.ChainMarkov.logProb_determined",
    "Props.ChainMarkov.entropy_markov",
    "Props.ChainMarkov.chainP_markov",
    "Props.ChainMarkov.chainP_determined",
    "Props.ChainMarkov.chainEntropy_markov"
   ],
   "note": "Over the reals; the formula is for rows with at least one edge."
  },
  {
   "property": "C136",
   "status": "proved",
   "theorems": [
    "Props.Determined.tree_determined",
    "Props.Determined.dependency_determined",
    "Props.Determined.labelled_determined",
    "Props.Determined.chain_determined",
    "Props.Determined.semimarkov_determined"
   ],
   "note": "Over the reals."
  },
  {
   "property": "C137",
   "status": "proved",
   "theorems": [
    "Props.MaxEntropy.tree_maxEntropy",
    "Props.MaxEntropy.dependency_maxEntropy",
    "Props.MaxEntropy.labelled_maxEntropy",
    "Props.MaxEntropy.chain_variational",
    "Props.MaxEntropy.semimarkov_variational"
   ],
   "note": "Over the reals; with potentials -inf entropy is NaN (C120)."
  },
  {
   "property": "C138",
   "status": "partial",
   "theorems": [
    "Props.Validate.with_lengths_partial",
    "Props.Validate.without_lengths",
    "Props.Validate.sentcfg_never",
    "Props.Validate.alignment_never",
    "Props.Validate.nonproj_validated",
    "Props.Validate.unchecked",
    "Props.Validate.failed_flag",
    "Props.Validate.property_false"
   ],
   "note": "False of the code (property_false): without lengths every class but NonProjectiveDependencyCRF raises TypeError or AttributeError; SentCFG and AlignmentCRF reject all arguments; NonProjectiveDependencyCRF never checks lengths. Proved: for LinearChainCRF, HMM, SemiMarkovCRF, DependencyCRF and TreeCRF with lengths, exactly the right arguments are accepted. torch's loop and constraints are trusted."
  },
  {
   "property": "C139",
   "status": "proved",
   "theorems": [
    "Props.SplitNotebook.split_spec",
    "Props.SplitNotebook.never_split_point",
    "Props.SplitNotebook.split_rows"
   ],
   "note": "A defect of the notebook: it stores the loop variable k instead of k_final. The library's own versions of the loop (cky.py:176-186, 219-236) do not have it (C49)."
  },
  {
   "property": "C14",
   "status": "proved",
   "theorems": [
    "Props.HMM.hmm_score",
    "Props.HMM.joint_normalised",
    "Props.HMM.hmm_normalised"
   ],
   "note": "Normalisation of the computed partition up to the explicit error of zero=-1e5."
  },
  {
   "property": "C140",
   "status": "proved",
   "theorems": [
    "Props.Raise.tree_raise",
    "Props.Raise.dependency_raise",
    "Props.Raise.labelled_raise",
    "Props.Raise.chain_raise",
    "Props.Raise.semimarkov_raise",
    "Props.Raise.cfg_raise"
   ],
   "note": "Over the real numbers, as everywhere in the model; rounding of floats is outside it."
  },
  {
   "property": "C141",
   "status": "proved",
   "theorems": [
    "Props.Reweight.tree_reweight",
    "Props.Reweight.dependency_reweight",
    "Props.Reweight.labelled_reweight",
    "Props.Reweight.chain_reweight",
    "Props.Reweight.semimarkov_reweight",
    "Props.Reweight.cfg_reweight",
    "Props.Reweight.fixed",
    "Props.Reweight.follows",
    "Props.Reweight.odds"
   ],
   "note": "Over the real numbers; for SentCFG the preterminal and root scores, because a derivation can use a rule several times (C140 covers the rules)."
  },
  {
   "property": "C142",
   "status": "proved",
   "theorems": [
    "Props.MaxTangent.tree_max_tangent",
    "Props.MaxTangent.tree_max_raise",
    "Props.MaxTangent.dependency_max_tangent",
    "Props.MaxTangent.dependency_max_raise",
    "Props.MaxTangent.labelled_max_tangent",
    "Props.MaxTangent.labelled_max_raise",
    "Props.MaxTangent.semimarkov_max_tangent",
    "Props.MaxTangent.semimarkov_max_raise",
    "Props.MaxTangent.chain_max_tangent",
    "Props.MaxTangent.chain_max_raise",
    "Props.MaxTangent.cfg_max_raise"
   ],
   "note": "Over the real numbers. For SentCFG the theorem is about one score that is raised, in sentences of more than one word (with one word argmax raises an error). For LinearChainCRF the bound -1e5 is that of C03: below it the stand-in wins."
  },
  {
   "property": "C143",
   "status": "proved",
   "theorems": [
    "Props.Margin.tree_argmax_stable",
    "Props.Margin.dependency_argmax_stable",
    "Props.Margin.labelled_argmax_stable",
    "Props.Margin.semimarkov_argmax_stable",
    "Props.Margin.chain_argmax_stable",
    "Props.Margin.cfg_argmax_stable",
    "Props.Margin.tree_gap_stable",
    "Props.Margin.dependency_gap_stable",
    "Props.Margin.labelled_gap_stable",
    "Props.Margin.semimarkov_gap_stable",
    "Props.Margin.chain_gap_stable",
    "Props.Margin.cfg_gap_stable"
   ],
   "note": "Over the real numbers; C90 treats argmax on a machine that rounds."
  },
  {
   "property": "C144",
   "status": "proved",
   "theorems": [
    "Props.SpanReject.intermediary_rejects",
    "Props.SpanReject.to_parts_rejects"
   ],
   "note": "The converse for tables of derivations, that decoding succeeds, is C49. For one row; the rows of a batch do not interact."
  },
  {
   "property": "C145",
   "status": "proved",
   "theorems": [
    "Props.Threshold.tree_together",
    "Props.Threshold.dependency_together",
    "Props.Threshold.labelled_together",
    "Props.Threshold.chain_together"
   ],
   "note": "For LinearChainCRF the marginals are posterior probabilities only up to an error, which the theorem subtracts; SemiMarkovCRF and SentCFG are not covered here. Over the real numbers."
  },
  {
   "property": "C15",
   "status": "proved",
   "theorems": [
    "Props.SemiMarkov.sum_any_semiring",
    "Props.SemiMarkov.partition_limit",
    "Props.SemiMarkov.partition_spec",
    "Props.SemiMarkov.count_spec"
   ],
   "note": "Exact in every commutative semiring; explicit error bound for zero=-1e5."
  },
  {
   "property": "C16",
   "status": "proved",
   "theorems": [
    "Props.SemiMarkov.inside_only",
    "Props.SemiMarkov.partition_start_only",
    "Props.SemiMarkov.partition_inside_only",
    "Props.SemiMarkov.truncation",
    "Props.SemiMarkov.partition_truncation",
    "Props.SemiMarkov.empty_row"
   ],
   "note": ""
  },
  {
   "property": "C17",
   "status": "proved",
   "theorems": [
    "Props.SemiMarkov.scan_eq_dpStandard",
    "Props.SemiMarkov.dpStandard_sum",
    "Props.SemiMarkov.dpStandard_log",
    "Props.SemiMarkov.scan_dpStandard_log",
    "Props.SemiMarkov.scan_dpStandard_max"
   ],
   "note": "Equal in every commutative semiring; with zero=-1e5 the sequential program is exact and the scan within the explicit error. Lengths at least 1."
  },
  {
   "property": "C18",
   "status": "proved",
   "theorems": [
    "Props.SemiMarkov.fromParts_toParts",
    "Props.SemiMarkov.toParts_fromParts",
    "Props.SemiMarkov.toParts_spec",
    "Props.SemiMarkov.fromParts_spec",
    "Props.SemiMarkov.seqOf_valid",
    "Props.SemiMarkov.seqOf_event"
   ],
   "note": ""
  },
  {
   "property": "C19",
   "status": "proved",
   "theorems": [
    "Props.SemiMarkov.hsmm_score"
   ],
   "note": ""
  },
  {
   "property": "C20",
   "status": "proved",
   "theorems": [
    "Props.Dependency.sum_any_semiring",
    "Props.Dependency.partition_spec",
    "Props.Dependency.partition_neg_inf",
    "Props.Dependency.count_spec",
    "Props.NonCrossing.projective_iff",
    "Props.NonCrossing.partition_nonCrossing"
   ],
   "note": "multiroot = true; trees are head vectors that lead to the root and are projective (Spec/Dep.lean)"
  },
  {
   "property": "C21",
   "status": "proved",
   "theorems": [
    "Props.Dependency.sum_any_semiring",
    "Props.Dependency.partition_spec",
    "Props.Dependency.partition_neg_inf",
    "Props.Dependency.count_spec",
    "Props.NonCrossing.projective_iff",
    "Props.NonCrossing.partition_nonCrossing"
   ],
   "note": "multiroot = false; every row has at least one word (a row of length 0 gives one, not zero)"
  },
  {
   "property": "C22",
   "status": "proved",
   "theorems": [
    "Props.Dependency.truncation",
    "Props.Dependency.partition_truncation",
    "Props.LabelledDependency.truncation",
    "Props.LabelledDependency.partition_truncation"
   ],
   "note": ""
  },
  {
   "property": "C23",
   "status": "proved",
   "theorems": [
    "Props.DependencyEvents.unconvert_convert",
    "Props.DependencyEvents.convert_spec",
    "Props.DependencyEvents.tag_unconvert",
    "Props.DependencyEvents.toParts_spec",
    "Props.DependencyEvents.toParts_tree",
    "Props.DependencyEvents.round_trip",
    "Props.DependencyEvents.round_trip_heads",
    "Props.DependencyEvents.toParts_rejects"
   ],
   "note": ""
  },
  {
   "property": "C24",
   "status": "proved",
   "theorems": [
    "Props.LabelledDependency.sum_any_semiring",
    "Props.LabelledDependency.partition_spec",
    "Props.LabelledDependency.partition_neg_inf",
    "Props.LabelledDependency.count_spec"
   ],
   "note": ""
  },
  {
   "property": "C25",
   "status": "proved",
   "theorems": [
    "Props.TreeCRF.sum_any_semiring",
    "Props.TreeCRF.partition_spec",
    "Props.TreeCRF.partition_neg_inf",
    "Props.TreeCRF.count_spec",
    "Props.TreeCRF.count_catalan",
    "Props.TreeCRF.card_trees"
   ],
   "note": "Exact for every commutative semiring and for the real code's zero=-1e5."
  },
  {
   "property": "C26",
   "status": "proved",
   "theorems": [
    "Props.TreeCRF.truncation",
    "Props.TreeCRF.partition_truncation",
    "Props.TreeCRF.sum_any_semiring"
   ],
   "note": ""
  },
  {
   "property": "C27",
   "status": "proved",
   "theorems": [
    "Props.SentCFG.sum_any_semiring",
    "Props.SentCFG.partition_limit",
    "Props.SentCFG.partition_spec",
    "Props.SentCFG.partition_single"
   ],
   "note": "rows of at least two words for partition; partition_single says what the code returns for one word"
  },
  {
   "property": "C28",
   "status": "proved",
   "theorems": [
    "Props.NonProj.partition_spec",
    "Props.NonProj.part_zero",
    "Props.NonProj.partition_bounds",
    "Props.NonProj.total_bounds"
   ],
   "note": "multiroot = true. Matrix-tree theorem proved from scratch (Proofs/MatrixTree.lean)"
  },
  {
   "property": "C29",
   "status": "proved",
   "theorems": [
    "Props.NonProj.partition_spec",
    "Props.NonProj.part_zero",
    "Props.NonProj.partition_bounds",
    "Props.NonProj.total_bounds"
   ],
   "note": "multiroot = false"
  },
  {
   "property": "C30",
   "status": "proved",
   "theorems": [
    "Props.NonProj.marginals_spec",
    "Props.NonProj.prob_sum",
    "Props.NonProj.prob_nonneg",
    "Props.NonProj.root_prob_sum"
   ],
   "note": ""
  },
  {
   "property": "C31",
   "status": "partial",
   "theorems": [
    "Props.NonProj.lengths_leak",
    "Props.NonProj.partition_too_large",
    "Props.NonProj.truncation_partial",
    "Props.NonProj.truncation_marginals_partial",
    "Props.NonProj.lengths_multiroot_partial",
    "Props.NonProj.lengths_partial"
   ],
   "note": "False of the code: eps is added after the mask, so a row shorter than the table always gets too large a partition (lengths_leak, partition_too_large, lengths_partial). Proved: exact for eps = 0; for eps = 1e-5, in both root modes, an explicit bound on the excess of the partition and on the error of the marginals against the block, and zeros outside"
  },
  {
   "property": "C32",
   "status": "partial",
   "theorems": [
    "Props.History.isolated_object_partial",
    "Props.History.isolated_partial",
    "Props.History.objects_interfere",
    "Props.History.not_isolated",
    "Props.History.kmax_reads_last_flag",
    "Props.History.partition_stays"
   ],
   "note": "False of the code: the flag is written into the class (objects_interfere: for every table with a row of two words).  Proved: isolation in histories in which no later construction uses the other flag; which flag a query reads; stored results stay"
  },
  {
   "property": "C33",
   "status": "partial",
   "theorems": [
    "Props.AlignmentCRF.partition_raises",
    "Props.AlignmentCRF.partition_attribute_error",
    "Props.AlignmentCRF.partition_attribute_error_lengths",
    "Props.AlignmentCRF.partition_empty_table",
    "Props.AlignmentCRF.local_ignored",
    "Props.AlignmentCRF.local_same",
    "Props.AlignmentCRF.alignment_fails"
   ],
   "note": "False of the code: the option local is passed in the wrong position and partition raises AttributeError for every valid table (no semiring has the methods one_, zero_)"
  },
  {
   "property": "C34",
   "status": "proved",
   "theorems": [
    "Props.Autoregressive.logProb_sparse_spec",
    "Props.Autoregressive.logProb_spec",
    "Props.Autoregressive.logProb_dense_sparse",
    "Props.Autoregressive.logProb_normalised"
   ],
   "note": "the network is an arbitrary causal network (Spec.IsCausal)"
  },
  {
   "property": "C35",
   "status": "proved",
   "theorems": [
    "Props.BeamSearch.greedy_spec",
    "Props.BeamSearch.greedy_optimal_one"
   ],
   "note": "the first result is the gradient of the value, modelled as backward through max"
  },
  {
   "property": "C36",
   "status": "proved",
   "theorems": [
    "Props.BeamSearch.beam_general",
    "Props.BeamSearch.beam_spec",
    "Props.BeamSearch.beam_exact",
    "Props.BeamSearch.guard_normalised",
    "Props.BeamSearch.guard_bounded",
    "Props.BeamSearch.beam_phantom"
   ],
   "note": "distinctness, alignment and exactness under the stated guard on the -1e5 stand-in and K <= C^N; beam_general needs no guard; beam_phantom shows that K <= C^N is needed"
  },
  {
   "property": "C37",
   "status": "partial",
   "theorems": [
    "Props.TempMax.tempmax_value",
    "Props.TempMax.tempmax_noisy",
    "Props.TempMax.tempmax_noisy_normalised",
    "Props.TempMax.tempmax_deterministic_partial"
   ],
   "note": "False of the code: alpha is passed on as the flag gumbel, so the logits are perturbed unless alpha = 0 (tempmax_noisy). Proved: what the value is for every alpha and noise; determinism for alpha = 0"
  },
  {
   "property": "C38",
   "status": "proved",
   "theorems": [
    "Props.Sampling.multi_sample_bits",
    "Props.LinearChain.multi_sample_bits"
   ],
   "note": "Generic, and instantiated for linear chains."
  },
  {
   "property": "C39",
   "status": "proved",
   "theorems": [
    "Props.SparseMax.project_spec",
    "Props.SparseMax.project_pythagoras"
   ],
   "note": "along the last dimension, the one the library sums over"
  },
  {
   "property": "C40",
   "status": "partial",
   "theorems": [
    "Props.Checkpoint.shard_matmul_partial",
    "Props.Checkpoint.checkpoint_matmul",
    "Props.Checkpoint.chain_shard",
    "Props.Checkpoint.shard_entropy_wrong"
   ],
   "note": "Proved for CheckpointSemiring and, for sharding, for every semiring of size one (Std, Log, Max; any operation that acts matrix by matrix). False of the code for semirings with several slots: shard_entropy_wrong, the shards mix slots and batch rows"
  },
  {
   "property": "C41",
   "status": "partial",
   "theorems": [
    "Props.SemiringLaws.std_laws",
    "Props.SemiringLaws.log_laws",
    "Props.SemiringLaws.max_laws",
    "Props.SemiringLaws.kmax_laws",
    "Props.SemiringLaws.kmax_one_law_partial",
    "Props.SemiringLaws.kmax_one_fails",
    "Props.SemiringLaws.entropy_laws",
    "Props.SemiringLaws.crossEntropy_laws",
    "Props.SemiringLaws.kl_laws"
   ],
   "note": "All laws proved for Std, Log, Max, Entropy, CrossEntropy, KL and, except for the unit, KMax.  The unit law of KMax is false of the code when the slots of an element differ by more than 1e5 (kmax_one_fails); proved below that bound"
  },
  {
   "property": "C42",
   "status": "proved",
   "theorems": [
    "Props.BatchRows.chain_rows_independent",
    "Props.BatchRows.semimarkov_rows_independent",
    "Props.BatchRows.tree_rows_independent",
    "Props.BatchRows.dep_rows_independent",
    "Props.BatchRows.cfg_rows_independent",
    "Props.BatchRows.nonproj_rows_independent"
   ],
   "note": "for every semiring"
  },
  {
   "property": "C43",
   "status": "proved",
   "theorems": [
    "Props.Accepted.chain_accepts",
    "Props.Accepted.semimarkov_accepts",
    "Props.Accepted.dep_accepts",
    "Props.Accepted.tree_accepts",
    "Props.Accepted.cfg_accepts",
    "Props.Accepted.nonproj_accepts",
    "Props.Accepted.dep_not_square",
    "Props.Accepted.chain_rows",
    "Props.Accepted.semimarkov_rows",
    "Props.Accepted.dep_rows",
    "Props.Autoregressive.logProb_sparse_accepts"
   ],
   "note": "for every semiring: the exact set of accepted arguments; an accepted call returns one value per row"
  },
  {
   "property": "C44",
   "status": "proved",
   "theorems": [
    "Props.LinearChain.partition_bounds",
    "Props.LinearChain.partition_closed_form"
   ],
   "note": ""
  },
  {
   "property": "C45",
   "status": "proved",
   "theorems": [
    "Props.LinearChain.shift_partition",
    "Props.LinearChain.shift_truth",
    "Props.LinearChain.shift_max",
    "Props.LinearChain.shift_marginals",
    "Props.LinearChain.shift_entropy",
    "Props.LinearChain.shift_argmax"
   ],
   "note": "Exact for the ideal values, partition with zero=-inf, max and argmax; with zero=-1e5 marginals and entropy move by at most the explicit error."
  },
  {
   "property": "C46",
   "status": "proved",
   "theorems": [
    "Props.TreeCRF.marginals_spec",
    "Props.TreeCRF.root_marginal",
    "Props.TreeCRF.word_marginal",
    "Props.TreeCRF.outside_marginal",
    "Props.SemiMarkov.marginals_spec",
    "Props.SemiMarkov.cover_sum",
    "Props.Dependency.marginals_spec",
    "Props.Dependency.head_marginal",
    "Props.Dependency.outside_marginal",
    "Props.LabelledDependency.marginals_spec",
    "Props.LabelledDependency.head_marginal",
    "Props.LabelledDependency.outside_marginal",
    "Props.Dependency.root_marginal"
   ],
   "note": "TreeCRF, SemiMarkovCRF and DependencyCRF (labelled and unlabelled, both root modes)"
  },
  {
   "property": "C47",
   "status": "proved",
   "theorems": [
    "Props.TreeCRF.max_spec",
    "Props.TreeCRF.argmax_spec",
    "Props.TreeCRF.eq_of_spans",
    "Props.SemiMarkov.max_spec",
    "Props.SemiMarkov.argmax_spec",
    "Props.Dependency.max_spec",
    "Props.Dependency.argmax_spec",
    "Props.LabelledDependency.max_spec",
    "Props.LabelledDependency.argmax_spec"
   ],
   "note": "TreeCRF, SemiMarkovCRF and DependencyCRF (labelled and unlabelled, both root modes)"
  },
  {
   "property": "C48",
   "status": "proved",
   "theorems": [
    "Props.TreeCRF.entropy_spec",
    "Props.TreeCRF.crossEntropy_spec",
    "Props.TreeCRF.kl_spec",
    "Props.TreeCRF.kmax_spec",
    "Props.TreeCRF.topk_spec",
    "Props.SemiMarkov.entropy_spec",
    "Props.SemiMarkov.kmax_spec",
    "Props.SemiMarkov.topk_spec",
    "Props.Dependency.entropy_spec",
    "Props.Dependency.kmax_spec",
    "Props.Dependency.topk_spec",
    "Props.LabelledDependency.entropy_spec",
    "Props.LabelledDependency.kmax_spec",
    "Props.LabelledDependency.topk_spec"
   ],
   "note": "TreeCRF, SemiMarkovCRF and DependencyCRF (labelled and unlabelled, both root modes); kmax/topk need potentials small against the stand-in -1e5 (SmallPotentials); cross_entropy/kl exist only for LinearChainCRF and TreeCRF, the other models raise"
  },
  {
   "property": "C49",
   "status": "proved",
   "theorems": [
    "Props.SentCFGEvents.toParts_spec",
    "Props.SentCFGEvents.fromPartsRow_spec",
    "Props.SentCFGEvents.intermediary_spec",
    "Props.SentCFGEvents.toNetworkx_spec",
    "Props.SentCFGEvents.nNodes_spec",
    "Props.SentCFGEvents.score_parts"
   ],
   "note": ""
  },
  {
   "property": "C50",
   "status": "proved",
   "theorems": [
    "Props.Sampling.sample_slots",
    "Props.Sampling.slots_distinct",
    "Props.Sampling.sample_errors",
    "Props.LinearChain.sample_law",
    "Props.SemiMarkov.sample_law",
    "Props.Dependency.sample_law",
    "Props.LabelledDependency.sample_law"
   ],
   "note": ""
  },
  {
   "property": "C51",
   "status": "proved",
   "theorems": [
    "Props.SentCFG.marginals_spec",
    "Props.SentCFG.term_prob_sum",
    "Props.SentCFG.root_prob_sum",
    "Props.SentCFG.rule_count_sum",
    "Props.SentCFG.words_count_le",
    "Props.SentCFG.spans_count_le"
   ],
   "note": "every row has at least two words"
  },
  {
   "property": "C52",
   "status": "proved",
   "theorems": [
    "Props.SentCFG.max_spec",
    "Props.SentCFG.argmax_spec",
    "Props.SentCFG.kmax_spec",
    "Props.SentCFG.topk_spec"
   ],
   "note": "potentials small against the stand-in -1e5; terms, rules and roots of topk are summed over the slots by the code, as the theorem says"
  },
  {
   "property": "C53",
   "status": "proved",
   "theorems": [
    "Props.SentCFG.inside_only",
    "Props.SentCFG.partition_inside_only",
    "Props.SentCFG.truncation",
    "Props.SentCFG.partition_truncation"
   ],
   "note": ""
  },
  {
   "property": "C54",
   "status": "proved",
   "theorems": [
    "Props.SentCFG.entropy_spec"
   ],
   "note": "every row has at least two words"
  },
  {
   "property": "C55",
   "status": "proved",
   "theorems": [
    "Props.BeamSearch.without_replacement"
   ],
   "note": ""
  },
  {
   "property": "C56",
   "status": "proved",
   "theorems": [
    "Props.ARSampling.sample_law",
    "Props.ARSampling.sample_draws_exist"
   ],
   "note": ""
  },
  {
   "property": "C57",
   "status": "partial",
   "theorems": [
    "Props.SparseMaxGrad.sum_backward_partial",
    "Props.SparseMaxGrad.sum_bounds",
    "Props.SparseMaxGrad.sum_single",
    "Props.SparseMaxGrad.sum_backward_mismatch"
   ],
   "note": "False of the code: the forward pass subtracts |w| instead of |w|^2/2, so that sum([x]) = x - 1 (sum_single), and the returned gradient is not that of the returned value (sum_backward_mismatch). Proved: the returned gradient is the gradient of the true sparsemax value at every point; sharp bounds of the value"
  },
  {
   "property": "C58",
   "status": "proved",
   "theorems": [
    "Props.SparseMaxGrad.sparsemaxGrad_spec"
   ],
   "note": ""
  },
  {
   "property": "C59",
   "status": "partial",
   "theorems": [
    "Props.SparseMax.project_spec",
    "Props.SparseMax.dim0_wrong"
   ],
   "note": "False of the code for other dimensions than the last: ind is broadcast along the last dimension (dim0_wrong). Proved for the last dimension"
  },
  {
   "property": "C60",
   "status": "proved",
   "theorems": [
    "Props.Checkpoint.shard_backward",
    "Props.Checkpoint.log_shard_gradient",
    "Props.Checkpoint.logOp_vjp",
    "Props.Checkpoint.stdOp_vjp",
    "Props.Checkpoint.autograd_deriv",
    "Props.Checkpoint.shard_backward_rejects"
   ],
   "note": ""
  },
  {
   "property": "C61",
   "status": "proved",
   "theorems": [
    "Props.GradientChain.marginals_deriv",
    "Props.Gradient.semimarkov_marginals",
    "Props.Gradient.tree_marginals",
    "Props.Gradient.dependency_marginals",
    "Props.Gradient.labelled_marginals",
    "Props.Gradient.cfg_marginals",
    "Props.GradientNonProj.marginals_deriv"
   ],
   "note": ""
  },
  {
   "property": "C62",
   "status": "proved",
   "theorems": [
    "Props.GradientChain.partition_convex",
    "Props.GradientNonProj.partition_convex",
    "Props.Convex.tree_convex",
    "Props.Convex.semimarkov_convex",
    "Props.Convex.dependency_convex",
    "Props.Convex.labelled_convex",
    "Props.Convex.cfg_convex"
   ],
   "note": "NonProjectiveDependencyCRF: without lengths (with lengths see C31)"
  },
  {
   "property": "C63",
   "status": "partial",
   "theorems": [
    "Props.Gumbel.gumbel_event_partial",
    "Props.Gumbel.gumbel_rows_equal",
    "Props.Gumbel.gumbel_rows_dependent",
    "Props.Gumbel.gumbel_positions_dependent"
   ],
   "note": "False of the code: every sum call draws one noise vector and shares it between all batch rows and all positions of the chart, so equal rows always get equal samples and tags at different positions are tied (gumbel_rows_dependent, gumbel_positions_dependent: events of probability 3/4 and 1/2 that never happen).  Proved: the returned tensor is the event of one tag sequence per row, for every noise that is small compared to the stand-in -1e5"
  },
  {
   "property": "C64",
   "status": "proved",
   "theorems": [
    "Props.Consistency.chain_kl",
    "Props.Consistency.tree_kl",
    "Props.Consistency.chain_crossEntropy_self",
    "Props.Consistency.tree_crossEntropy_self",
    "Props.Consistency.chain_kl_self",
    "Props.Consistency.tree_kl_self",
    "Props.Consistency.chain_max_le",
    "Props.Consistency.tree_max_le",
    "Props.Consistency.semimarkov_max_le",
    "Props.Consistency.cfg_max_le",
    "Props.Consistency.dep_max_le",
    "Props.Consistency.chain_mono",
    "Props.Consistency.tree_mono",
    "Props.Consistency.semimarkov_mono",
    "Props.Consistency.cfg_mono",
    "Props.Consistency.dep_mono",
    "Props.Consistency.chain_kmax_prefix",
    "Props.Consistency.tree_kmax_prefix",
    "Props.Consistency.semimarkov_kmax_prefix",
    "Props.Consistency.cfg_kmax_prefix",
    "Props.Consistency.chain_kmax_head",
    "Props.Consistency.tree_kmax_head",
    "Props.Consistency.semimarkov_kmax_head",
    "Props.Consistency.cfg_kmax_head"
   ],
   "note": "kl and cross_entropy: the two classes for which the calls do not raise; kmax: potentials at least -1e5; kmax of DependencyCRF: see C22"
  },
  {
   "property": "C65",
   "status": "proved",
   "theorems": [
    "Props.LogProbGradient.chain_logProb_grad",
    "Props.LogProbGradient.tree_logProb_grad",
    "Props.LogProbGradient.semimarkov_logProb_grad",
    "Props.LogProbGradient.dependency_logProb_grad",
    "Props.LogProbGradient.labelled_logProb_grad"
   ],
   "note": "the classes whose log_prob uses the default score"
  },
  {
   "property": "C66",
   "status": "proved",
   "theorems": [
    "Props.Rounding.chain_partition_rounded",
    "Props.Rounding.chain_max_rounded",
    "Props.Rounding.semimarkov_partition_rounded",
    "Props.Rounding.semimarkov_max_rounded",
    "Props.Rounding.tree_partition_rounded",
    "Props.Rounding.tree_max_rounded",
    "Props.Rounding.dependency_partition_rounded",
    "Props.Rounding.dependency_max_rounded",
    "Props.Rounding.cfg_partition_rounded",
    "Props.Rounding.cfg_max_rounded"
   ],
   "note": "an absolute error per operation; floating point: relative_rounded, fixed point: onGrid_rounded.  Overflow is excluded by the range hypothesis"
  },
  {
   "property": "C67",
   "status": "proved",
   "theorems": [
    "Props.Rounding.chain_partition_stable",
    "Props.Rounding.chain_max_stable",
    "Props.Rounding.semimarkov_partition_stable",
    "Props.Rounding.semimarkov_max_stable",
    "Props.Rounding.tree_partition_stable",
    "Props.Rounding.tree_max_stable",
    "Props.Rounding.dependency_partition_stable",
    "Props.Rounding.dependency_max_stable",
    "Props.Rounding.cfg_partition_stable",
    "Props.Rounding.cfg_max_stable"
   ],
   "note": "TreeCRF: batches with at least one row"
  },
  {
   "property": "C68",
   "status": "proved",
   "theorems": [
    "Props.FastSemirings.log_matmul",
    "Props.FastSemirings.max_matmul",
    "Props.FastSemirings.sample_matmul",
    "Props.FastSemirings.log_needs_genbmm",
    "Props.FastSemirings.max_needs_genbmm",
    "Props.FastSemirings.chain_fast",
    "Props.FastSemirings.dot_fast",
    "Props.FastSemirings.mismatch"
   ],
   "note": "genbmm itself, its banded matrices and its gradients are outside the repository"
  },
  {
   "property": "C69",
   "status": "proved",
   "theorems": [
    "Props.Shift.tree_shift",
    "Props.Shift.dependency_shift",
    "Props.Shift.labelled_shift",
    "Props.Shift.semimarkov_shift",
    "Props.Shift.semimarkov_shift_max",
    "Props.Shift.semimarkov_shift_entropy",
    "Props.Shift.semimarkov_shift_argmax",
    "Props.Shift.cfg_shift",
    "Props.Shift.cfg_shift_max",
    "Props.Shift.cfg_shift_entropy",
    "Props.Shift.cfg_shift_argmax"
   ],
   "note": ""
  },
  {
   "property": "C70",
   "status": "proved",
   "theorems": [
    "Props.UserSemiring.chain_user",
    "Props.UserSemiring.tree_user",
    "Props.UserSemiring.semimarkov_user",
    "Props.UserSemiring.dependency_user",
    "Props.UserSemiring.labelled_user",
    "Props.UserSemiring.cfg_user",
    "Props.UserSemiring.boolean_user",
    "Props.UserSemiring.boolean_total",
    "Props.UserSemiring.chain_feasible"
   ],
   "note": "stated for every S with the laws; the truth values are worked out as an instance"
  },
  {
   "property": "C71",
   "status": "proved",
   "theorems": [
    "Props.Covariance.tree_marginals_cov",
    "Props.Covariance.tree_entropy_cov",
    "Props.Covariance.dependency_marginals_cov",
    "Props.Covariance.dependency_entropy_cov",
    "Props.Covariance.labelled_marginals_cov",
    "Props.Covariance.labelled_entropy_cov",
    "Props.Covariance.semimarkov_marginals_cov",
    "Props.Covariance.cfg_marginals_cov",
    "Props.GradientChain.chain_marginals_cov"
   ],
   "note": "The derivative is taken in the real-number model of the code; that torch's autograd computes it (create_graph) is the trusted link, as in C61."
  },
  {
   "property": "C72",
   "status": "proved",
   "theorems": [
    "Props.LogProb.chain_stack",
    "Props.LogProb.tree_stack",
    "Props.LogProb.semimarkov_stack",
    "Props.LogProb.dependency_stack",
    "Props.LogProb.labelled_stack",
    "Props.LogProb.tree_stack_prob",
    "Props.LogProb.dependency_stack_prob",
    "Props.LogProb.labelled_stack_prob",
    "Props.LogProb.semimarkov_stack_score",
    "Props.LogProb.chain_stack_score",
    "Props.LogProb.no_batch_broadcast"
   ],
   "note": ""
  },
  {
   "property": "C73",
   "status": "partial",
   "theorems": [
    "Props.LogProb.forbidden_nan",
    "Props.LogProb.chain_forbidden_nan",
    "Props.LogProb.logProb_forbidden_false",
    "Props.LogProb.logProb_finite_partial"
   ],
   "note": "The property is false of the code: one -inf potential anywhere in the row makes log_prob NaN for every event that does not use it (chain_forbidden_nan), refuted by logProb_forbidden_false. With finite potentials no NaN appears (logProb_finite_partial)."
  },
  {
   "property": "C74",
   "status": "partial",
   "theorems": [
    "Props.Queries.sentcfg_logProb_raises",
    "Props.Queries.sentcfg_sample_raises",
    "Props.Queries.sentcfg_count_raises",
    "Props.Queries.sentcfg_compare_raises",
    "Props.Queries.compare_raises",
    "Props.Queries.nonproj_inherited_raises",
    "Props.Queries.nonproj_silent",
    "Props.Queries.sample_default_raises",
    "Props.Queries.chain_answers_partial"
   ],
   "note": "The property is false of the code: SentCFG.log_prob, sample, count, cross_entropy, kl always raise; cross_entropy and kl of DependencyCRF and SemiMarkovCRF always raise; every inherited query of NonProjectiveDependencyCRF raises, and its argmax and entropy return None; sample() raises for its default argument. LinearChainCRF answers (chain_answers_partial)."
  },
  {
   "property": "C75",
   "status": "partial",
   "theorems": [
    "Props.HMM.row_score_partial",
    "Props.HMM.likelihood_partial",
    "Props.HMM.marginals_posterior_partial",
    "Props.HMM.viterbi_partial",
    "Props.HMM.logProb_posterior_partial",
    "Props.HMM.sample_posterior_partial",
    "Props.HMM.entropy_posterior_partial",
    "Props.HMM.short_row_false"
   ],
   "note": "Proved for rows with at least two observations (up to the explicit error of zero=-1e5). False for rows of length 1: the initial and emission scores sit on edge 0, which such a row does not have, so its partition is log C instead of the log-likelihood (short_row_false)."
  },
  {
   "property": "C76",
   "status": "partial",
   "theorems": [
    "Props.HSMM.likelihood_partial",
    "Props.HSMM.marginals_posterior_partial",
    "Props.HSMM.viterbi_partial",
    "Props.HSMM.sample_posterior_partial",
    "Props.HSMM.empty_row_false"
   ],
   "note": "Proved for rows with at least one observation (up to the explicit error of zero=-1e5). False for a row without observations (length 1): its partition is log C instead of 0 (empty_row_false)."
  },
  {
   "property": "C77",
   "status": "partial",
   "theorems": [
    "Props.EmptyRows.dependency_empty_row_partial",
    "Props.EmptyRows.chain_empty_row_partial",
    "Props.EmptyRows.semimarkov_empty_row_partial",
    "Props.EmptyRows.tree_empty_row",
    "Props.EmptyRows.sentcfg_empty_row",
    "Props.EmptyRows.tree_empty_row_false"
   ],
   "note": "Proved for DependencyCRF (1), LinearChainCRF and SemiMarkovCRF (number of classes). False for TreeCRF and SentCFG: `lengths - 1 = -1` indexes the last entry, so an empty row gets the value of the full-length row (tree_empty_row, sentcfg_empty_row; refuted in tree_empty_row_false)."
  },
  {
   "property": "C78",
   "status": "proved",
   "theorems": [
    "Props.SampleMarginals.tree_frequencies",
    "Props.SampleMarginals.dependency_frequencies",
    "Props.SampleMarginals.labelled_frequencies",
    "Props.SampleMarginals.semimarkov_frequencies",
    "Props.SampleMarginals.chain_frequencies"
   ],
   "note": ""
  },
  {
   "property": "C79",
   "status": "proved",
   "theorems": [
    "Props.BinLength.accurate_covers",
    "Props.BinLength.exact_covers",
    "Props.BinLength.cpython_case",
    "Props.BinLength.chain_any_semiring",
    "Props.BinLength.chain_short",
    "Props.BinLength.chain_partition",
    "Props.BinLength.chain_max",
    "Props.BinLength.chain_argmax",
    "Props.BinLength.chain_marginals",
    "Props.BinLength.semi_any_semiring",
    "Props.BinLength.semi_short",
    "Props.BinLength.semi_max",
    "Props.BinLength.semi_partition"
   ],
   "note": ""
  },
  {
   "property": "C80",
   "status": "partial",
   "theorems": [
    "Props.Objects.answers_fresh_partial",
    "Props.Objects.fresh_values",
    "Props.Objects.tensors_kept",
    "Props.Objects.sample_no_grad",
    "Props.Objects.sample_no_grad_differs",
    "Props.Objects.query_blocks_update"
   ],
   "note": "False of the code for `sample`, which differentiates but, unlike kmax, topk and the lazy properties, does not enable gradients: inside torch.no_grad() it raises in every history (sample_no_grad). Proved for all other queries and for sample with gradients enabled. A side effect is shown too: a query sets requires_grad of the caller's tensor, so that an in-place update that was possible before it raises (query_blocks_update). DependencyCRF objects share a flag (C32)."
  },
  {
   "property": "C81",
   "status": "partial",
   "theorems": [
    "Props.Objects.current_partial",
    "Props.Objects.stale",
    "Props.Objects.logProb_mixed",
    "Props.Objects.logProb_above_one"
   ],
   "note": "False of the code: partition, max, entropy, count, marginals and argmax keep their first result for ever (stale), and log_prob subtracts the old partition from the score under the new contents (logProb_mixed), which gives a probability above 1 (logProb_above_one). Proved: kmax, topk and sample answer for the current contents."
  },
  {
   "property": "C82",
   "status": "proved",
   "theorems": [
    "Props.Memory.chain_answers",
    "Props.Memory.tree_answers",
    "Props.Memory.entries_kept",
    "Props.Memory.result_eq",
    "Props.Memory.chain_layout",
    "Props.Memory.tree_layout",
    "Props.Memory.dep_answers",
    "Props.Memory.dep_layout",
    "Props.Memory.semi_answers",
    "Props.Memory.semi_layoutProps.GrammarMemory.grammar_answers",
    "Props.GrammarMemory.grammar_entries",
    "Props.GrammarMemory.grammar_layout",
    "Props.GrammarMemory.grammar_raises"
   ],
   "note": "At least one class or label. SentCFG: rules and roots in any layout, terms contiguous (with kmax and entropy any); grammar_raises is the failure of C86 on the heap. The result is the one of the table models (LinearChain.logpartition, SemiMarkov.logpartition, CKYCRF.logpartition, DepTree.logpartition), so the other properties hold of the program on the heap too. requires_grad of the caller's tensor is set (C80)."
  },
  {
   "property": "C83",
   "status": "proved",
   "theorems": [
    "Props.Symmetry.chain_queries",
    "Props.Symmetry.chain_count",
    "Props.Symmetry.chain_pair",
    "Props.Symmetry.chain_logProb",
    "Props.Symmetry.chain_marginals",
    "Props.Symmetry.semimarkov_queries",
    "Props.Symmetry.semimarkov_logProb",
    "Props.Symmetry.semimarkov_marginals",
    "Props.Symmetry.tree_queries",
    "Props.Symmetry.tree_logProb",
    "Props.Symmetry.tree_marginals",
    "Props.Symmetry.dependency_queries",
    "Props.Symmetry.dependency_logProb",
    "Props.Symmetry.dependency_marginals",
    "Props.Symmetry.cfg_queries",
    "Props.Symmetry.cfg_marginals",
    "Props.Symmetry.reverse_queries",
    "Props.Symmetry.words_partition",
    "Props.Symmetry.words_marginals"
   ],
   "note": "Exact arithmetic: with floating point, the order of the terms changes the rounding. argmax, topk and sample are not covered: under ties they depend on the order of the entries."
  },
  {
   "property": "C84",
   "status": "proved",
   "theorems": [
    "Props.Signs.chain_entropy",
    "Props.Signs.tree_entropy",
    "Props.Signs.semimarkov_entropy",
    "Props.Signs.cfg_entropy",
    "Props.Signs.dep_entropy",
    "Props.Signs.chain_kl_nonneg",
    "Props.Signs.tree_kl_nonneg",
    "Props.Signs.chain_crossEntropy_ge",
    "Props.Signs.tree_crossEntropy_ge",
    "Props.Signs.chain_marginals",
    "Props.Signs.tree_marginals",
    "Props.Signs.semimarkov_marginals",
    "Props.Signs.dep_marginals",
    "Props.Signs.cfg_marginals",
    "Props.Signs.chain_logProb",
    "Props.Signs.tree_logProb",
    "Props.Signs.dep_logProb",
    "Props.Signs.lab_logProb",
    "Props.Signs.semimarkov_logProb",
    "Props.Signs.tree_card",
    "Props.Signs.dep_card",
    "Props.Signs.lab_card"
   ],
   "note": "kl and cross_entropy: the two classes for which the calls do not raise. The bounds by count hold for the classes whose dynamic program never uses the stand-in -1e5."
  },
  {
   "property": "C85",
   "status": "proved",
   "theorems": [
    "Props.CrossModel.labels_sum",
    "Props.CrossModel.labels_partition",
    "Props.CrossModel.labels_max",
    "Props.CrossModel.labels_marginals",
    "Props.CrossModel.one_label",
    "Props.CrossModel.single_root_le",
    "Props.CrossModel.projective_le",
    "Props.CrossModel.unit_segments_sum",
    "Props.CrossModel.unit_segments_partition",
    "Props.CrossModel.unit_segments_max"
   ],
   "note": "projective_le is stated for calls without lengths (with lengths NonProjectiveDependencyCRF counts other trees, see C31)."
  },
  {
   "property": "C86",
   "status": "partial",
   "theorems": [
    "Props.MemoryLayout.log_prob_contiguous",
    "Props.MemoryLayout.log_prob_layout",
    "Props.MemoryLayout.dependency_log_prob_layout",
    "Props.MemoryLayout.grammar_contiguous",
    "Props.MemoryLayout.grammar_layout"
   ],
   "note": "The property is false of the code for non-contiguous potentials (log_prob_layout, dependency_log_prob_layout, grammar_layout); it holds for contiguous ones. torch's rules for strides are trusted, they are not part of the repository. matmul(Y, Z).view in cky.py:55 is not modelled."
  },
  {
   "property": "C87",
   "status": "partial",
   "theorems": [
    "Props.WithoutReplacement.one_sample_partial",
    "Props.WithoutReplacement.same_first_class",
    "Props.WithoutReplacement.not_without_replacement"
   ],
   "note": "False of the code for more than one sample: the code adds fresh noise to the logits of every step instead of conditioning it on the value of the prefix as the cited paper does. Proved for one sample, for every model; for two samples of the uniform model on four sequences the law is proved to be wrong, even as a set (the two paths begin with the same class with probability above 1/3, which is the correct value)."
  },
  {
   "property": "C88",
   "status": "partial",
   "theorems": [
    "Props.GumbelGrad.st_deriv",
    "Props.GumbelGrad.st_exact_iff",
    "Props.GumbelGrad.gradient_exists",
    "Props.GumbelGrad.unselected_ignored",
    "Props.GumbelGrad.unselected_zero",
    "Props.GumbelGrad.word_gradient",
    "Props.GumbelGrad.word_code",
    "Props.GumbelGrad.relaxed_differs",
    "Props.GumbelGrad.record_oneWord",
    "Props.GumbelGrad.run_exists"
   ],
   "note": "False of the code: ST.backward multiplies the incoming gradient by the drawn one-hot vector, so the loss's dependence on parts that are not in the returned structure is ignored (unselected_ignored, for every distribution); relaxed_differs gives, for one word and any scores and noise, a loss with gradient 0 in the code and nowhere 0 in the straight-through gradient. Per draw it is exact iff the loss does not depend on the other entries (st_exact_iff)."
  },
  {
   "property": "C89",
   "status": "proved",
   "theorems": [
    "Props.PCFG.likelihood",
    "Props.PCFG.likelihood_limit",
    "Props.PCFG.partition_likelihood",
    "Props.PCFG.likelihoods_sum",
    "Props.PCFG.fair_holds",
    "Props.PCFG.fair_two"
   ],
   "note": "likelihood: real semiring, exact, also for rows of one word. likelihood_limit: logarithms with a true -inf for forbidden rules. partition_likelihood, likelihoods_sum: the real log semiring with the stand-in -1e5, rows of at least two words, with the error bound of C27."
  },
  {
   "property": "C90",
   "status": "proved",
   "theorems": [
    "Props.RoundedArgmax.chain_argmax_rounded",
    "Props.RoundedArgmax.semimarkov_argmax_rounded",
    "Props.RoundedArgmax.tree_argmax_rounded",
    "Props.RoundedArgmax.dependency_argmax_rounded",
    "Props.RoundedArgmax.labelled_argmax_rounded",
    "Props.RoundedArgmax.cfg_argmax_rounded",
    "Props.RoundedArgmax.chain_argmax_robust",
    "Props.RoundedArgmax.semimarkov_argmax_robust",
    "Props.RoundedArgmax.tree_argmax_robust",
    "Props.RoundedArgmax.dependency_argmax_robust",
    "Props.RoundedArgmax.cfg_argmax_robust",
    "Props.RoundedArgmax.gridAdd_rounded",
    "Props.RoundedArgmax.relativeAdd_rounded"
   ],
   "note": "Real numbers with rounding errors, not IEEE floats: overflow, infinities and NaN are outside. kmax/topk and sampling under rounding are not covered."
  },
  {
   "property": "C91",
   "status": "proved",
   "theorems": [
    "Props.Conditional.tree_condition",
    "Props.Conditional.tree_forbid",
    "Props.Conditional.tree_marginal_from_partitions",
    "Props.Conditional.dependency_condition",
    "Props.Conditional.dependency_forbid",
    "Props.Conditional.dependency_marginal_from_partitions",
    "Props.Conditional.labelled_condition",
    "Props.Conditional.labelled_forbid",
    "Props.Conditional.chain_condition",
    "Props.Conditional.semi_condition",
    "Props.Conditional.grammar_condition"
   ],
   "note": "For the leaky distributions the mask constant enters the stand-in error as exp(c): masking with c close to 1e5 gives no guarantee, which the bound shows."
  },
  {
   "property": "C92",
   "status": "proved",
   "theorems": [
    "Props.Temperature.tree_partition_max",
    "Props.Temperature.tree_marginals_argmax",
    "Props.Temperature.dependency_partition_max",
    "Props.Temperature.dependency_marginals_argmax",
    "Props.Temperature.labelled_partition_max",
    "Props.Temperature.labelled_marginals_argmax",
    "Props.Temperature.chain_cold",
    "Props.Temperature.semi_cold",
    "Props.Temperature.grammar_cold",
    "Props.Temperature.leads_of_unique"
   ],
   "note": "For the leaky distributions the stand-in error grows with \u03b2: it is a bound for moderate \u03b2 only, which the statement shows."
  },
  {
   "property": "C93",
   "status": "proved",
   "theorems": [
    "Props.Stability.tree_marginals_stable",
    "Props.Stability.dependency_marginals_stable",
    "Props.Stability.labelled_marginals_stable",
    "Props.Stability.semimarkov_marginals_stable",
    "Props.Stability.grammar_marginals_stable",
    "Props.Stability.chain_marginals_stable",
    "Props.Stability.Within.abs_le"
   ],
   "note": "C67 gives the same for partition and max."
  },
  {
   "property": "C94",
   "status": "proved",
   "theorems": [
    "Props.NeuralCFG.forward_ok",
    "Props.NeuralCFG.forward_unknown",
    "Props.NeuralCFG.forward_holds",
    "Props.NeuralCFG.exists_above",
    "Props.NeuralCFG.neural_likelihood",
    "Props.NeuralCFG.neural_sum"
   ],
   "note": "The grammar and the softmax are defined in Props/NeuralCFG.lean from the parameters, the sentence probability in Spec/PCFG.lean. exists_above shows that the bound B that the error term needs exists for all parameters."
  },
  {
   "property": "C95",
   "status": "proved",
   "theorems": [
    "Props.ListOps.parse_spec",
    "Props.ListOps.show_spec",
    "Props.ListOps.round_trip",
    "Props.ListOps.show_argmax",
    "Props.ListOps.parse_unbalanced",
    "Props.ListOps.token_brackets",
    "Props.ListOps.empty_brackets",
    "Props.ListOps.empty_brackets_mark"
   ],
   "note": "The token () is excluded: token_brackets shows that it is dropped from the words and counted in the spans. valid_show passes the gold table for the column Predicted Tree and the argmax for the column True Tree: the columns are swapped, which is not part of the claim."
  },
  {
   "property": "C96",
   "status": "proved",
   "theorems": [
    "Props.BertDep.validate_spec",
    "Props.BertDep.loss_spec",
    "Props.BertDep.mask_get",
    "Props.BertDep.last_word_ignored",
    "Props.BertDep.last_head_free"
   ],
   "note": "The last two theorems state a defect of the example. Subtraction of tables of different sizes is not modelled beyond raising an error."
  },
  {
   "property": "C97",
   "status": "proved",
   "theorems": [
    "Props.BertData.conllx_blocks",
    "Props.BertData.every_file",
    "Props.BertData.conllx_sentences",
    "Props.BertData.conllx_extra",
    "Props.BertData.columns_aligned"
   ],
   "note": "conllx_extra states a defect: the test `if columns` is always true, because columns is a list of two lists. In bert-dep.py the length filter drops the empty examples."
  },
  {
   "property": "C98",
   "status": "proved",
   "theorems": [
    "Props.BertData.tokenPre_spec",
    "Props.BertData.mapper_iff",
    "Props.BertData.potentials_spec",
    "Props.BertData.slot_add_unmarked",
    "Props.BertData.slot_aligned",
    "Props.BertData.slot_shifted"
   ],
   "note": "slot_shifted states a defect of token_pre: the last branch appends nothing."
  },
  {
   "property": "C99",
   "status": "proved",
   "theorems": [
    "Props.SelfCritical.forward_spec",
    "Props.SelfCritical.objective_deriv",
    "Props.SelfCritical.reinforce",
    "Props.SelfCritical.total_mean",
    "Props.SelfCritical.entropy_mean",
    "Props.SelfCritical.dependency_reinforce",
    "Props.SelfCritical.dependency_entropy_mean",
    "Props.SelfCritical.labelled_reinforce",
    "Props.SelfCritical.labelled_entropy_mean",
    "Props.SelfCritical.treeReward_rowwise"
   ],
   "note": "Expected values are sums over finitely many values (Spec/Mean.lean). In the example the distribution is built without lengths, so trees cover the padding; the theorem covers both. LinearChainCRF and SemiMarkovCRF are left out here because their sample law is only approximate (C12)."
  }
 ]
}