# Formal model of pytorch-struct in Lean 4 — design

The model lives in `lean/Verif/`.  It covers the Python package `torch_struct` of /repo at the pinned
commit.  Nothing was executed: the only tie between the model and the code is reading; every definition
in `Verif/Model/` carries a comment citing the file and lines that it models.

## 1. Layout

| directory | content |
|---|---|
| `Verif/Model/` | executable-style model of the code, function by function (no proofs) |
| `Verif/Spec/` | small specifications written without looking at the algorithms (sets of structures, sums over them) |
| `Verif/Proofs/` | helper lemmas |
| `Verif/Props/` | the property theorems, one file per group, with non-vacuity `example`s beside them |

## 2. What a tensor, a semiring and a gradient are in the model

* **Numbers.** Floating point is *not* modelled.  Real potentials are `ℝ` (or `EReal` where the property is
  about `-inf`).  C66 bounds what any rounding of the operations within an absolute error does to `partition` and `max`.  Integers (lengths, labels, indices) are `ℕ`/`ℤ`.
* **Tensors** are functions of their indices plus explicit dimensions; the flattening `view`s of the code
  (`batch * bin_N`) are modelled with `/` and `%` where the code flattens.
* **Memory.** C82 is about a second, finer model (`Model/Memory.lean` and neighbours): storages, tensors as views (offset, sizes, strides),
  allocation and in-place writes.  The programs on this heap (LinearChain, SemiMarkov, CKY_CRF, DepTree, CKY) are proved to compute what the functions
  on tables compute.
* **Python exceptions** are values of `Except PyErr`.
* **Semirings.** `SR α` is a raw record `zero, one, mul, sum, detach, setData` with *no laws*: it is the
  interface the dynamic programs use (`semirings.py`).  The leading *ssize* dimension of the code is folded into the
  carrier `α` (so k-max has carrier `Fin k → ℝ`, entropy `ℝ × ℝ`, ...).  Each concrete semiring of
  `semirings.py` is modelled by the formulas of the code, including `zero = -1e5`.
* **Gradients.** PyTorch's autograd is trusted to implement the chain rule.  It is modelled by carriers that pair a value with
  its gradient with respect to the potentials: `sum` propagates with the derivative of the operation that the
  code calls (softmax weights for `logsumexp`, the indicator of the returned index for `torch.max`, gather for
  `torch.topk`, the drawn one-hot for the sampled semirings), `mul` adds.  `.data` (reads/writes that bypass
  autograd) is modelled by `detach` and `setData`.
* **Randomness** is modelled by the law of the result (finite distributions), or by explicit draws.  C87 is about random variables on an arbitrary
  probability space: `Spec.IsGumbel` asks for independent noise with the distribution function `exp(-exp(-x))`, and `exists_gumbel` shows that there is such noise.

## 3. Proof architecture

1. Every dynamic program is a Lean function polymorphic in the carrier.  For each one a *relational
   parametricity* lemma is proved: if a relation `ρ : α → R → Prop` is preserved by `mul` and (non-empty) `sum`, the
   result on `α` is related to the result over the commutative semiring `R`.
2. Over an arbitrary commutative semiring `R` the program is proved equal to an explicit sum over structures
   (tag sequences, segmentations, projective trees, labelled binary trees, derivations), by induction, for all sizes.
3. The concrete semirings are related to commutative semirings: Log by `exp`; Max to formal polynomials `ℕ[score × indicator]`
   by "is a maximal element of the support"; k-max by "is a top-k selection of"; entropy / KL /
   cross-entropy and gradients by dual numbers; sampling by convolution of laws.
4. The property theorems combine 1–3 and only mention model entry points (`Dist.partition`, ...) and specs.

The stand-in `zero = -1e5`.  In exact arithmetic it is not a zero.  The algebraic theorems keep it as a parameter
`ζ`; they show where it leaks.  For the log semiring the leak is bounded explicitly (and vanishes for `zero = -∞`); for max it is
harmless above an explicit threshold, and a witness shows that it is not harmless below it.

## 4. Properties

| id | model | proof |
|---|---|---|
| C01 | `LinearChain.logpartition` over `SR`, incl. bin_N padding, masks | scan = product of matrices (induction on log_N), product = path sum; log via `exp` |
| C02 | same, `lengths` | masked matrices are identities when ζ=0 ⇒ path sum of the prefix |
| C03, C04 | Max semiring, max-with-gradient carrier | support relation; threshold hypothesis φ > -1e5; negation witness below |
| C05, C06 | KMax carrier (k scores, k score/gradient pairs) | top-k-of-multiset relation |
| C07 | Log-with-gradient carrier | dual numbers; exact smoothed formula + bound |
| C08 | `score`, `log_prob`, `to_parts` | from C01 + score of the indicator |
| C09, C10 | Entropy, CrossEntropy, KL semirings | dual numbers; Gibbs inequality |
| C11 | Std semiring over ℕ/ℝ with 0 weights | path sum, cardinality |
| C12 | sampled carrier (value, law of the gradient) | group-algebra homomorphism; later explicit draws |
| C13 | `to_parts`, `from_parts` loops over `nonzero` | loop invariants |
| C14 | `hmm` | unfold the score; probability sums by induction |
| C15–C17 | `SemiMarkov.logpartition`, `_dp_standard` | automaton paths ↔ segmentations; induction on position |
| C18, C19 | `to_parts/from_parts`, `hsmm` | loop invariants / unfolding |
| C20–C22 | `DepTree.logpartition` with both charts A and B | chart invariants; Eisner items ↔ projective trees (bijection by induction on span width); projective = no two arcs cross (Spec/Crossing.lean) |
| C23 | `convert/unconvert/to_parts/from_parts` | case analysis on indices |
| C24 | labelled `DepTree` | product of sums |
| C25, C26 | `CKY_CRF.logpartition` | induction on width; trees |
| C27 | `CKY.logpartition` | induction on width; ζ-terms isolated; length-1 negation witness |
| C28–C31 | `deptree_part`, `deptree_nonproj` | matrix-tree theorem (multilinear expansion, det of a functional graph); length masking refuted by witness, and the size of the leak bounded in both root modes by rewriting the determinant as a sum over trees with one extra word (`Props/NonProjLeak`) |
| C32 | `DependencyHistory`: class attribute and `lazy_property` stores as a state machine over histories of constructions and queries | invariant over histories; for the other histories, every table with a row of two words is a counterexample |
| C33 | `Alignment`: constructor argument binding, argument checks, missing attribute | counter-example |
| C34–C37, C55 | `Autoregressive` with an abstract causal model | loop invariants over steps (slot histories); index decoding |
| C56 | `Autoregressive.sample` | product law of the draws by induction on the steps; sum over outcomes |
| C38 | packed integer gradients | base-2 digits lemmas |
| C39, C59 | `project_simplex` (sort, cumsum, threshold) | the condition holds on a prefix of the sorted vector; variational inequality |
| C57, C58 | `_SimplexProject`, `sparsemax_grad` | conjugate function, firm non-expansiveness, local affinity |
| C40, C60 | `CheckpointSemiring`, `CheckpointShardSemiring`: `accumulate_`, `unaccumulate_` on tensors with broadcasting | loop invariant over the shards, row-major indices, fibre sums for broadcast dimensions, `HasDerivAt`; counterexample for several slots |
| C41 | concrete semirings | via the interpretations of (3.3); the unit of KMax refuted by a witness |
| C42 | all programs, any semiring | the charts of row b and of row c agree step by step |
| C43 | argument checks of all programs | case analysis on `Except`: accepted iff ... |
| C44 | Log semiring with ζ = exp(-1e5) | two-sided bound of the path sum |
| C45 | Linear chain | algebra on path sums |
| C46–C48 | other models × semirings | same relations as C03–C10 applied to C15, C20, C25 |
| C49 | `CKY.to_parts`, `_intermediary`, `to_networkx` | invariants over sorted spans |
| C50 | `StructDistribution.sample` loop | arithmetic on indices |
| C51–C54 | `SentCFG` marginals, argmax, topk, lengths, entropy | charts with an extra leaf (`mark`) per span, whose gradient is the span marginal; same relations as C03–C10 |

| C61 | the gradient carriers against `partition` itself | `HasDerivAt` of log-sum-exp along the line that moves one potential; determinant expansion along a row |
| C62 | `partition` of every distribution | log-sum-exp of affine functions (Hölder) |
| C63 | `gumbel_crf`: one noise vector per `sum` call | first half: a node never picks a summand that is more than noise + log(width) below the best, so the stand-in is never picked; second half is false: renaming a row is an isomorphism of tapes, so equal rows get equal draws; explicit five-word chart for positions |
| C64 | the dynamic programs, in two semirings at once | every program is parametric in the semiring (Proofs/Param.lean): a relation kept by all operations is kept by the program, errors included; each claim is one relation between two semirings (Proofs/Consistency.lean) |
| C65 | `log_prob` = score - `partition` | the score is linear in the potentials; C61 for the partition |
| C66 | `Spec.Rounded`: a semiring with inexact `mul` and `sum`; the programs are the same definitions in that semiring | the programs are parametric in the semiring (Proofs/Param): they are run at the same time on exact values, error bounds and magnitude bounds; the bounds are bounded by induction over the loops |
| C67 | as C66 | C66 with exact operations, in a range that contains the tables |
| C68 | `FastSemirings.logMatmul`, `maxMatmul`, `sampleMatmul`, `dot`; `genbmm` is a parameter, with its documented behaviour (`Computes`) as hypothesis | `ravel`/`unravel` are inverse on the indices of a shape |
| C69 | the existing models of the five distributions; `Spec.Adds`, `Spec.AddsUpTo` | induction over the structure for the score, then the specifications C15, C20, C21, C24, C25, C27, C46-C54 |
| C70 | the existing programs over `SR α`; `Spec.UserSemiring`, `Spec.total` | the laws make `α` a commutative semiring in which the program is related to itself by equality; then the sums of C01, C15, C20, C24, C25, C27 |
| C71 | existing models of `partition`, `marginals`, `entropy`; the input moves along a line, the derivative is the one of real analysis | derivative of a Gibbs expectation is a covariance; `marginals` and `entropy` as Gibbs quantities of the structures and phantoms (`BatchDP`), phantoms bounded; for the chain: uniqueness of the first derivative gives the expectation |
| C72 | tensors of any rank with broadcasting and `view`; `score`, `log_prob` on them | index bookkeeping: reading a broadcast tensor drops leading indices; flattening is the sum over all indices of the event |
| C73 | `score`, `log_prob` over numbers with infinities and NaN (IEEE rules, no rounding) | refuted: `score` multiplies the potentials by the 0/1 event, 0 * -inf is NaN, and NaN is absorbing; the part for finite potentials is proved |
| C74 | the inherited methods on objects whose potentials are tuples, or which have no `struct` | refuted: case analysis on the arguments; the linear chain answers for every valid table |
| C75 | `hmm` followed by the queries of the chain with lengths | the score of a row cut at its length is the joint log-probability of its prefix; then C01-C12. Refuted for rows with one observation |
| C76 | `hsmm` followed by the queries of SemiMarkovCRF with lengths | from C19 for rows cut at their length and C15, C47, C48, C50. Refuted for rows without observations |
| C77 | the dynamic programs with a length list that contains 0 | value of the empty row in every semiring; for the charts indexed with lengths-1 the index -1 is shown to read the last entry |
| C78 | the multi-sample semiring pass of C10-C12 and the marginals of C05-C09 over the same potentials | the law of one sample is the product of the rows' Gibbs measures; sum out the other rows |
| C79 | `_bin_length` and both scans with the value of `math.log(length, 2)` as a parameter (Model/BinLength.lean) | the scan invariant holds for any number of rounds that covers the sequence; too few positions are rejected by the slice assignment |
| C80 | a process state with tensors (entries, requires_grad) and objects (stored results), one transition per operation | invariant: whatever an object has stored is what it computes for the current entries |
| C81 | the process of C80 with in-place updates | induction over the history |
| C82 | a heap of storages, tensors as views (offset, sizes, strides), the methods with every allocation, view and in-place write | refinement: each program on the heap simulates the function on tables of the other properties |
| C83 | the dynamic programs over any semiring whose sum does not depend on the order of the terms | the charts of the renamed table are the renamed charts; gradients by parametricity; reversal through the sum over all sequences; non-projective trees through the matrix-tree theorem and a bijection of the trees |
| C84 | the dynamic programs run in the entropy, cross-entropy, KL, log, max and gradient semirings | each inequality is a relation between two semirings that their operations preserve (Gibbs' inequality for sums), so every dynamic program preserves it; bounds by count from the exact sums over structures |
| C85 | the four models as they are | from the sums over structures that each model computes: a product of sums over labels, an injection of the trees, and a bijection between tag sequences and segmentations into steps of length 1 |
| C86 | strides of tensors: TensorIterator's order of dimensions for elementwise results, torch's computeStride for view; score and the views of the CKY loop (Model/Strides.lean) | descending strides keep the contiguous order (induction over the insertion sort), one chunk can be viewed; for the transposed layouts the sort is computed for symbolic sizes and the first chunk does not fit |
| C87 | Model/Autoregressive.lean (the beam search with noise as an argument); Spec/GumbelNoise.lean: the noise is a family of independent variables with the Gumbel distribution function; Spec/WithoutReplacement.lean: successive draws | the Gumbel-max trick by integration (Proofs/GumbelNoise.lean); with one slot the search is greedy on noisy logits, ties have probability 0; for two slots, a disjoint union of eight events of total probability above 1/3 forces both paths to begin with the same class |
| C88 | Model/GumbelGrad.lean: the backward pass through the recorded backward pass, on the tape of C12/C63, with new draws in the second pass | derivative of softmax; the gradient with respect to the first-pass gradients agrees on the visited nodes (induction over the tape), so the code ignores what was not drawn; closed form for one word |
| C89 | Spec/PCFG.lean: the random rewriting of symbols, without trees (the probability that a symbol has become the words w after k rounds); the sentence probability is the supremum over k | rewriting probability = weight of the derivations, by strong induction on the number of words; total mass by induction on the rounds; then C27 |
| C90 | Model/RoundedArgmax.lean: MaxSemiring with gradients with an arbitrary addition in place of the exact one; argmaxWith for every distribution (equal to argmax for exact addition). Spec/Rounding.lean: RoundedAdd | Proofs/RoundedArgmax.lean: the program is run at once on rounded values with gradients, on bounds of the errors and on bounds of the magnitudes; a relation with the bag of all structures with their exact scores is preserved by every operation. Bounds from the cost lemmas of C66. |
| C91 | The models of partition and marginals, called twice. Spec/Conditional.lean: probability of a set, conditional probability and expectation under a Gibbs distribution | Proofs/Conditional.lean: the masked score equals the score on avoiding structures and is at least c smaller elsewhere, so the masked sums split into the restricted sum and a remainder; combined with the partition and marginals theorems of each distribution for both tables. |
| C92 | The models of partition, max, marginals and argmax of every distribution | Proofs/Temperature.lean: bounds on the Gibbs distribution of scaled scores; combined with the specifications of the four queries. |
| C93 | The models of marginals of every distribution | Proofs/Stability.lean: the score of every structure, real or through a stand-in, moves by at most the cost of the row (the dynamic program run on bounds, related to the bag of score differences); then Gibbs probabilities move by at most exp(2K). Proofs/StabilityChain.lean: the share of an edge in the sum over paths. |
| C94 | Model/NeuralCFG.lean: the linear layers, Res, the three einsums, log_softmax, the views and gather, over real numbers | The flattened softmax over pairs of children is a distribution over pairs; then C89. |
| C95 | Model/ListOps.lean: the loop with its stack, the table with Python's index rules, the two dictionaries and the printer | Induction over the expression with a running stack; the brackets before and after a word are counted from the spans, with a generalisation to extra outer brackets. |
| C96 | Model/BertDep.lean: batch_num, the clearing lines with Python's slice rules, the two sums of validate, the loss; argmax, to_parts and log_prob of DependencyCRF | Every column of either table has one entry; C47 for argmax, C23 for to_parts, C08 for log_prob. |
| C97 | Model/BertDep.lean: the loop over the lines with its two columns; a line is blank or the list of its fields | Induction over the blocks; every file is a sequence of blocks. |
| C98 | Model/BertDep.lean: the loop of token_pre over strings as lists of characters, token_post, the matrix products of forward; tokenizer, lower-casing and the pretrained network are parameters | Invariant of the loop at word boundaries; the list of numbers has every word number exactly once. |
| C99 | Model/SelfCritical.lean: the stacking of samples and argmax, the indexing of the rewards, the two means of the objective; expand_spans; the tree network is a parameter (C106 puts in the one of the example) | Joint law of the samples from C12/C50 (events finitely valued, no measurability needed), derivative of log_prob from C65, derivative of the expected reward as a covariance; the baseline drops out because the centred indicator has mean 0. |
| C100 | Model/Enumerate.lean: the enumeration functions line by line, among them the graph walk of _is_spanning, the crossing test of _is_projective and the generators over spans | Each list has no repetitions and covers the codes of all structures (chains, segmentations, head vectors); for the generators the multiset of scores is computed in the semiring of bags; then the value theorems of C01, C15, C20, C25, C27, C28. |
| C101 | Model/Enumerate.lean: linearChain with the assertion and the event table | to_parts by C13; the contraction of the event with the potentials is the score of the sequence; injectivity of the codes and counting give the bijection. |
| C102 | Model/LinearChain.lean and Model/Distributions.lean as for C01, C04-C07; Spec/ChainMask.lean: allowed sequences and conditional edge probabilities | The chart is a path sum in the semiring of bags; it splits into allowed sequences and paths of score at most -1e5 + (N-1)B. For partition and marginals the closed form with stand-ins is compared with the sum over allowed sequences. |
| C103 | Model/Autoregressive.lean and the linear chain model; the potentials and the network of the test in Props/PositionWise.lean | Invariant of the beam search (a sequence is in the beam or not better than any slot) by counting slots; chain side from C102; bijection between sequences and kept tag sequences; uniqueness of the k best scores. |
| C104 | Model/SemiMarkov.lean, CKYCRF.lean, DepTree.lean, CKY.lean as they are; Spec/Masked.lean says when a structure is allowed | a generic theorem (Proofs/Masked.lean) on dynamic programs with a stand-in for zero: structures with a forbidden part and scan paths through the stand-in score less than every allowed structure |
| C105 | Model/BertTagger.lean: the two einsums, the table of potentials with its in-place addition, validate, the loss; the pretrained network is a parameter | Sum over the edges rearranged into emissions and transitions; argmax by C04, log_prob by C08, to_parts by C13; counting of the entries in which two indicator tables differ. |
| C106 | Model/TreeLSTM.lean: message, reduce and apply functions, pull and propagation of the graph library by its documentation, topological frontiers, run, forward, spans_to_dgl; Spec/TreeLSTM.lean: tree-LSTM by recursion | The loop invariant of to_networkx (C49) on subtrees plus further leaves; the topological frontiers are the heights (induction, no fuel left over because heights are below the number of nodes); invariant of a pass along the heights, applied twice; C99 with the reward restricted to trees. |
| C107 | Spec/Mirror.lean: the tables of the reversed sentences; the models of C20-C27 | Mirroring is a bijection of the labelled trees, of the projective (single-root) dependency trees and of the derivations and phantoms that maps the multiset of used entries to the mirrored entries (induction on trees; domination and projectivity are preserved); a generic lemma carries such a correspondence through all queries. |
| C108 | the models of C25 and C24 on two tables; Spec/TreeLabels.lean: the summed tables, brackets of a tree, softmax and its entropy | the sum over the labellings of a bracketing is a product of sums (induction over the tree); exchanging two labels of one span is a bijection that moves the score by a difference of potentials; entropy from partition and marginals |
| C109 | Model/SpanLSTM.lean: embedding with the cleared row, the two directions of the LSTM as loops, the tables a and b, Res, proj; torch.nn.LSTM by the equations of its documentation | the outputs of the loop are folds over prefixes and suffixes of the row; root label by C108; the exhibited network counts words |
| C110 | Model/TreeEval.lean: the loop with its counters and its early exit, around the models of the two networks, of argmax and of expand_spans | the best tree by C20, the expanded spans and the network by C106, induction over the batches; clearing the padding vector twice changes nothing |
| C111 | the models of partition, marginals and log_prob of the five distributions | Gibbs variational inequality for the structures and the phantom chains (tangent); the difference of two log-likelihoods is bounded by the gradient (C65), which vanishes at a maximum |
| C112 | the models of partition, marginals and log_prob of the five distributions | the second derivative of the log-normaliser along a line is a variance, at most the squared largest change of a score (C71, C93); integrated twice; the gradient from C65 |
| C113 | Model/TreeBackward.lean: the backward pass through cky_crf.py tensor by tensor (charts, slices, diagonals, both logsumexps) in floating point with NaN and infinities; the backward formula of logsumexp is a parameter (plain or guarded) | Proofs/TreeBackward.lean: closed form of the gradients by downward induction over the loop; Proofs/Outside.lean: NaN pattern by induction on larger spans, and a duality between gradients of spans and shares of trees; Proofs/TreeBackwardValue.lean: the weights behind both |
| C114 | the models of LinearChainCRF, TreeCRF and DependencyCRF as before | Proofs/Bregman.lean: the kl semiring follows a run on functions of t along the segment between the two potentials (logical relation: value at 0, value at 1, derivative at 0), so kl is the gap to the tangent for every parametric algorithm; Props/Bregman.lean: instances, derivatives, bounds |
| C115 | Model/ChainBackward.lean: the backward pass of marginals through the scan, the padding and the masks, in floating point without rounding, with NaN | Proofs/ChainBackward.lean: chart entries are logs of positive weights; induction over the rounds of the scan gives the share of the paths through an entry; comparison of shares with and without the stand-in; Props/ChainInfinity.lean: conditional probabilities |
| C116 | Model/SemiBackward.lean: the backward pass of marginals through the scan, the chart of (remaining length, class) states and the masks, in floating point without rounding, with NaN | Proofs/SemiBackward.lean: the backward pass gives the share of the paths through an entry; paths split into segmentations and others (AtomChain); comparison of shares with and without the others; Props/SemiInfinity.lean: conditional probabilities |
| C117 | Model/DepBackward.lean: the backward pass of marginals through the four charts of Eisner's algorithm, the masks and _convert, in floating point without rounding, with NaN | Proofs/DepBackward.lean: the pass computes gradients by a recursion over spans; Proofs/DepBackwardValue.lean, DepBackwardSum.lean, DepBackwardDual.lean: the charts are sums over half trees, the gradients are the shares of the trees with the arc, and NaN spreads to the spans inside; Props/DepInfinity.lean: trees and conditional probabilities |
| C118 | Model/CFGBackward.lean: the backward pass of CKY.marginals through the two charts, the four blocks of rules, the spans and the roots, in floating point without rounding, with NaN | Proofs/CFGBackward.lean: the pass on other kinds of numbers (reals; truth values for NaN); CFGBackwardDual.lean, CFGBackwardValue.lean: its gradients are adjoint to the derivative of the inside sums, so shares of the trees; CFGBackwardFactors.lean, CFGBackwardNan.lean: the factors and where NaN spreads; Props/CFGInfinity.lean: derivations and conditional expectations |
| C119 | Model/InfArgmax.lean: max and argmax run in the max semiring over the extended reals, with gradients | Proofs/InfArgmax.lean: every value is the score of one member of the bag of structures, of largest score, and its gradient is that member's indicator, -inf included; Proofs/InfChain.lean: the chain, where a padded diagonal and the stand-in score take part; Props/InfArgmax.lean: the model classes |
| C120 | Model/InfEntropy.lean: the three semirings with extended real log-values and a floating-point expectation (no rounding, with NaN) | Proofs/InfEntropy.lean: a value is NaN or -inf as soon as one member of its bag of structures holds a forbidden part, and not -inf if one member holds none; on real numbers the semirings embed the real ones; Props/InfEntropy.lean: the model classes |
| C121 | Model/InfSample.lean: the sampling semiring with extended real values; for each value, whether a multinomial below it raises and the set of gradients that can be drawn | Proofs/InfSample.lean: a sum raises iff all its entries are -inf; the charts of the models have such a cell iff a potential pattern holds (induction over the loops); what can be drawn is the set of members of the bag of structures with no forbidden part; Props/InfSample.lean: the model classes |
| C122 | Model/InfTopk.lean: KMaxSemiring on extended reals, with and without gradients; kmax and topk of the models | Proofs/InfTopk.lean: lists of k slots are the top k of a bag, in order unless all are at or below the stand-in; the bag splits into allowed structures and elements at most -1e5 + n M; Proofs/InfTopkDP.lean and Proofs/InfTopkChain.lean: the same for the model's dynamic programs; Props/InfTopk.lean: the model classes; Spec/Slots.lean: the slots |
| C123 | Model/InfNonProj.lean: deptree_part and deptree_nonproj with exp(-inf) = 0 | Props/InfNonProj.lean: the matrix-tree theorem of Proofs/MatrixTree.lean with non-negative weights; the determinant is positive iff a root arc is allowed; expanding the product over all head functions bounds what eps adds |
| C124 | Model/DepLabelBackward.lean: the backward pass of C117 followed by the one of the sum over the labels | Props/DepLabelInfinity.lean: the arc's gradient by the machinery of C117 for general weights; summing labels out of a product over words gives the conditional probability as arc share times label share |
| C125 | Model/DepRootBackward.lean: the loop below the root and the span loop backwards, tensor by tensor, over floats with NaN | Proofs/DepRootBackward.lean: invariants of both loops; Proofs/DepRootSum.lean: the recursion is an instance of the one with several roots (C117), with other factors at the root; Proofs/DepRootDual.lean: values by the adjoint identity; Props/DepRootInfinity.lean, Props/DepRootLabelInfinity.lean |
| C126 | LinearChain.hmm (Model/LinearChainParts.lean) on extended reals, with the backward pass of Model/ChainBackward.lean, Model/InfArgmax.lean, Model/InfSample.lean, Model/InfEntropy.lean; specification in terms of products of probabilities: Spec/HMMZero.lean | Props/HMMZero.lean: log turns the product of the factors of a transition into the potential, -inf where a factor is 0; then C115, C119, C120, C121 |
| C127 | SemiMarkov.hsmm (Model/SemiMarkov.lean) on extended reals, with the backward pass of Model/SemiBackward.lean, Model/InfArgmax.lean, Model/InfSample.lean, Model/InfEntropy.lean; specification in terms of products of probabilities: Spec/HSMMZero.lean | Props/HSMMZero.lean: log turns the product of the factors of a segment into the potential, -inf where a factor is 0; then C116, C119, C120, C121 |
| C128 | Model/InfGumbel.lean: GumbelCRFSemiring on extended reals; for each value the set of gradients that some noise selects | Proofs/InfGumbel.lean: max selects an index of value -inf only if all values are -inf; the semiring is related to the bag of all structures with their numbers of forbidden parts; Props/InfGumbel.lean |
| C129 | Spec/PCFGZero.lean: derivations of a probabilistic grammar and posteriors; Model/CKY.lean, Model/CFGBackward.lean, Model/InfArgmax.lean, Model/InfEntropy.lean on the tables of log-probabilities | Props/PCFGZero.lean: a derivation has positive probability exactly if it avoids the -inf entries; C118, C119 and C120 then apply, and the value of a row is the sentence probability plus the weight of the trees that use the stand-in |
| C130 | Model/InfEntropy.lean: the two semirings over numbers with -inf and NaN; Model/LinearChain.lean; Spec/ChainMask.lean: maskCE | Props/InfCross.lean: +inf by following, beside each entry of the chart, whether some sequence behind it takes a transition that only the second model forbids; the number by projecting the chart to dual numbers and comparing with the sum over the allowed sequences |
| C131 | Model/InfBeam.lean: log_prob and the beam search over numbers with -inf and NaN; Spec/InfBeam.lean: causal networks with -inf, allowed sequences and their score | Props/InfBeam.lean: invariant of the rounds of the beam search (every slot holds a number and an allowed prefix); topk cannot select -inf because every slot has a finite candidate (pigeonhole) |
| C132 | Model/InfBeam.lean: the loop of sample with logits that may be -inf; Spec/InfARSample.lean: Categorical with forbidden classes, the chain-rule probability | Props/InfARSample.lean: invariant of the loop, law of the draws by induction over the steps, sum over all outcomes; draws with this law are constructed for every network |
| C133 | Model/InfBeam.lean: the beam search with logits that may be -inf; Spec/InfBeam.lean: allowed sequences, their scores, the condition on the scores | Props/InfBeam.lean: the invariant of the loop also says that either no slot descends from a phantom or all allowed prefixes are in the beam; counting |
| C134 | Model/TempPath.lean: the derivative of the summed values with respect to one entry of the extended beam of a step, the later rounds run with the selected class held fixed | Props/TempPath.lean: softmax does not change if a row is shifted, so the objective shifts by the same number; chain rule along the all-ones direction; an explicit network for the counterexample |
| C135 | the models of log_prob, marginals, entropy and to_parts of Model/LinearChain.lean and Model/Distributions.lean | Props/ChainMarkov.lean: forward and backward sums (Proofs/ChainMarkov.lean); the marginal of an edge is forward sum times weight times backward sum; telescoping |
| C136 | the models of log_prob, marginals and partition of the five distributions | Props/Determined.lean: equal marginals make the two divergences between the distributions add up to 0 (chain, semi-Markov) or put partition halfway between the tables on its chord (trees); Proofs/Determined.lean then gives equality of the two distributions; the converse from the formulas for marginals |
| C137 | the models of partition, entropy, marginals and log_prob of the five distributions; Spec/MaxEntropy.lean: distribution, entropy and expected value | Props/MaxEntropy.lean: the gap is a sum of terms c - a - a log(c/a), each at least 0 and 0 only for a = c (Proofs/MaxEntropy.lean); scores are linear in the events |
| C138 | the constructors and arg_constraints (Model/Validate.lean), with the loop of torch's Distribution.__init__ and the three constraints it uses modelled after torch's source | refuted: without lengths the check of None raises TypeError, SentCFG and AlignmentCRF never pass; proved for the other classes with lengths: case analysis on the values |
| C139 | the function split of the notebook with the loop variables that outlive their loops (Model/SplitNotebook.lean) | Props/SplitNotebook.lean: nonzero lists spans in lexicographic order, so the last entry of left[i] has the largest end; induction on the loops |
| C140 | marginals and partition of the distributions (SentCFG: Props/RaiseCFG.lean), called before and after the change of one entry | Props/Raise.lean: the tangent inequality of the likelihood (Props/Likelihood.lean) at both tables, summed over the single entry that differs |
| C141 | marginals and partition of the distributions (SentCFG: Props/ReweightCFG.lean), called before and after the change of one entry; the -1e5 stand-ins are part of the model, so the equation is exact | Props/Reweight.lean: every structure, also one with stand-ins, uses an entry at most once, so its score moves by delta or 0 (Proofs/Reweight.lean); the closed form is stated in Spec/Reweight.lean |
| C142 | max and argmax of the five distributions at two tables; the choice of torch.max among ties is a parameter | Props/MaxTangent.lean, Props/MaxTangentCFG.lean (one raised score of SentCFG): the structure of argmax is one of the structures that max of the other table maximises over, and its score is linear in the table (Proofs/MaxTangent.lean) |
| C143 | argmax of the six distributions at two tables, with two ways to break ties | Props/Margin.lean, Props/MarginGap.lean (the margin from kmax(2)): argmax is a best structure of either table (C04, C47, C52), and a change by delta moves the difference of two scores by at most 2 K delta |
| C144 | toPartsRow and intermediaryRow on arbitrary tables | Props/SpanReject.lean: the search for two children finds nothing, and a loop that raises at one element raises |
| C145 | marginals of the three distributions whose marginals are exact posterior probabilities, and of LinearChainCRF with its error bound | Props/Threshold.lean, ThresholdChain.lean: union bound on the posterior (C46, C07) |

### Shared framework

`Proofs/Gibbs`, `RowDP`, `RowValues`, `RowBest`, `RowSample`, `BatchDP`, `ExactDP` and `AtomChain` turn a statement "over every commutative
semiring row `b` of the program is the sum over the structures of row `b` (plus structures that touch the stand-in zero) of the product of their
potentials" into the statements about partition, marginals, max, argmax, topk, kmax, entropy, log_prob and sampling of that distribution.  The
models of the individual distributions only have to provide the sum.

### Sampling

`sample` is modelled by a tape: one draw per call of `multinomial` (in the backward pass), with the weights that the code computes from the packed
integer gradient.  Trusted: `torch.multinomial` draws index `i` with probability proportional to weight `i`, independently of earlier draws, and only
indices of positive weight; integer-valued floats up to 2^16 are exact.

### Autoregressive

The user's network is an arbitrary function that satisfies `Spec.IsCausal`: rows do not interact, and the logits at a position are a function of a state
and the token fed.  `torch.max`/`torch.topk` are arbitrary functions with the documented properties (`IsArgmaxIdx`, `IsTopkIdx`), so every tie-breaking rule is
covered.  The paths of the beam search are gradients in the code; they are modelled as the backward pass through the selections (`backward`).
Assumption for C35/C36: the network itself sends no gradient to the tokens (they are integers) and the gradient is taken with respect to `ex_beam`.
`Categorical(logits).sample` is specified by `Spec.CategoricalDraws`; `draws_exist` shows that it can always be met.  The first result of
`greedy_tempmax`, whose gradient runs through the network, is a derivative in `Model/TempPath.lean` (C134).

## 5. Trusted base

* Lean 4.33.0's kernel.  Axioms used by the theorems: at most `propext`, `Classical.choice`, `Quot.sound`
  (standard Mathlib footprint; checked by the gate's audit).  No axiom is declared, no `sorry`, `native_decide`, `bv_decide`.
* The reading of the Python code and of the PyTorch operations it calls (`logsumexp`, `max`, `topk`, `where`, `diagonal`,
  `view`, slicing, `nonzero` row-major order, autograd's chain rule).
* For C86 only: the strides that torch gives to the results of elementwise operations (`TensorIterator::reorder_dimensions`) and the rule by which `view` accepts
  strides (`computeStride`), written down in `Model/Strides.lean`.
* Not modelled: floating point (except that the logarithm of `_bin_length` is arbitrary in C79), devices, dtype promotion, autograd version counters, performance.

What is modelled, file by file (`torch_struct/`):

| file | modelled | not modelled |
|---|---|---|
| `helpers.py` | `Chart`, `_Struct` (`sum`, `marginals`, `score`, `_bin_length`, `_make_chart`) | `_raw` outside of `KMax` |
| `linearchain.py` | all, except `_rand` | `_rand` (test data) |
| `semimarkov.py` | `_check_potentials`, `logpartition`, `to_parts`, `from_parts`, `hsmm`, `_dp_standard` | |
| `deptree.py` | all, except `_rand` | |
| `cky.py`, `cky_crf.py` | all, except `_rand`; `to_networkx` as lists of nodes and edges | the networkx object |
| `alignment.py` | constructor, `_check_potentials`, `logpartition` up to the first failing attribute (line 100) | the scan after it, which is never reached with a semiring of the library |
| `autoregressive.py` | all; `log_prob`, the beam search and `sample` also with logits `-inf` (`Model/InfBeam.lean`); the first result of `greedy_tempmax` as a derivative (`Model/TempPath.lean`) | |
| `distributions.py` | all methods of every class | |
| `semirings/semirings.py` | Std, Log, Max, KMax, KL, CrossEntropy, Entropy, TempMax; `sparse_sum` in `Model/Autoregressive` | `matmul` for banded matrices (`genbmm`) |
| `semirings/sample.py` | all; the gradient of a loss on the result of `gumbel_crf` in `Model/GumbelGrad.lean` | second-order gradients of the other semirings |
| `semirings/sparse_max.py` | all | |
| `semirings/checkpoint.py` | `CheckpointSemiring`, `CheckpointShardSemiring` | the branches for banded matrices |
| `semirings/fast_semirings.py` | `broadcast`, the three `matmul`s, with `genbmm` as a parameter | banded matrices, the gradients of `genbmm` |
| `examples/networks/NeuralCFG.py` | all (`Model/NeuralCFG.lean`), for given parameters | initialisation of the parameters |
| `examples/data/trees.py`, `examples/tree.py` | `ListOpsDataset` and `show` (`Model/ListOps.lean`) | file access, vocabularies, the training loop |
| `examples/bert-dep.py`, `examples/data/data.py`, `examples/data/trees.py` | `batch_num`, `Model.forward`, `validate`, the loss, `token_pre`, `token_post`, `ConllXDataset` (`Model/BertDep.lean`) | the tokenizer and the pretrained network (parameters), optimiser, iterators |
| `cky_crf.py` backwards | the backward pass of `marginals` with NaN (`Model/TreeBackward.lean`) | rounding; backward formulas of torch are trusted |
| `linearchain.py` backwards | the backward pass of `marginals` with NaN (`Model/ChainBackward.lean`) | rounding; backward formulas of torch are trusted |
| `semimarkov.py` backwards | the backward pass of `marginals` with NaN (`Model/SemiBackward.lean`) | rounding; backward formulas of torch are trusted |
| `deptree.py` backwards | the backward pass of `marginals` with NaN, several roots (`Model/DepBackward.lean`; labels: `Model/DepLabelBackward.lean`) and a single root (`Model/DepRootBackward.lean`, with and without labels) | rounding; backward formulas of torch are trusted |
| `cky.py` backwards | the backward pass of `marginals` with NaN (`Model/CFGBackward.lean`) | rounding; backward formulas of torch are trusted |
| `distributions.py`, `semirings.py` with -inf | `entropy`, `kl`, `cross_entropy` on potentials that may be -inf (`Model/InfEntropy.lean`) | rounding |
| `sample.py`, `distributions.py` with -inf | `sample` on potentials that may be -inf: whether it raises and the set of possible draws (`Model/InfSample.lean`) | rounding, underflow of probabilities; `torch.multinomial` is trusted to raise on NaN and to draw exactly the indices of positive probability |
| `sample.py`, `distributions.py` (`gumbel_crf`) with -inf | `GumbelCRFSemiring`, `GumbelMaxSemiring`, `gumbel_crf` on potentials that may be -inf: the set of possible results (`Model/InfGumbel.lean`) | how the noise of different cells is shared (see `Model/Gumbel.lean`); the backward pass through the result |
| `semirings.py`, `distributions.py`, `cky.py`, `deptree.py` with -inf | `kmax` and `topk` on potentials that may be -inf (`Model/InfTopk.lean`) | rounding; potentials +inf or NaN; `torch.topk` is trusted to return a sorted top k, with gradient to the entries selected |
| `deptree.py` 192-302 with -inf | `partition` and `marginals` of `NonProjectiveDependencyCRF` on scores that may be -inf (`Model/InfNonProj.lean`) | rounding; scores +inf or NaN |
| `distributions.py` with -inf | `max` and `argmax` on potentials that may be -inf (`Model/InfArgmax.lean`) | rounding |
| `examples/rl.py`, `examples/tree.py` | `SelfCritical.forward`, `expand_spans`, `tree_reward`, the policy objective (`Model/SelfCritical.lean`), `valid_sup` (`Model/TreeEval.lean`) | optimiser, iterators |
| `examples/networks/SpanLSTM.py` | all (`Model/SpanLSTM.lean`), for given parameters | `torch.nn.LSTM` by the equations of its documentation: trusted; initialisation |
| `examples/networks/TreeLSTM.py` | the cell, `run`, `forward`, `spans_to_dgl` (`Model/TreeLSTM.lean`) | the `dgl` library (modelled after its documentation: trusted) |
| `notebooks/BertTagger.ipynb` | the potentials, `validate`, the loss (`Model/BertTagger.lean`) | the pretrained network (a parameter), data, optimiser |
| `tests/extensions.py` | the enumeration functions (`Model/Enumerate.lean`) | the random inputs (`logpotentials`, `_rand`), labels in `DepTreeTest.enumerate` |
| `distributions.py` constructors | `validate_args`, `arg_constraints` (`Model/Validate.lean`) | torch's `Distribution.__init__` and constraints are modelled after torch's source: trusted; shapes |
| `notebooks/Unsupervised_CFG.ipynb` | `split` (`Model/SplitNotebook.lean`) | data, training loop |
