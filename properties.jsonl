{"id": "C01", "title": "Linear-chain partition sums over every tag sequence", "statement": "LinearChainCRF(log_potentials).partition equals log of the sum, over all C^N tag sequences y, of exp(sum_n log_potentials[n, y_{n+1}, y_n]), each sequence counted exactly once, for every N>=2 (including N-1 not a power of two) and every C>=1.", "quantifier": "every batch size, N>=2, C>=1 and every potential table", "why_tests_cant": "tests enumerate N<=4, C<=4 only; the claim is for every size and every real potential (the padded log-depth scan has a different shape for every N)", "anchors": ["torch_struct/linearchain.py:LinearChain.logpartition", "torch_struct/helpers.py:_Struct._bin_length", "torch_struct/helpers.py:_Struct.sum", "torch_struct/distributions.py:StructDistribution.partition", "torch_struct/semirings/semirings.py:LogSemiring"]}
{"id": "C02", "title": "Linear-chain length masking is exact truncation", "statement": "With lengths given, the value (in every semiring) of row b of a linear chain equals the value of the unpadded chain made of the first lengths[b]-1 potentials: it does not depend on the potentials at positions >= lengths[b]-1.", "quantifier": "every batch, every vector of lengths in [1,N] with max N, every potential table including arbitrary padding contents", "why_tests_cant": "the set of padding contents and length vectors is infinite; tests use random lengths at N<=4", "anchors": ["torch_struct/linearchain.py:LinearChain.logpartition", "torch_struct/linearchain.py:LinearChain._check_potentials"]}
{"id": "C03", "title": "Linear-chain max is the best sequence score", "statement": "LinearChainCRF.max (MaxSemiring sum) equals the maximum over all tag sequences of the sequence score whenever all potentials are at least the library's -1e5 stand-in for minus infinity; below that threshold the equality can fail.", "quantifier": "every size, length vector and real potential table with entries >= -1e5", "why_tests_cant": "tests enumerate N<=4, C<=4 only; the claim is for every size and every real potential", "anchors": ["torch_struct/linearchain.py:LinearChain.logpartition", "torch_struct/semirings/semirings.py:MaxSemiring", "torch_struct/semirings/semirings.py:_BaseLog.zero", "torch_struct/distributions.py:StructDistribution.max"]}
{"id": "C04", "title": "Linear-chain argmax is one valid sequence that attains the max", "statement": "LinearChainCRF.argmax is the 0/1 edge indicator of exactly one tag sequence of length lengths[b] (zero after it), and the score of that sequence equals LinearChainCRF.max - also when several sequences tie.", "quantifier": "every size, length vector, and real potential table (ties included) with entries > -1e5", "why_tests_cant": "ties and every size cannot be sampled; the gradient-of-max trick must be right at every node", "anchors": ["torch_struct/linearchain.py:LinearChain.logpartition", "torch_struct/helpers.py:_Struct.marginals", "torch_struct/distributions.py:StructDistribution.argmax", "torch_struct/semirings/semirings.py:MaxSemiring.sum"]}
{"id": "C05", "title": "kmax returns the k best scores with multiplicity", "statement": "LinearChainCRF.kmax(k) is the non-increasing list of the k largest sequence scores counted with multiplicity, provided at least k sequences exist and potentials are small compared with 1e5.", "quantifier": "every k>=1, size, and bounded potential table with at least k sequences", "why_tests_cant": "tests use k=2 and N<=3", "anchors": ["torch_struct/linearchain.py:LinearChain.logpartition", "torch_struct/semirings/semirings.py:KMaxSemiring", "torch_struct/distributions.py:StructDistribution.kmax"]}
{"id": "C06", "title": "topk returns k different sequences with the kmax scores", "statement": "LinearChainCRF.topk(k)[i] is the edge indicator of a valid tag sequence whose score is kmax(k)[i], and the k sequences are pairwise different.", "quantifier": "every k>=1, size, and bounded potential table with at least k sequences, ties included", "why_tests_cant": "tests use k=2, check only that the first two differ", "anchors": ["torch_struct/linearchain.py:LinearChain.logpartition", "torch_struct/helpers.py:_Struct.marginals", "torch_struct/distributions.py:StructDistribution.topk", "torch_struct/semirings/semirings.py:KMaxSemiring"]}
{"id": "C07", "title": "Linear-chain marginals are the posterior edge probabilities", "statement": "LinearChainCRF.marginals[b,n,i,j] equals the total probability of the tag sequences with y_{n+1}=i and y_n=j; hence entries lie in [0,1], sum to 1 at every position n < lengths[b]-1, adjacent positions agree on tag marginals, and entries past the length are 0.", "quantifier": "every size, length vector and real potential table", "why_tests_cant": "tests enumerate N<=4, C<=4 only; the claim is for every size and every real potential", "anchors": ["torch_struct/linearchain.py:LinearChain.logpartition", "torch_struct/helpers.py:_Struct.marginals", "torch_struct/distributions.py:StructDistribution.marginals"]}
{"id": "C08", "title": "log_prob is normalised", "statement": "For LinearChainCRF, the exponentials of log_prob over the event encodings of all tag sequences sum to 1, and log_prob(to_event(y)) = score(y) - partition.", "quantifier": "every size and real potential table", "why_tests_cant": "tests enumerate N<=4, C<=4 only; the claim is for every size and every real potential", "anchors": ["torch_struct/distributions.py:StructDistribution.log_prob", "torch_struct/helpers.py:_Struct.score", "torch_struct/linearchain.py:LinearChain.to_parts"]}
{"id": "C09", "title": "entropy is the Shannon entropy of the structure distribution", "statement": "LinearChainCRF.entropy equals -sum_y p(y) log p(y) over all tag sequences; in particular it lies between 0 and N log C.", "quantifier": "every size and real potential table", "why_tests_cant": "tests enumerate N<=4, C<=4 only; the claim is for every size and every real potential", "anchors": ["torch_struct/semirings/semirings.py:EntropySemiring", "torch_struct/distributions.py:StructDistribution.entropy", "torch_struct/linearchain.py:LinearChain.logpartition"]}
{"id": "C10", "title": "cross_entropy and kl are exact", "statement": "p.cross_entropy(q) equals -sum_y p(y) log q(y) and p.kl(q) equals sum_y p(y)(log p(y) - log q(y)); so kl = cross_entropy - entropy, kl >= 0 and p.kl(p) = 0.", "quantifier": "every size and every pair of real potential tables of the same shape", "why_tests_cant": "tests enumerate N<=4, C<=4 only; the claim is for every size and every real potential", "anchors": ["torch_struct/semirings/semirings.py:CrossEntropySemiring", "torch_struct/semirings/semirings.py:KLDivergenceSemiring", "torch_struct/distributions.py:StructDistribution.cross_entropy", "torch_struct/distributions.py:StructDistribution.kl"]}
{"id": "C11", "title": "count counts structures of non-zero probability", "statement": "LinearChainCRF.count equals the number of tag sequences none of whose edges has potential -inf; with finite potentials it is C^N.", "quantifier": "every size, length vector and pattern of -inf entries", "why_tests_cant": "tests only check all-ones tables at N<=4", "anchors": ["torch_struct/distributions.py:StructDistribution.count", "torch_struct/semirings/semirings.py:StdSemiring", "torch_struct/linearchain.py:LinearChain.logpartition"]}
{"id": "C12", "title": "sample draws exact samples", "statement": "A sampled linear-chain event (backward sampling through the SampledSemiring) is always the indicator of a valid tag sequence, and sequence y is drawn with probability exactly exp(score(y) - partition).", "quantifier": "every size and real potential table, every outcome of the random draws", "why_tests_cant": "a statistical test has finite power and finite sizes; the claim is an identity of distributions", "anchors": ["torch_struct/semirings/sample.py:_SampledLogSumExp", "torch_struct/semirings/sample.py:SampledSemiring", "torch_struct/distributions.py:StructDistribution.sample"]}
{"id": "C13", "title": "Linear-chain event encoding round-trips", "statement": "from_event(to_event(y)) = y for every tag sequence of N >= 2 tags, and to_event(from_event(e)) = e for every e that encodes a sequence; with lengths, to_event zeroes exactly the edges at positions >= lengths[b]-1.", "quantifier": "every N>=2, C>=1, batch of tag sequences and length vector", "why_tests_cant": "tests sample random sequences at N<=4", "anchors": ["torch_struct/linearchain.py:LinearChain.to_parts", "torch_struct/linearchain.py:LinearChain.from_parts"]}
{"id": "C14", "title": "HMM adapter gives the joint log-probability", "statement": "For HMM(transition, emission, init, observations) the score of a state sequence z is init[z_0] + sum_{n>=1} transition[z_n, z_{n-1}] + sum_{n>=0} emission[x_n, z_n]; so with normalised tables exp(partition) is the probability of the observations, and summing it over all observation sequences gives 1.", "quantifier": "every N>=2, C, V, observation sequence and real tables", "why_tests_cant": "test_hmm asserts nothing about values", "anchors": ["torch_struct/linearchain.py:LinearChain.hmm", "torch_struct/distributions.py:HMM"]}
{"id": "C15", "title": "Semi-Markov partition sums over every segmentation", "statement": "SemiMarkovCRF value (any semiring) equals the sum over the initial class and all sequences of segments (k_i,c_i) with 1 <= k_i <= K-1 and total length lengths[b]-1 of the product of potentials[start_i, k_i, c_i, c_{i-1}].", "quantifier": "every N>=2, K>=2, C>=1, length vector and potential table", "why_tests_cant": "tests enumerate N,K,C<=3", "anchors": ["torch_struct/semimarkov.py:SemiMarkov.logpartition", "torch_struct/distributions.py:SemiMarkovCRF"]}
{"id": "C16", "title": "Semi-Markov length masking excludes overhanging segments", "statement": "With lengths, the value of row b does not depend on potentials starting at or after lengths[b]-1 nor on segments that would end after lengths[b]-1, and equals the value of the unpadded problem.", "quantifier": "every batch, length vector, padding content", "why_tests_cant": "infinitely many paddings; boundary conditions differ for every (N, length, K)", "anchors": ["torch_struct/semimarkov.py:SemiMarkov.logpartition"]}
{"id": "C17", "title": "Semi-Markov scan equals the sequential dynamic program", "statement": "SemiMarkov.logpartition and SemiMarkov._dp_standard return the same value for the same potentials and lengths.", "quantifier": "every size, length vector and potential table, every commutative semiring", "why_tests_cant": "tests compare at one shape", "anchors": ["torch_struct/semimarkov.py:SemiMarkov._dp_standard", "torch_struct/semimarkov.py:SemiMarkov.logpartition"]}
{"id": "C18", "title": "Semi-Markov event encoding round-trips", "statement": "from_event(to_event(y,(C,K))) = (y,(C,K)) for every sequence y over {-1,0..C-1} that starts with a class, ends with a class and has gaps shorter than K.", "quantifier": "every N>=2, K, C and valid sequence", "why_tests_cant": "tests sample random sequences at N<=4", "anchors": ["torch_struct/semimarkov.py:SemiMarkov.to_parts", "torch_struct/semimarkov.py:SemiMarkov.from_parts"]}
{"id": "C19", "title": "HSMM adapter gives the joint log-probability", "statement": "SemiMarkov.hsmm(init, trans, lentab, emission) yields edges for which the score of a segmentation is init[z_{-1}] + sum_i (trans[z_{i-1}, z_i] + lentab[z_i, k_i] + emission[start_i, k_i, z_i]).", "quantifier": "every N, K, C, batch and real tables, init given per batch or shared", "why_tests_cant": "tests check one shape", "anchors": ["torch_struct/semimarkov.py:SemiMarkov.hsmm"]}
{"id": "C20", "title": "DependencyCRF sums over exactly the projective trees", "statement": "With multiroot=True, DependencyCRF's value (any semiring) equals the sum over all projective dependency trees on words 1..n under an artificial root 0 (any number of root children) of the product of the arc potentials, each tree once; root arc scores are read from the diagonal.", "quantifier": "every n>=1 and potential table, every commutative semiring", "why_tests_cant": "tests enumerate n<=3; spurious ambiguity would appear at larger n", "anchors": ["torch_struct/deptree.py:DepTree.logpartition", "torch_struct/deptree.py:convert", "torch_struct/distributions.py:DependencyCRF"]}
{"id": "C21", "title": "Single-root DependencyCRF sums over the projective trees with one root child", "statement": "With multiroot=False the value equals the sum over projective trees in which exactly one word is attached to the root.", "quantifier": "every n>=1 and potential table, every commutative semiring", "why_tests_cant": "no test exercises multiroot=False for the projective model", "anchors": ["torch_struct/deptree.py:DepTree.logpartition"]}
{"id": "C22", "title": "Dependency length masking is exact truncation", "statement": "With lengths, DependencyCRF's value for row b is the value for the leading lengths[b] x lengths[b] block and does not depend on any other potential.", "quantifier": "every batch, length vector and padding content", "why_tests_cant": "infinitely many paddings", "anchors": ["torch_struct/deptree.py:DepTree._check_potentials", "torch_struct/deptree.py:DepTree.logpartition"]}
{"id": "C23", "title": "Dependency root conversion and head encoding round-trip", "statement": "unconvert(convert(x)) = x for every square table; from_event(to_event(heads)) = heads for every head vector with heads[m] != m; with lengths exactly the arcs touching words past the length are zeroed.", "quantifier": "every n, batch, head vector, length vector", "why_tests_cant": "tests sample n<=3", "anchors": ["torch_struct/deptree.py:convert", "torch_struct/deptree.py:unconvert", "torch_struct/deptree.py:DepTree.to_parts", "torch_struct/deptree.py:DepTree.from_parts"]}
{"id": "C24", "title": "Labelled dependencies marginalise labels arc by arc", "statement": "For n x n x L potentials the DependencyCRF value equals the sum over projective trees and over all labellings of their arcs of the product of labelled arc potentials.", "quantifier": "every n, L>=1 and potential table", "why_tests_cant": "tests use one random shape", "anchors": ["torch_struct/deptree.py:DepTree.logpartition"]}
{"id": "C25", "title": "TreeCRF sums over every labelled binary tree", "statement": "TreeCRF's value (any semiring) equals the sum over all binary bracketings of N words and all labellings of its 2N-1 spans of the product of potentials[i,j,label]; so count is Catalan(N-1)*NT^(2N-1). It does not depend on potentials below the diagonal nor on the semiring's zero constant.", "quantifier": "every N>=1, NT>=1, potential table, commutative semiring", "why_tests_cant": "tests enumerate N<=4", "anchors": ["torch_struct/cky_crf.py:CKY_CRF.logpartition", "torch_struct/distributions.py:TreeCRF"]}
{"id": "C26", "title": "TreeCRF length masking is exact truncation", "statement": "With lengths, TreeCRF's value for row b is the value for the leading lengths[b] x lengths[b] block.", "quantifier": "every batch, length vector in [1,N], padding content", "why_tests_cant": "infinitely many paddings", "anchors": ["torch_struct/cky_crf.py:CKY_CRF.logpartition"]}
{"id": "C27", "title": "SentCFG sums over every derivation", "statement": "SentCFG's value equals the sum over all binary derivation trees of the sentence under the grammar (root weight times rule weights times preterminal weights), where single words are covered by preterminals only; for sentences of length >= 2.", "quantifier": "every N>=2, NT, T, length vector and potential tables", "why_tests_cant": "tests enumerate N<=4", "anchors": ["torch_struct/cky.py:CKY.logpartition", "torch_struct/distributions.py:SentCFG"]}
{"id": "C28", "title": "NonProjectiveDependencyCRF partition is a sum over spanning trees", "statement": "With multiroot=True, exp(partition) equals the sum over all spanning trees rooted at the artificial root of prod (exp(arc)+eps) over word-word arcs times prod exp(root) over root arcs, with eps=1e-5: the intended partition up to the added eps.", "quantifier": "every n>=1 and real potential table", "why_tests_cant": "tests compare only shapes (value comparison is commented out)", "anchors": ["torch_struct/deptree.py:deptree_part", "torch_struct/distributions.py:NonProjectiveDependencyCRF"]}
{"id": "C29", "title": "Single-root NonProjectiveDependencyCRF partition", "statement": "With multiroot=False, exp(partition) is the same sum restricted to spanning trees with exactly one root child.", "quantifier": "every n>=1 and real potential table", "why_tests_cant": "value comparison is commented out in the tests", "anchors": ["torch_struct/deptree.py:deptree_part"]}
{"id": "C30", "title": "NonProjectiveDependencyCRF marginals", "statement": "marginals[h,m] equals the probability of arc h->m (root arcs on the diagonal) under the spanning-tree distribution of the partition, times exp(arc)/(exp(arc)+eps) for word-word arcs.", "quantifier": "every n>=1, real potential table, both root modes", "why_tests_cant": "tests print the marginals without asserting", "anchors": ["torch_struct/deptree.py:deptree_nonproj"]}
{"id": "C31", "title": "Non-projective length masking is exact truncation", "statement": "With lengths, the non-projective partition and marginals of row b equal those of the leading lengths[b] x lengths[b] block.", "quantifier": "every batch and length vector", "why_tests_cant": "no test passes lengths", "anchors": ["torch_struct/deptree.py:deptree_part", "torch_struct/deptree.py:deptree_nonproj"]}
{"id": "C32", "title": "Distribution objects do not influence each other", "statement": "The value of a DependencyCRF depends only on its own constructor arguments, not on other DependencyCRF objects created before or after it.", "quantifier": "every history of constructor calls and queries", "why_tests_cant": "needs an adversarial interleaving of two objects", "anchors": ["torch_struct/distributions.py:DependencyCRF.__init__"]}
{"id": "C33", "title": "AlignmentCRF honours its constructor options", "statement": "AlignmentCRF(local=True) computes a local alignment and AlignmentCRF.partition returns a value for every valid potential table.", "quantifier": "every valid alignment potential table", "why_tests_cant": "the alignment test is disabled (ignore_alignment)", "anchors": ["torch_struct/distributions.py:AlignmentCRF._struct", "torch_struct/alignment.py:Alignment.__init__", "torch_struct/alignment.py:Alignment._dp_scan"]}
{"id": "C34", "title": "Autoregressive.log_prob is the chain-rule log-probability", "statement": "Autoregressive.log_prob(value) equals sum_t log softmax(logits after the prefix)[value_t], with the start class fed first and the last logits row ignored; for normalize=True its exponentials sum to 1 over all C^N sequences; the one-hot and sparse encodings agree.", "quantifier": "every causal model, N, C, start class, sequence", "why_tests_cant": "depends on every model and every length", "anchors": ["torch_struct/autoregressive.py:Autoregressive.log_prob"]}
{"id": "C35", "title": "greedy_max returns the greedy path and its log_prob", "statement": "Autoregressive.greedy_max returns a one-hot path choosing a maximal logit at every step given its own prefix, and its second result equals log_prob(path).", "quantifier": "every causal model, N, C, batch", "why_tests_cant": "depends on every model", "anchors": ["torch_struct/autoregressive.py:Autoregressive._beam_search", "torch_struct/autoregressive.py:Autoregressive.greedy_max", "torch_struct/semirings/semirings.py:MaxSemiring.sparse_sum"]}
{"id": "C36", "title": "beam_topk keeps scores, states and paths aligned", "statement": "The paths returned by beam_topk(K) are one-hot, their scores (_beam_max) are their log_prob, are non-increasing, and (when the phantom -1e5 entries never win) the paths are pairwise different; with K >= C^(N-1) the first path is a global maximiser.", "quantifier": "every causal model, K, N, C, batch", "why_tests_cant": "depends on every model and the index arithmetic for every K and batch size", "anchors": ["torch_struct/autoregressive.py:Autoregressive._beam_search", "torch_struct/autoregressive.py:Autoregressive.beam_topk", "torch_struct/semirings/semirings.py:KMaxSemiring"]}
{"id": "C37", "title": "greedy_tempmax is a deterministic relaxation", "statement": "greedy_tempmax(alpha) does not perturb the logits: its forward value is the greedy maximum, with no random noise.", "quantifier": "every model and alpha", "why_tests_cant": "randomness cannot be excluded by a test that checks shapes", "anchors": ["torch_struct/autoregressive.py:Autoregressive.greedy_tempmax"]}
{"id": "C38", "title": "Multi-sample bit packing never mixes samples", "statement": "The 16 samples packed into the gradient bits by the MultiSampledSemiring are recovered independently by to_discrete: decoding slot j of the packed gradient gives exactly what a single-sample backward pass with the j-th draws would give.", "quantifier": "every computation graph of sums and products whose derivations use each node at most once, every outcome of the draws", "why_tests_cant": "bit carries would corrupt samples only for rare combinations of draws", "anchors": ["torch_struct/semirings/sample.py:_MultiSampledLogSumExp", "torch_struct/semirings/sample.py:MultiSampledSemiring.to_discrete", "torch_struct/distributions.py:StructDistribution.sample"]}
{"id": "C39", "title": "Sparsemax weights are the Euclidean projection onto the simplex", "statement": "project_simplex(v) is non-negative, sums to 1 and is the unique point of the probability simplex closest to v.", "quantifier": "every real vector of length >= 1, ties included", "why_tests_cant": "infinitely many vectors, sorting/threshold boundary cases", "anchors": ["torch_struct/semirings/sparse_max.py:project_simplex"]}
{"id": "C40", "title": "Checkpointed semirings do not change results", "statement": "CheckpointSemiring(S,min_size) and CheckpointShardSemiring(S,max_size,min_size) give the same matmul as S for every shape and every size limit, so every dynamic program returns the same value.", "quantifier": "every batch of matrices, broadcastable shapes, max_size, min_size", "why_tests_cant": "shard boundaries differ for every (total, step)", "anchors": ["torch_struct/semirings/checkpoint.py:CheckpointSemiring", "torch_struct/semirings/checkpoint.py:CheckpointShardSemiring", "torch_struct/semirings/checkpoint.py:accumulate_"]}
{"id": "C41", "title": "Semiring operations obey the semiring laws", "statement": "For Std, Log, Max, KMax, Entropy, CrossEntropy and KLDivergence semirings: sum is independent of order and grouping, mul is associative and commutative with unit one, and mul distributes over sum.", "quantifier": "all elements reachable in the semiring", "why_tests_cant": "laws over reals cannot be tested exhaustively", "anchors": ["torch_struct/semirings/semirings.py"]}
{"id": "C42", "title": "Batch rows are independent", "statement": "The value computed for a batch row is a function of that row's potentials and length only: permuting, adding or changing other rows does not change it (as long as the call is accepted).", "quantifier": "every batch and every change of other rows", "why_tests_cant": "infinitely many contents of the other rows; rows share flattened buffers", "anchors": ["torch_struct/linearchain.py:LinearChain.logpartition", "torch_struct/semimarkov.py:SemiMarkov.logpartition", "torch_struct/deptree.py:DepTree.logpartition", "torch_struct/cky_crf.py:CKY_CRF.logpartition"]}
{"id": "C43", "title": "Malformed calls are rejected", "statement": "LinearChain rejects lengths whose maximum is not N and non-square transitions; SemiMarkov likewise; DepTree rejects non-square tables and potentials of the wrong rank; every accepted call returns a value.", "quantifier": "every argument combination", "why_tests_cant": "rejection logic must hold for every argument", "anchors": ["torch_struct/linearchain.py:LinearChain._check_potentials", "torch_struct/semimarkov.py:SemiMarkov._check_potentials", "torch_struct/deptree.py:DepTree._check_potentials"]}
{"id": "C44", "title": "Error of the -1e5 stand-in for log zero is bounded", "statement": "In exact arithmetic the linear-chain log-partition computed with zero=-1e5 is at least the true log-partition and exceeds it by at most (L-1)*exp(-1e5-min potential) + (padding)*(2C-1)*exp(-1e5).", "quantifier": "every size, length vector and real potential table", "why_tests_cant": "the deviation is below float resolution for ordinary inputs and so invisible to tests", "anchors": ["torch_struct/semirings/semirings.py:_BaseLog", "torch_struct/linearchain.py:LinearChain.logpartition"]}
{"id": "C45", "title": "Shift invariance", "statement": "Adding a constant a_n to all potentials of position n adds sum_n a_n to partition and max and leaves marginals, argmax validity and entropy unchanged.", "quantifier": "every size, potential table and shift vector", "why_tests_cant": "tests enumerate N<=4, C<=4 only; the claim is for every size and every real potential", "anchors": ["torch_struct/linearchain.py:LinearChain.logpartition", "torch_struct/distributions.py:StructDistribution"]}
{"id": "C46", "title": "Marginals of TreeCRF and DependencyCRF are posterior probabilities", "statement": "TreeCRF.marginals[i,j,label] and DependencyCRF.marginals[h,m] equal the total probability of the structures that contain that labelled span / arc (root arcs on the diagonal).", "quantifier": "every size, length vector and real potential table", "why_tests_cant": "tests only check argmax consistency", "anchors": ["torch_struct/cky_crf.py:CKY_CRF.logpartition", "torch_struct/deptree.py:DepTree._arrange_marginals", "torch_struct/helpers.py:_Struct.marginals"]}
{"id": "C47", "title": "argmax of every model is one valid structure attaining the max", "statement": "SemiMarkovCRF, DependencyCRF and TreeCRF argmax are 0/1 indicators of exactly one valid structure whose score equals max, also under ties.", "quantifier": "every size and potential table", "why_tests_cant": "ties and sizes cannot be exhausted", "anchors": ["torch_struct/semimarkov.py", "torch_struct/deptree.py", "torch_struct/cky_crf.py", "torch_struct/helpers.py:_Struct.marginals"]}
{"id": "C48", "title": "Entropy, KL and k-max hold for the other models too", "statement": "entropy is the Shannon entropy of the structure distribution for SemiMarkovCRF, DependencyCRF, TreeCRF; kmax(k) returns the k best scores.", "quantifier": "every size and potential table", "why_tests_cant": "tests cover LinearChain and SemiMarkov at N<=3", "anchors": ["torch_struct/semirings/semirings.py:EntropySemiring", "torch_struct/deptree.py", "torch_struct/cky_crf.py", "torch_struct/semimarkov.py"]}
{"id": "C49", "title": "Span decoding recovers the tree", "statement": "CKY.to_parts on the span indicator of a labelled binary tree returns the tree's root, its preterminals and its rule counts; CKY.to_networkx links every internal span to its two child spans, whatever order equal-width spans are sorted in.", "quantifier": "every binary tree, labels, tie order", "why_tests_cant": "tests never call them", "anchors": ["torch_struct/cky.py:CKY.to_parts", "torch_struct/cky.py:CKY._intermediary", "torch_struct/cky.py:CKY.to_networkx"]}
{"id": "C50", "title": "Distribution.sample uses each packed sample at most once", "statement": "sample((n,)) returns n events, one backward pass per ten samples, and never decodes the same draw twice.", "quantifier": "every n", "why_tests_cant": "all n", "anchors": ["torch_struct/distributions.py:StructDistribution.sample"]}
{"id": "C51", "title": "SentCFG marginals are expected counts", "statement": "SentCFG.marginals returns the expected number of uses of every preterminal at every word, of every rule and of every root under the distribution over derivations, and the probability of every labelled constituent (up to the explicit error of the -1e5 stand-in for zero).", "quantifier": "every grammar, sentence of length >= 2, lengths, potentials", "why_tests_cant": "tests check only shapes and sums on small random grammars", "anchors": ["torch_struct/cky.py:CKY.marginals", "torch_struct/cky.py:CKY.logpartition"]}
{"id": "C52", "title": "SentCFG best derivations", "statement": "SentCFG.max and kmax return the scores of the best (k best) derivations in decreasing order; argmax returns the preterminals, rules (with multiplicity), root and constituents of one best derivation however ties are broken; topk returns the constituents of the k best derivations, one table per slot.", "quantifier": "every grammar, sentence of length >= 2, k, tie-breaking", "why_tests_cant": "needs enumeration of exponentially many derivations", "anchors": ["torch_struct/cky.py:CKY.marginals", "torch_struct/distributions.py:StructDistribution.argmax", "torch_struct/distributions.py:StructDistribution.topk"]}
{"id": "C53", "title": "SentCFG lengths", "statement": "With lengths, the value of a row depends only on its first length words and equals the value of the unpadded problem for that row alone.", "quantifier": "every batch, lengths, potentials", "why_tests_cant": "all lengths and paddings", "anchors": ["torch_struct/cky.py:CKY.logpartition"]}
{"id": "C54", "title": "SentCFG entropy", "statement": "SentCFG.entropy is the Shannon entropy of the distribution over the derivations (up to the explicit error of the -1e5 stand-in for zero).", "quantifier": "every grammar, sentence of length >= 2, potentials", "why_tests_cant": "needs enumeration of exponentially many derivations", "anchors": ["torch_struct/distributions.py:StructDistribution.entropy", "torch_struct/cky.py:CKY.logpartition"]}
{"id": "C55", "title": "sample_without_replacement returns different sequences", "statement": "For every noise, the K paths of Autoregressive.sample_without_replacement((K,)) are one-hot, and with normalize=True any two slots whose perturbed values are above -1e5 hold different sequences.", "quantifier": "every causal model, K, N, C, batch and every outcome of the Gumbel noise", "why_tests_cant": "a test sees finitely many draws of the noise", "anchors": ["torch_struct/autoregressive.py:Autoregressive.sample_without_replacement", "torch_struct/semirings/semirings.py:KMaxSemiring.sparse_sum"]}
{"id": "C56", "title": "Autoregressive.sample draws from the chain-rule distribution", "statement": "sample((n,)) returns one-hot sequences that are independent across samples and batch rows, each distributed as prod_t softmax(logits after the prefix).", "quantifier": "every causal model, n, N, C, batch, and all sets of sequences", "why_tests_cant": "a law of a random output, for every network", "anchors": ["torch_struct/autoregressive.py:Autoregressive.sample"]}
{"id": "C57", "title": "SparseMaxSemiring.sum returns the sparsemax value and its gradient", "statement": "SparseMaxSemiring.sum(xs) is max over p in the simplex of p.xs - |p|^2/2 (in particular within 1/2 of max(xs), up to the same constant for one element), and the gradient its backward pass returns is the gradient of the value its forward pass returns.", "quantifier": "every real vector", "why_tests_cant": "a derivative at every point; the test only prints the values", "anchors": ["torch_struct/semirings/sparse_max.py:_SimplexProject"]}
{"id": "C58", "title": "The second derivative of SparseMaxSemiring.sum", "statement": "sparsemax_grad(dout, project_simplex(v)) is the vector-Jacobian product of project_simplex at v, wherever no entry of v sits on the boundary of the support.", "quantifier": "every vector off the boundary, every dout", "why_tests_cant": "a derivative at every point", "anchors": ["torch_struct/semirings/sparse_max.py:sparsemax_grad", "torch_struct/semirings/sparse_max.py:_SparseMaxGrad"]}
{"id": "C59", "title": "project_simplex works along every dimension", "statement": "project_simplex(v, dim) projects every slice of v along dim onto the simplex, for every dim.", "quantifier": "every tensor and dim", "why_tests_cant": "the library only sums over the last dimension in its tests", "anchors": ["torch_struct/semirings/sparse_max.py:project_simplex"]}
{"id": "C60", "title": "Sharded products are differentiated exactly", "statement": "The backward pass of CheckpointShardSemiring(S, max_size) of size-one semirings returns, for operands that have a leading dimension (or row dimension) of size one, as all tensors of the dynamic programs do, exactly the gradients of the plain product, and for LogSemiring and StdSemiring these are its directional derivatives, broadcasting included. Operands without any such dimension are rejected as soon as there is more than one shard.", "quantifier": "every pair of broadcastable operands, output gradient, direction and max_size", "why_tests_cant": "every shape, shard boundary and direction", "anchors": ["torch_struct/semirings/checkpoint.py:unaccumulate_", "torch_struct/semirings/checkpoint.py:ones", "torch_struct/semirings/checkpoint.py:CheckpointShardSemiring"]}
{"id": "C61", "title": "marginals is the gradient of partition", "statement": "For every valid table and lengths, every entry of marginals is the derivative of the entry's own row of partition with respect to that potential (at the given potentials), and the derivative of every other row is 0. For entries past the length of a row the true derivative of partition is 0. Holds for LinearChainCRF, SemiMarkovCRF, TreeCRF, DependencyCRF (with and without labels), SentCFG and NonProjectiveDependencyCRF (with its eps).", "quantifier": "every table of potentials, lengths, entry and row", "why_tests_cant": "a derivative at every point of a continuous domain; autograd bypassed by .data writes", "anchors": ["torch_struct/helpers.py:marginals", "torch_struct/distributions.py:marginals", "torch_struct/deptree.py:deptree_nonproj", "torch_struct/cky.py:marginals"]}
{"id": "C62", "title": "partition is a convex function of the potentials", "statement": "Every row of partition is convex in the potentials: on the line between two tables of the same shape it lies below the chord, so the negative log-likelihood of an event (linear minus partition) is a convex training loss.", "quantifier": "every pair of tables, lengths, row and point of the line", "why_tests_cant": "a statement about every pair of points of a continuous domain", "anchors": ["torch_struct/distributions.py:partition", "torch_struct/semirings/semirings.py:LogSemiring"]}
{"id": "C63", "title": "gumbel_crf draws each row from the CRF", "statement": "LinearChainCRF.gumbel_crf returns, in every batch row, the event of one tag sequence of the row's length, drawn from the CRF of that row, and the rows are independent.", "quantifier": "every table, lengths, temperature > 0, tie-breaking of max, noise values (first half) and probability space the noise comes from (second half)", "why_tests_cant": "the returned tensor looks like a sample for every seed; dependence between rows and positions is a statement about the joint law, and the one-hot shape must hold for every noise", "anchors": ["torch_struct/distributions.py:gumbel_crf", "torch_struct/semirings/sample.py:GumbelCRFSemiring"]}
{"id": "C64", "title": "The queries of a distribution agree with each other", "statement": "For every distribution: kl(p, q) = cross_entropy(p, q) - entropy(p), cross_entropy(p, p) = entropy(p) and kl(p, p) = 0; max <= partition; raising potentials never lowers partition or max; kmax(k) is the list of the first k values of kmax(k') and starts with max. These are exact equalities and inequalities between the returned numbers, and the calls raise the same errors.", "quantifier": "every table of potentials (kmax: potentials at least -1e5), every lengths argument, accepted or not, every 1 <= k <= k'", "why_tests_cant": "each relation is between the results of two dynamic programs run in different semirings, for every input; a test compares them on a few tables up to a tolerance", "anchors": ["torch_struct/distributions.py:kl", "torch_struct/distributions.py:cross_entropy", "torch_struct/distributions.py:entropy", "torch_struct/distributions.py:max", "torch_struct/distributions.py:kmax", "torch_struct/semirings/semirings.py"]}
{"id": "C65", "title": "The gradient of log_prob is the event minus the marginals", "statement": "The derivative of log_prob(value)[b] with respect to a log-potential of row b is value at that entry minus the entry of marginals, so that gradient descent on the negative log-likelihood moves expected counts towards the observed ones.", "quantifier": "every table, valid lengths, row, entry inside the row and every tensor value, also one that is not an event", "why_tests_cant": "a derivative at every point in every direction; numerical differentiation samples a few", "anchors": ["torch_struct/distributions.py:log_prob", "torch_struct/distributions.py:marginals", "torch_struct/helpers.py:_Struct.score"]}
{"id": "C66", "title": "Rounding errors grow at most linearly with the length", "statement": "If every operation of the semiring is computed with an error of at most eps (in the range of the intermediate values) and every potential is off by at most delta, then partition and max are off by at most (number of potentials in a structure) * delta plus a small multiple of the length times eps: (N-1)(delta + 6 eps) for LinearChainCRF and SemiMarkovCRF, (2N-1) delta + 5 N eps for TreeCRF, N (delta + 6 eps) for DependencyCRF, 2N delta + 5 N eps for SentCFG. Errors are not amplified by the number of labels, the size of the potentials or the order of the reductions.", "quantifier": "every table, every lengths argument, every way of rounding the operations within eps, every eps, delta", "why_tests_cant": "a test sees one rounding on one table; the bound is over all tables and all roundings", "anchors": ["torch_struct/linearchain.py:logpartition", "torch_struct/semimarkov.py:logpartition", "torch_struct/cky_crf.py:logpartition", "torch_struct/deptree.py:logpartition", "torch_struct/cky.py:logpartition", "torch_struct/semirings/semirings.py:LogSemiring", "torch_struct/semirings/semirings.py:MaxSemiring"]}
{"id": "C67", "title": "partition and max are Lipschitz in the potentials", "statement": "Moving every potential by at most delta moves partition and max of a row by at most delta times the number of potentials that a structure uses: N-1 for LinearChainCRF and SemiMarkovCRF, 2N-1 for TreeCRF, N for DependencyCRF, 2N for SentCFG; calls that raise keep raising the same error.", "quantifier": "every two tables of the same shape, every lengths argument", "why_tests_cant": "it is a statement about all pairs of tables", "anchors": ["torch_struct/distributions.py:partition", "torch_struct/distributions.py:max"]}
{"id": "C68", "title": "The fast semirings compute the products of the plain ones, and need genbmm", "statement": "With genbmm installed, FastLogSemiring.matmul and dot give, entry by entry, what LogSemiring gives, and FastMaxSemiring what MaxSemiring gives, for all leading dimensions that can be broadcast; so does the forward value of FastSampleSemiring. Without genbmm every product raises NameError: none returns a wrong value.", "quantifier": "every pair of operands with the same number of dimensions, every size, every broadcast pattern, genbmm present or absent", "why_tests_cant": "the index arithmetic of expand, view and the final view depends on all shapes; a test runs a few", "anchors": ["torch_struct/semirings/fast_semirings.py:broadcast", "torch_struct/semirings/fast_semirings.py:FastLogSemiring", "torch_struct/semirings/fast_semirings.py:FastMaxSemiring", "torch_struct/semirings/fast_semirings.py:FastSampleSemiring", "torch_struct/semirings/semirings.py:dot"]}
{"id": "C69", "title": "Shift invariance of the tree, dependency, semi-Markov and grammar models", "statement": "Potentials that every structure of a row uses equally often can be shifted: adding a_i to every label of word i and c to every wider span (TreeCRF), a_j to every arc into word j (DependencyCRF, labelled or not, both root modes), the sum of a_m over the covered steps to a segment (SemiMarkovCRF), a_n to the preterminals of word n, c to every rule and r to every root (SentCFG) adds the corresponding constant to partition and max, leaves marginals and entropy unchanged, and the argmax stays a best structure of the original potentials. Exact for the tree models; for SemiMarkovCRF and SentCFG up to the explicit error of the stand-in -1e5.", "quantifier": "every batch, lengths, sizes, potentials and shifts, per row", "why_tests_cant": "the statement relates two runs on arbitrary real tables", "anchors": ["torch_struct/distributions.py:TreeCRF", "torch_struct/distributions.py:DependencyCRF", "torch_struct/distributions.py:SemiMarkovCRF", "torch_struct/distributions.py:SentCFG"]}
{"id": "C70", "title": "User-defined semirings work with every dynamic program", "statement": "Let a user pass a class with the Semiring interface that is a commutative semiring (associative, commutative sums and products, distributive, one neutral, zero neutral for sums and absorbing; values of any kind). Then the sum of LinearChain, SemiMarkov, DepTree (labelled or not, one or several roots), CKY_CRF and CKY over any accepted potentials is, for each row, the semiring sum over the structures of that row of the semiring product of their potentials, each structure once, and the padding is not read.", "quantifier": "all semirings with the stated laws, over any type of values; all potentials, batch sizes, sizes and lengths the code accepts (for CKY rows of at least two words)", "why_tests_cant": "Tests run a handful of library semirings on random numbers; a user-defined semiring is arbitrary.", "anchors": ["torch_struct/semirings/semirings.py:Semiring", "torch_struct/helpers.py:_Struct.sum", "torch_struct/linearchain.py:LinearChain.logpartition", "torch_struct/semimarkov.py:SemiMarkov.logpartition", "torch_struct/deptree.py:DepTree.logpartition", "torch_struct/cky_crf.py:CKY_CRF.logpartition", "torch_struct/cky.py:CKY.logpartition"]}
{"id": "C71", "title": "The derivatives of marginals are covariances, those of entropy minus the covariance with the score", "statement": "Differentiating a second time through the library gives the right numbers: when the potential of one part is moved, the entry of marginals of another part of the same row changes at the rate of their covariance under the posterior, P(both) - P(one) P(other) (for grammars: the covariance of the numbers of uses); the marginals of other rows do not change. So the matrix of these derivatives is symmetric, and no marginal falls when its own potential is raised. The entropy changes at the rate of minus the covariance of the part with the score of the structure. Exact for TreeCRF and DependencyCRF (with and without labels, both root modes); for LinearChainCRF, SemiMarkovCRF and SentCFG the matrix is exactly symmetric with a non-negative diagonal, and equal to the covariances up to an explicit tiny error of the stand-in for log 0.", "quantifier": "all batch sizes, sizes, lengths, potentials, pairs of parts", "why_tests_cant": "a test can compare with finite differences at a few points, for a few parts; the identity is about every table and every pair of parts, and finite differences hide symmetric or small errors", "anchors": ["torch_struct/distributions.py:StructDistribution.marginals", "torch_struct/distributions.py:StructDistribution.entropy", "torch_struct/helpers.py:_Struct.marginals", "torch_struct/semirings/semirings.py:LogSemiring", "torch_struct/semirings/semirings.py:EntropySemiring"]}
{"id": "C72", "title": "log_prob of a stack of events", "statement": "log_prob of a tensor of events of shape sample_shape x batch x event_shape returns a tensor of shape sample_shape x batch, for any number of sample dimensions; each entry is the log-probability of that event in its batch row. (An event without the batch dimension is not broadcast: the scores of all rows are added up; this limit of the claim is proved too.)", "quantifier": "all sample shapes, batch sizes, sizes, potentials and events of LinearChainCRF, TreeCRF, SemiMarkovCRF, DependencyCRF with and without labels", "why_tests_cant": "the tests score one event per row or one sample dimension; that the flattening and the broadcasting keep samples and rows apart is a claim about every shape", "anchors": ["torch_struct/distributions.py:StructDistribution.log_prob", "torch_struct/helpers.py:_Struct.score"]}
{"id": "C73", "title": "log_prob with forbidden parts", "statement": "When some potentials are -inf (as `count` supports), log_prob of an event that uses none of these parts is its score minus the partition.", "quantifier": "all tables of potentials that may contain -inf and all events", "why_tests_cant": "a claim about every table and every event, with the arithmetic of infinities", "anchors": ["torch_struct/helpers.py:_Struct.score", "torch_struct/distributions.py:StructDistribution.log_prob"]}
{"id": "C74", "title": "Every distribution answers the queries of the base class", "statement": "Every distribution class answers log_prob, sample, count, cross_entropy, kl, max, kmax, topk, argmax and entropy, which StructDistribution documents, and sample() works without an argument.", "quantifier": "all distributions and all arguments", "why_tests_cant": "that a call can never succeed is a claim about all arguments", "anchors": ["torch_struct/distributions.py:StructDistribution", "torch_struct/distributions.py:SentCFG", "torch_struct/distributions.py:NonProjectiveDependencyCRF", "torch_struct/cky.py:CKY.score", "torch_struct/deptree.py:DepTree.logpartition", "torch_struct/semimarkov.py:SemiMarkov.logpartition"]}
{"id": "C75", "title": "Queries of an HMM answer about the hidden Markov model", "statement": "HMM(transition, emission, init, observations, lengths): for every row, partition is the log-likelihood of the row's first `length` observations; marginals are the posterior probabilities of consecutive states; argmax is a most probable state sequence; log_prob of a state sequence is its log posterior; sample draws from the posterior; entropy is the posterior's entropy.", "quantifier": "all tables, symbols, batch sizes, lengths and observations", "why_tests_cant": "ranges over all tables, observations and lengths; the tests look at full-length batches of one shape", "anchors": ["torch_struct/linearchain.py:LinearChain.hmm", "torch_struct/distributions.py:HMM", "torch_struct/linearchain.py:LinearChain.logpartition"]}
{"id": "C76", "title": "Queries over hsmm potentials answer about the hidden semi-Markov model", "statement": "SemiMarkovCRF(SemiMarkov.hsmm(init, transition, duration, emission), lengths): partition is the log-likelihood of the row's observations, marginals are the posterior probabilities of the segments, argmax is a most probable segmentation, sample draws from the posterior.", "quantifier": "all tables, batch sizes, durations and lengths", "why_tests_cant": "ranges over all tables and lengths", "anchors": ["torch_struct/semimarkov.py:SemiMarkov.hsmm", "torch_struct/semimarkov.py:SemiMarkov.logpartition", "torch_struct/distributions.py:SemiMarkovCRF"]}
{"id": "C77", "title": "A row of length 0 does not depend on the potentials", "statement": "In a batch in which some row has length 0, that row's partition, max and count are those of the empty structure: they do not depend on the potentials, for every distribution that accepts lengths.", "quantifier": "all potentials, batch sizes, lengths and rows with length 0", "why_tests_cant": "ranges over all potentials and semirings; the tests have no empty rows", "anchors": ["torch_struct/cky_crf.py:CKY_CRF.logpartition", "torch_struct/cky.py:CKY.logpartition", "torch_struct/deptree.py:DepTree.logpartition", "torch_struct/linearchain.py:LinearChain.logpartition", "torch_struct/semimarkov.py:SemiMarkov.logpartition"]}
{"id": "C78", "title": "Samples contain each part with its marginal probability", "statement": "In every sample that sample(n) returns, each part (edge, arc, span, segment) is present with exactly the probability that `marginals` reports for it, so averages over samples are unbiased estimates of the marginals (up to the explicit error of the finite stand-in for log 0 where the model has one).", "quantifier": "all valid potentials and lengths, all numbers of samples, all parts, all rows and all runs of the sampler with exact categorical draws", "why_tests_cant": "a statement about probabilities of random outputs for all inputs; the tests compare averages of a few samples with the marginals for some seeds", "anchors": ["torch_struct/semirings/sample.py:MultiSampledSemiring", "torch_struct/distributions.py:StructDistribution.sample", "torch_struct/distributions.py:StructDistribution.marginals"]}
{"id": "C79", "title": "Rounding in the number of padded positions never changes an answer", "statement": "The number of padded positions of the scans is computed with a floating-point logarithm. Whatever value that logarithm has, LinearChainCRF and SemiMarkovCRF either raise an error or compute the sum over all structures in every commutative semiring: the same max as with an exact logarithm, and the true partition up to the explicit error of the finite stand-in for log 0; for LinearChainCRF also the true argmax and marginals. A logarithm whose error is below 1/n always gives enough positions.", "quantifier": "all functions for the computed logarithm, all valid potentials, lengths and commutative semirings", "why_tests_cant": "the shortest sequence for which the rounding matters has 2^29 edges; the tests use lengths below 20", "anchors": ["torch_struct/helpers.py:_Struct._bin_length", "torch_struct/linearchain.py:LinearChain.logpartition", "torch_struct/semimarkov.py:SemiMarkov.logpartition"]}
{"id": "C80", "title": "Queries can be asked in any order, any number of times, with or without gradients", "statement": "As long as nobody writes into the tensor of potentials, every query of a distribution (partition, max, entropy, count, marginals, argmax, kmax, topk, log_prob, sample), asked at any point of a program, in any order, any number of times, with gradients enabled or inside torch.no_grad(), whatever is asked of this and other distributions in between, gives the answer that a new distribution over a copy of the tensor gives, and leaves the entries of the tensor as they are.", "quantifier": "all histories of tensor creations, constructions of LinearChainCRF, SemiMarkovCRF and TreeCRF objects, queries in both gradient modes and updates of other tensors", "why_tests_cant": "quantifies over all histories; the tests ask each object once or twice with gradients enabled", "anchors": ["torch_struct/distributions.py:StructDistribution", "torch_struct/distributions.py:StructDistribution.sample", "torch_struct/helpers.py:_Struct._get_dimension"]}
{"id": "C81", "title": "A distribution answers for the current contents of its tensor", "statement": "A distribution refers to the caller's tensor; after the tensor is updated in place (as an optimizer does), the queries answer for the new contents, and log_prob stays normalised.", "quantifier": "all histories of constructions, queries and in-place updates", "why_tests_cant": "quantifies over all histories; the tests never update a tensor in place", "anchors": ["torch_struct/distributions.py:StructDistribution", "torch_struct/distributions.py:StructDistribution.log_prob"]}
{"id": "C82", "title": "Queries leave the caller's memory alone and do not depend on the memory layout of the potentials", "statement": "A query of LinearChainCRF, SemiMarkovCRF, TreeCRF, DependencyCRF or SentCFG (partition, max, count, kmax, entropy, cross_entropy, kl) changes no entry of any tensor that existed before it, also if it raises; its result lies in memory of its own; and two tensors with the same entries get the same answer or the same exception, whatever their strides and offsets and whatever other tensors share their storage (for SentCFG: if terms is contiguous, see C86; rules and roots may have any layout).", "quantifier": "all heaps, all tensors in them (any strides, offsets and overlaps), all shapes, lengths and semirings of the library", "why_tests_cant": "quantifies over all memory layouts and aliasing patterns; the tests use fresh contiguous tensors", "anchors": ["torch_struct/linearchain.py:LinearChain.logpartition", "torch_struct/semimarkov.py:SemiMarkov.logpartition", "torch_struct/cky_crf.py:CKY_CRF.logpartition", "torch_struct/deptree.py:DepTree.logpartition", "torch_struct/deptree.py:convert", "torch_struct/helpers.py:Chart", "torch_struct/helpers.py:_Struct._make_chart", "torch_struct/semirings/semirings.py:Semiring.convert", "torch_struct/cky.py:CKY.logpartition"]}
{"id": "C83", "title": "The names of tags, classes, labels and symbols do not matter", "statement": "Renaming the tags of a LinearChainCRF or HMM, the classes of a SemiMarkovCRF, the labels of a TreeCRF or of a labelled DependencyCRF, or the nonterminals and preterminals of a SentCFG by any permutation leaves partition, max, kmax, entropy (cross_entropy and kl of two chains, log_prob of the renamed event) unchanged and renames marginals; exceptions are raised in the same cases. Reading every sequence of a LinearChainCRF from right to left leaves partition, max and entropy unchanged. Writing the words of a NonProjectiveDependencyCRF in another order leaves partition unchanged and reorders marginals.", "quantifier": "all permutations, all tables of potentials (also rejected ones), all lengths, all k and events", "why_tests_cant": "quantifies over all permutations and all tables; the tests use one fixed numbering", "anchors": ["torch_struct/linearchain.py:LinearChain.logpartition", "torch_struct/semimarkov.py:SemiMarkov.logpartition", "torch_struct/cky_crf.py:CKY_CRF.logpartition", "torch_struct/deptree.py:DepTree.logpartition", "torch_struct/deptree.py:deptree_part", "torch_struct/deptree.py:deptree_nonproj", "torch_struct/cky.py:CKY.logpartition"]}
{"id": "C84", "title": "Signs and sizes of the answers", "statement": "For every distribution and every row, 0 <= partition - max <= entropy; no entry of marginals is negative; log_prob of the event of a structure is at most 0. For LinearChainCRF and TreeCRF, kl(p, q) >= 0 and cross_entropy(p, q) >= entropy(p). For TreeCRF and DependencyCRF, partition <= max + log count and entropy <= log count. These are inequalities between the returned numbers, without error terms, although the code computes with -1e5 for log 0.", "quantifier": "all tables of potentials (also rejected ones), all lengths, all pairs of tables, all structures", "why_tests_cant": "inequalities over all real potentials; tests can only check samples, and the stand-in -1e5 could break them at extreme potentials", "anchors": ["torch_struct/distributions.py:StructDistribution.entropy", "torch_struct/distributions.py:StructDistribution.partition", "torch_struct/distributions.py:StructDistribution.max", "torch_struct/distributions.py:StructDistribution.kl", "torch_struct/distributions.py:StructDistribution.cross_entropy", "torch_struct/distributions.py:StructDistribution.log_prob", "torch_struct/semirings/semirings.py:EntropySemiring.sum", "torch_struct/semirings/semirings.py:KLDivergenceSemiring.sum", "torch_struct/semirings/semirings.py:CrossEntropySemiring.sum"]}
{"id": "C85", "title": "The distributions agree where their structures agree", "statement": "A labelled DependencyCRF has the partition of the unlabelled one over the log-sum-exp of the labels, its max is that of the unlabelled one over the best labels, and its marginals sum over labels to the marginals of the unlabelled one; with a single label it is the unlabelled one. Trees with a single root have a partition and a max at most those with several roots. NonProjectiveDependencyCRF has a partition at least that of DependencyCRF on the same scores. A SemiMarkovCRF whose segments have length 1 (K = 2) has the sum (any semiring) and the max of the LinearChainCRF of its steps, and a partition within the error terms of the stand-in -1e5.", "quantifier": "all tables of potentials, all lengths, single and multiple roots", "why_tests_cant": "equalities between two different algorithms on all inputs", "anchors": ["torch_struct/distributions.py:DependencyCRF", "torch_struct/distributions.py:NonProjectiveDependencyCRF", "torch_struct/distributions.py:SemiMarkovCRF", "torch_struct/distributions.py:LinearChainCRF", "torch_struct/deptree.py:DepTree.logpartition", "torch_struct/deptree.py:deptree_part", "torch_struct/semimarkov.py:SemiMarkov.logpartition", "torch_struct/linearchain.py:LinearChain.logpartition"]}
{"id": "C86", "title": "Answers do not depend on the memory layout of the potentials", "statement": "A tensor of potentials gives the same answers whether it is contiguous or a transposed view with the same entries. True of contiguous tensors: log_prob of any stack of contiguous events and the inside algorithm of SentCFG meet no failing view. False in general: if the potentials of LinearChainCRF are a view x.transpose(2, 3) or a time-major x.transpose(0, 1), partition is computed but log_prob of every event raises RuntimeError; so does log_prob of DependencyCRF with x.transpose(1, 2); and SentCFG with terms = x.transpose(1, 2) raises for all sentences of at least three words.", "quantifier": "all sizes, all entries, all layouts of the event", "why_tests_cant": "tests only use freshly created contiguous tensors; the failure depends on strides, sizes and the order in which torch visits dimensions", "anchors": ["torch_struct/helpers.py:_Struct.score", "torch_struct/distributions.py:StructDistribution.log_prob", "torch_struct/cky.py:CKY.logpartition"]}
{"id": "C87", "title": "sample_without_replacement draws without replacement from the model's distribution", "statement": "The K paths that Autoregressive.sample_without_replacement((K,)) returns for a batch row are distributed like K successive draws without replacement from the chain-rule distribution of that row, and the rows are independent.", "quantifier": "every causal model, K, N, C, batch, tie-breaking of topk, and every probability space that carries the Gumbel noise", "why_tests_cant": "It is a statement about a probability distribution on all sequences, for all models; a test sees finitely many samples of a few models.", "anchors": ["torch_struct/autoregressive.py: Autoregressive.sample_without_replacement, Autoregressive._beam_search", "torch_struct/semirings/semirings.py: KMaxSemiring.sparse_sum"]}
{"id": "C88", "title": "The result of gumbel_crf can be differentiated with the straight-through gradient", "statement": "The gradient of a loss on the result of gumbel_crf with respect to the potentials is the straight-through gradient: the one obtained when, in the backward pass, every draw counts as the softmax of its perturbed scores.", "quantifier": "all distributions, potentials, lengths, noise values, temperatures, and losses", "why_tests_cant": "quantifies over all noise values and losses; the tests only look at the shape of the returned sample and never differentiate it", "anchors": ["torch_struct/distributions.py:StructDistribution.gumbel_crf", "torch_struct/semirings/sample.py:GumbelCRFSemiring"]}
{"id": "C89", "title": "SentCFG of a probabilistic grammar gives sentence likelihoods", "statement": "If the potentials of SentCFG are the logarithms of the probabilities of a context-free grammar (roots, rules, words of each preterminal), partition is the logarithm of the probability that the grammar, started and rewritten at random, generates exactly the sentence of the row. Hence the exponentiated partitions of different sentences, of equal or different lengths, add up to at most one, and no partition is above zero.", "quantifier": "all grammars, sentences of at least two words, batches and lengths", "why_tests_cant": "quantifies over all grammars and all sets of sentences; the tests compare with enumeration of trees for random unnormalised scores on a few short sentences", "anchors": ["torch_struct/distributions.py:SentCFG", "torch_struct/cky.py:CKY.logpartition", "examples/networks/NeuralCFG.py"]}
{"id": "C90", "title": "argmax on a machine that rounds returns a valid structure that is best up to the rounding error", "statement": "Run argmax of LinearChainCRF, SemiMarkovCRF, TreeCRF, DependencyCRF (with and without labels) or SentCFG on potentials that are within δ of the intended ones, with additions whose results have an error of at most ε (comparisons are exact). For every row the result is still the 0/1 indicator of the parts of one valid structure of the row's length, never a mixture of two structures and never one that uses padding, and the exact score of that structure under the intended potentials is at most 2E below the best score, where E is linear in the length: (N-1)(δ+2ε) for chains and segmentations, (2N-1)δ+2Nε for TreeCRF, N(δ+3ε) for dependency trees, N(2δ+3ε) for SentCFG. In particular, a structure that is better than all others by more than 2E is the one that is returned. This holds for every tie-breaking rule. (For chains, segmentations and SentCFG the scores must stay clear of the stand-in -1e5 by 2E.)", "quantifier": "every table, every perturbation of it by at most δ, every addition with error at most ε in the range of the intermediate values, every batch, every legal lengths, every tie-breaking rule of torch.max", "why_tests_cant": "A test runs one rounding on a few tables; the claim is about every table, near-ties included, and every order of rounding errors.", "anchors": ["torch_struct/distributions.py:StructDistribution.argmax", "torch_struct/semirings/semirings.py:_BaseLog.mul", "torch_struct/semirings/semirings.py:MaxSemiring", "torch_struct/linearchain.py:LinearChain.logpartition", "torch_struct/semimarkov.py:SemiMarkov.logpartition", "torch_struct/cky_crf.py:CKY_CRF.logpartition", "torch_struct/deptree.py:DepTree.logpartition", "torch_struct/cky.py:CKY.logpartition"]}
{"id": "C91", "title": "Lowering the potentials of forbidden parts conditions the distribution", "statement": "Take any set of forbidden parts (edges, segments, spans, arcs, labelled arcs; rules, preterminals and roots of a grammar) and subtract c ≥ 0 from their potentials, the usual masking trick. If some structure of the row avoids all of them, let P be the probability of the set of avoiding structures under the original potentials. Then the new partition is the old one plus log P, from above within exp(-c)(1-P)/P, and every new marginal is the conditional probability of the part given that nothing forbidden is used (for grammars: the conditional expected count), within exp(-c)(1-P)/P. For TreeCRF and DependencyCRF that is all; for LinearChainCRF, SemiMarkovCRF and SentCFG the errors of the stand-in -1e5 (of C02, C15, C27 and C51, with bounds enlarged by c) are added. With potentials -∞ on an exact TreeCRF or DependencyCRF the new partition is exactly the old one plus log P, and -∞ if every structure uses something forbidden. In particular the marginal of a span or an arc equals 1 - exp(partition with the part forbidden - partition).", "quantifier": "every table, every batch, every legal lengths, every set of forbidden parts (different from row to row), every c ≥ 0", "why_tests_cant": "A test masks a few entries of a few tables with one constant; the claim relates two runs on different tables for every set and constant.", "anchors": ["torch_struct/distributions.py:StructDistribution.partition", "torch_struct/distributions.py:StructDistribution.marginals", "torch_struct/cky_crf.py:CKY_CRF.logpartition", "torch_struct/deptree.py:DepTree.logpartition", "torch_struct/linearchain.py:LinearChain.logpartition", "torch_struct/semimarkov.py:SemiMarkov.logpartition", "torch_struct/cky.py:CKY.logpartition"]}
{"id": "C92", "title": "Scaling the potentials by an inverse temperature interpolates between partition and max and between marginals and argmax", "statement": "For every β ≥ 0, partition of β times the potentials is at least β·max and at most β·max + log(number of structures of the row), where max is the maximum for the unscaled potentials. If one structure of the row is better than every other by g > 0, then every entry of marginals of β times the potentials is within (number of structures - 1)·exp(-β g) of the same entry of argmax of the unscaled potentials (for SentCFG, whose entries are counts, times 3N). So marginals sharpen to argmax as β grows, whatever the tie-breaking. Exact for TreeCRF and DependencyCRF with and without labels; for LinearChainCRF, SemiMarkovCRF and SentCFG the errors of the stand-in -1e5 for the scaled potentials are added.", "quantifier": "every table, every batch, every legal lengths, every β ≥ 0, every margin g, every tie-breaking rule of torch.max", "why_tests_cant": "A test anneals one table; the claim relates four API results for all tables and temperatures with an explicit rate.", "anchors": ["torch_struct/distributions.py:StructDistribution.partition", "torch_struct/distributions.py:StructDistribution.max", "torch_struct/distributions.py:StructDistribution.marginals", "torch_struct/distributions.py:StructDistribution.argmax"]}
{"id": "C93", "title": "Marginals are stable: potentials that are off by at most δ move every marginal by at most a factor exp(2Kδ)", "statement": "If every entry of the potentials q differs from the same entry of p by at most δ, then marginals succeeds on both and every entry of the one is at most exp(2Kδ) times the same entry of the other, where K is the number of potentials one structure can use: N - 1 for LinearChainCRF (the number of transitions of the row) and SemiMarkovCRF, 2N - 1 for TreeCRF, N for DependencyCRF with and without labels, 2N for SentCFG. The bound is exact arithmetic with no further error term: it holds whatever the size of the potentials, even when the stand-in -1e5 matters.", "quantifier": "every pair of tables of the same shape, every δ ≥ 0, every batch, every legal lengths, every entry of the marginals", "why_tests_cant": "A test perturbs a few tables; the factor has to hold for all tables and all perturbations, including potentials as low as the stand-in for minus infinity.", "anchors": ["torch_struct/distributions.py:StructDistribution.marginals", "torch_struct/linearchain.py:LinearChain._dp", "torch_struct/semimarkov.py:SemiMarkov.logpartition", "torch_struct/cky_crf.py:CKY_CRF.logpartition", "torch_struct/deptree.py:DepTree._dp", "torch_struct/cky.py:CKY.logpartition"]}
{"id": "C94", "title": "NeuralCFG with SentCFG is a probabilistic grammar: partition is the log-likelihood of the sentence", "statement": "For every value of the network's parameters there is one probabilistic context-free grammar, whose choices are made with the softmax of the network's scores and which does not depend on the input, such that for every batch of sentences SentCFG(NeuralCFG(words), lengths).partition is the log-probability that the grammar generates the sentence of the row, up to the error of the stand-in -1e5. Hence likelihoods of different sentences add up to at most one. A word number outside the vocabulary raises an error.", "quantifier": "all sizes, all parameter values, all batches of sentences with at least two words, all legal lengths", "why_tests_cant": "The property is about the whole distribution over sentences and all parameter values: no finite set of sentences shows that the probabilities are those of one grammar.", "anchors": ["examples/networks/NeuralCFG.py:NeuralCFG.forward", "torch_struct/distributions.py:SentCFG", "torch_struct/cky.py:CKY.logpartition"]}
{"id": "C95", "title": "ListOps lines survive reading and printing, and the printed argmax is the bracketing of a best tree", "statement": "Reading a bracketed line of the ListOps data gives the words of the expression and exactly its spans; the table built for a batch marks exactly those spans, with label 0 for brackets and the number of the word plus one for words; printing the table gives the line back, followed by the padding without brackets. Printing the result of TreeCRF.argmax gives the bracketing of a tree with the highest score over the words of the row. A closing bracket without an opening one raises IndexError.", "quantifier": "all binary bracketed expressions of any depth over tokens other than brackets and (), all batches, all vocabularies, all potentials and legal lengths, all tie breaks", "why_tests_cant": "Nesting is unbounded and the printer counts brackets at every position instead of following the tree; a test covers finitely many shapes.", "anchors": ["examples/data/trees.py:ListOpsDataset", "examples/tree.py:valid_show", "torch_struct/distributions.py:TreeCRF"]}
{"id": "C96", "title": "The dependency example evaluates the number of wrong heads, and never uses the scores of the last word", "statement": "For every batch, validate adds to incorrect_edges exactly the number of words whose head in a best tree is not the gold head, and to total_edges the number of words, for sentences of different lengths in one batch; the training loss is the sum of the log-probabilities of the gold trees. In both, the potentials are those after final[b, lengths[b]-1:, :] = 0 and final[b, :, lengths[b]-1:] = 0, which also clear the scores of the last word: replacing all scores that involve the last word of a sentence changes neither value, and gold trees that differ only in the head of the last word have the same loss.", "quantifier": "all batches, all lengths, all tables of scores, all gold heads in range (for the loss: all gold projective trees), all tie breaks", "why_tests_cant": "The identity between half the absolute difference of two tables and the number of wrong heads must hold for every pair of trees and every padding; that a score is never used is a statement about all values of it.", "anchors": ["examples/bert-dep.py:validate", "examples/bert-dep.py:train", "examples/bert-dep.py:batch_num", "torch_struct/deptree.py:DepTree.to_parts"]}
{"id": "C97", "title": "ConllXDataset reads exactly the sentences of a file, plus empty examples at blank lines", "statement": "The examples of ConllXDataset are exactly the blocks of lines between blank lines, in order, with the words and heads of every block, the empty blocks included. From a file in which every sentence is followed by blank lines, the non-empty examples are exactly the sentences; if all lines have seven fields, entry k of both columns is from line k. A file whose sentences are each followed by one blank line yields one empty example too many.", "quantifier": "all files (every list of lines), all numbers of blank lines, all sentences", "why_tests_cant": "Files are unbounded and the position of blank lines is arbitrary; the extra example appears only for certain endings.", "anchors": ["examples/data/trees.py:ConllXDataset"]}
{"id": "C98", "title": "Potentials of the dependency example are computed from the right subword vectors when all later pieces are marked", "statement": "For every batch of sentences and every tokenizer that splits words into non-empty pieces with as many characters as the word, the word numbers of token_pre, the mapper of token_post and Model.forward give the score of the arc between words i and j from one position of the network's output for each word. If all pieces of a word after the first are marked with ##, it is the position of the word's first piece. In general it is too small by the number of unmarked later pieces of earlier words, so that a word with punctuation inside shifts all words after it.", "quantifier": "all batches, all sentences, all tokenizers with that property, all network outputs and parameters, any numbers of features", "why_tests_cant": "The alignment depends on the whole prefix of the sentence; a test only covers the words and the tokenizer it uses.", "anchors": ["examples/data/data.py:token_pre", "examples/data/data.py:token_post", "examples/bert-dep.py:Model.forward"]}
{"id": "C99", "title": "The policy gradient built from samples is unbiased, whatever baseline is subtracted", "statement": "For every TreeCRF, every number of samples, every reward function that scores rows separately and every baseline tensor (the argmax included): SelfCritical.forward returns the samples and, per sample and row, the reward minus the baseline's reward; the gradient of the training objective rewards.mul(log_prob(samples)).mean() with respect to any potential has, over the randomness of sample, exactly the gradient of the expected reward as its expected value. The returned total has the expected reward as its expected value, and averaging -log_prob over samples has the value of entropy as its expected value. The same holds for reward-weighted gradients of log_prob of samples of DependencyCRF, with and without labels, in both root modes. The reward of the tree example scores rows separately if the tree network does.", "quantifier": "all potentials, lengths, batch sizes, numbers of samples, rewards, baselines, potentials to differentiate; all sources of randomness that draw from the softmax at each step", "why_tests_cant": "Unbiasedness is about the expected value over all possible samples; a test sees a few draws and a tolerance.", "anchors": ["examples/rl.py:SelfCritical.forward", "examples/tree.py:expand_spans", "examples/tree.py:tree_reward", "examples/tree.py:run_train", "torch_struct/distributions.py:StructDistribution.sample", "torch_struct/distributions.py:StructDistribution.log_prob"]}
{"id": "C100", "title": "The dynamic programs agree with brute-force enumeration at every size", "statement": "The comparisons that the test suite makes on small random inputs hold for inputs of every size: for linear chains, semi-Markov models, projective dependency trees (both root modes), labelled binary trees and grammars with at least two words, the enumeration functions of the test suite list every structure exactly once with its score, and the value they return equals the library's: in every commutative semiring; in LogSemiring up to the leak of the stand-in zero=-1e5 (exactly for dependency trees and labelled trees); in MaxSemiring, if potentials are small against 1e5. The hidden semi-Markov enumeration equals the enumeration over the edges of SemiMarkov.hsmm. With non_proj=True the enumeration gives deptree_part with eps=0, and at most N log(1 + 1e-5 exp B) less than deptree_part with its eps. With all potentials 1 a chain sums to C^(N+1). For one-word grammars the two do not agree.", "quantifier": "all potentials, batch sizes, lengths of the sentence, numbers of classes, labels and symbols, segment lengths; all commutative semirings", "why_tests_cant": "The tests draw sizes up to about 4 because enumeration is exponential; agreement at every size and for every potential is not reachable by enumeration.", "anchors": ["tests/extensions.py:LinearChainTest.enumerate", "tests/extensions.py:SemiMarkovTest.enumerate", "tests/extensions.py:SemiMarkovTest.enumerate_hsmm", "tests/extensions.py:DepTreeTest.enumerate", "tests/extensions.py:CKY_CRFTest.enumerate", "tests/extensions.py:CKYTest.enumerate", "tests/test_algorithms.py:test_log_shapes", "tests/test_algorithms.py:test_generic_a", "torch_struct/helpers.py:_Struct.sum"]}
{"id": "C101", "title": "The enumerated events of a batch of chains are exactly the events of every row's length", "statement": "For every potential table and lengths of at least 2 (the maximum N): the enumeration for linear chains passes its own assertion in LogSemiring and MaxSemiring, and returns the values of the full-length chains, the number C^length of sequences of every row, and for every row the events of the sequences of that row's length, each sequence exactly once, padded with zeros. In StdSemiring with at least two classes the assertion fails unless all values are tiny.", "quantifier": "all potentials, batch sizes, numbers of classes, lengths", "why_tests_cant": "The tests that rely on these events (log_prob, sampling, entropy by enumeration) see a few sizes.", "anchors": ["tests/extensions.py:LinearChainTest.enumerate", "tests/test_distributions.py:enumerate_support", "torch_struct/linearchain.py:LinearChain.to_parts"]}
{"id": "C102", "title": "Forbidden transitions of a linear chain are never used", "statement": "If some transitions of a LinearChainCRF are forbidden by potentials at or below -1e5 (for instance -1e9), the other potentials are bounded by B with 2(N-1)B < 1e5, and every row has a sequence of allowed transitions, then: max is the score of the best allowed sequence and argmax its 0/1 edge indicator, for every tie-breaking rule; kmax(k) and topk(k) return the k best allowed sequences if there are k of them; partition is the log of the total weight of the allowed sequences and marginals are the edge probabilities given that all transitions are allowed, both up to an explicit error of the order of C^N 2^N exp(2(N-1)B - 1e5). The room between scores and -1e5 is needed: without it max can return -1e5 although the only allowed sequence scores less.", "quantifier": "all potentials, masks, batch sizes, lengths, numbers of classes, k, tie-breaking rules", "why_tests_cant": "Masks are arbitrary sets of transitions; that no path through a masked cell or through the code's own stand-in for log 0 can ever win is a statement about all of them.", "anchors": ["torch_struct/linearchain.py:LinearChain.logpartition", "torch_struct/distributions.py:StructDistribution.argmax", "torch_struct/distributions.py:StructDistribution.kmax", "torch_struct/distributions.py:StructDistribution.topk", "torch_struct/distributions.py:StructDistribution.partition", "torch_struct/distributions.py:StructDistribution.marginals", "torch_struct/semirings/semirings.py:NEGINF"]}
{"id": "C103", "title": "Greedy and beam search are exact for models that look at the position only, and agree with the linear chain", "statement": "If continuing two prefixes by the same class never changes their order (in particular if the scores depend on the position only), Autoregressive.greedy_max returns a sequence with the largest log_prob, and beam_topk(K) the K best ones, for every K up to the number of sequences. For a model that looks up a table of scores by position, log_prob of the greedy path is LinearChainCRF.max of the corresponding chain potentials, the values of the beams are LinearChainCRF.kmax(K), and if no two sequences tie, the paths are LinearChainCRF.argmax.sum(-1) and topk(K).sum(-1).", "quantifier": "every batch size, length, number of classes, table of scores (2 N max|score| < 1e5), K and tie-breaking rule", "why_tests_cant": "test_autoregressive checks one shape (3 x 5 x 2), K = 5 and random tables; a beam that drops a prefix too early, or a path read back from the wrong slot, shows only for other K or scores.", "anchors": ["torch_struct/autoregressive.py: Autoregressive.greedy_max, beam_topk, log_prob", "torch_struct/distributions.py: LinearChainCRF, argmax, kmax, topk", "tests/test_distributions.py: test_autoregressive"]}
{"id": "C104", "title": "Forbidden segments, spans, arcs and rules are never used", "statement": "Parts of a structure can be forbidden by giving them potentials of -1e5 or less, as the documentation does for short segments (log_potentials[:, :, :3] = -1e9): then max, argmax, kmax and topk of SemiMarkovCRF, TreeCRF and DependencyCRF (max, argmax and kmax of SentCFG) are exactly those of the structures without forbidden parts, and partition and marginals are those of the distribution restricted to these structures up to an explicit error below (number of structures and scan paths) * exp(2nB - 1e5).", "quantifier": "all batches, lengths, sizes, masks and potentials with the allowed ones bounded by B, 2nB < 1e5 for the number n of parts, at least one (k for kmax/topk) allowed structure per row, and all tie breaking rules", "why_tests_cant": "A test checks a few masks on small inputs; that no forbidden part is ever used, for every mask, size and value of the forbidden potentials, although the library's own stand-in for minus infinity is -1e5 too, needs a proof.", "anchors": ["torch_struct/semimarkov.py: SemiMarkov._dp", "torch_struct/cky_crf.py: CKY_CRF._dp", "torch_struct/deptree.py: DepTree._dp", "torch_struct/cky.py: CKY._dp", "docs/source/model.ipynb"]}
{"id": "C105", "title": "The tagger of the notebook is a chain with emission and transition scores; its evaluation skips the first tag", "statement": "The potentials built by the part-of-speech tagger give every tag sequence the sum of the scores of its tags at all words (the first one included) and of its transitions. The tags evaluated by validate have the largest such sum in every row; what validate adds up is the number of wrong tags at all positions but the first and the number of these positions (the gold tag of the first word has no influence). The number that train maximises is the log-likelihood of the gold tags up to the error of the stand-in, and batches with too long rows are skipped.", "quantifier": "every batch size, number of words and tags, lengths (at least 2, the longest row fills the table), scores bounded by B with 3B < 1e5, gold tags, tie-breaking rule", "why_tests_cant": "The notebook is not run by the tests; whether the emission of the first word is added on the right axis, and what the sum of absolute differences counts, is not visible from one run.", "anchors": ["notebooks/BertTagger.ipynb: Model.forward, validate, train", "torch_struct/linearchain.py: LinearChain.to_parts", "torch_struct/distributions.py: LinearChainCRF, argmax, log_prob"]}
{"id": "C106", "title": "The tree network of the examples computes a binary tree-LSTM of every tree of a batch, rows separately", "statement": "For every batch of binary trees (of any shapes, over the first words of their sentences, the other words being further leaves) and every order of the cells of equal width, spans_to_dgl followed by TreeLSTM returns for every row the class log-probabilities of a binary tree-LSTM of that row's tree, defined by recursion on the tree: the other rows of the batch, the lengths and the words beyond the tree have no influence. Because run propagates twice, the cell states of the leaves count twice, and this changes the result. With this network tree_reward scores rows separately, so that the policy gradient of examples/tree.py is an unbiased estimate of the gradient of the expected loss of the tree-LSTM.", "quantifier": "every batch size, number of words, trees, words, labels, weights, sizes of states and vocabulary, order of cells of equal width, number of samples, potential", "why_tests_cant": "The graph merges all rows and is filled by index arithmetic; the order of the frontiers, the double propagation and the lookup of the root by the widest span starting at word 0 depend on the shapes of all trees of the batch.", "anchors": ["examples/networks/TreeLSTM.py: TreeLSTMCell, run, TreeLSTM.forward, TreeLSTM.spans_to_dgl", "torch_struct/cky.py: CKY.to_networkx", "examples/tree.py: expand_spans, tree_reward", "examples/rl.py: SelfCritical.forward"]}
{"id": "C107", "title": "Reading sentences from right to left does not change the queries of TreeCRF, DependencyCRF and SentCFG", "statement": "If every sentence of a batch is reversed within its own length - spans (i, j) become (L-1-j, L-1-i), arcs are renumbered with the root scores left on the diagonal, the children of all rules of a grammar are exchanged and the words renumbered - then partition, max, kmax, entropy and count are unchanged, and the marginals are those of the mirrored spans, arcs (labelled or not), words, rules and constituents. This is exact, also for the stand-in for minus infinity in SentCFG, although the charts are filled from left to right with different cells for left and right.", "quantifier": "every table, batch size, number of words, labels and symbols, lengths, single or multiple roots, labelled or unlabelled arcs; every commutative semiring", "why_tests_cant": "The algorithms treat left and right differently (left and right charts, complete and incomplete items, the root at position 0, padding on the right); a slip on one side only shows for some shapes and lengths.", "anchors": ["torch_struct/cky_crf.py: CKY_CRF.logpartition", "torch_struct/deptree.py: DepTree.logpartition, convert", "torch_struct/cky.py: CKY.logpartition, CKY.marginals", "torch_struct/distributions.py: TreeCRF, DependencyCRF, SentCFG"]}
{"id": "C108", "title": "Labels of spans and arcs are independent given the tree, each with a softmax distribution", "statement": "For TreeCRF, partition, max and entropy of a labelled table are related to those of the table with one label: partition equals that over potentials.logsumexp(-1), max that over potentials.max(-1), in any semiring the labels can be summed first. The marginal of a labelled span is the marginal of the span in the summed table times the softmax of the span's potentials over labels; the label of the whole sentence has the softmax of its own potentials, whatever the other entries are. The probability of a labelled tree is that of its brackets times the product of the softmax probabilities of its labels. entropy is the entropy of the brackets plus, for every span, its marginal times the entropy of its label. The same marginal and entropy rules hold for labelled DependencyCRF.", "quantifier": "all tables of potentials, numbers of labels and words, all lengths, single and multiple roots", "why_tests_cant": "an identity between different queries on different tables; tests compare single numbers on small random tables", "anchors": ["torch_struct/distributions.py:TreeCRF", "torch_struct/distributions.py:DependencyCRF", "torch_struct/cky_crf.py:CKY_CRF.logpartition", "torch_struct/deptree.py:DepTree.logpartition"]}
{"id": "C109", "title": "The span network of the examples scores every row by itself, gives the whole sentence the same scores always, and is not invariant under padding", "statement": "SpanLSTM.forward returns, for the span from word i to word j, scores made of the change of the forward state between word i and word j+1 and of the change of the backward state between word j and word i-1 (zero at the ends of the table); the lengths are ignored, the only change to the parameters is that the vector of word 1 is zero. Each row is scored from its own words only, so for sentences of the same length TreeCRF answers for a row of a batch what it answers for the sentence alone. Because both changes are zero for the span from the first to the last column, the label of the whole sentence has the same marginals for all sentences that fill their row. Padding matters: a sentence of one word gets different marginals alone and in a batch with a longer sentence.", "quantifier": "all parameters, sizes, batches of words and lengths; a network exhibited for the last statement", "why_tests_cant": "a statement about all parameters and all batches; the examples have no tests", "anchors": ["examples/networks/SpanLSTM.py:SpanLSTM.forward", "examples/networks/SpanLSTM.py:Res", "examples/tree.py:run_train", "torch_struct/distributions.py:TreeCRF"]}
{"id": "C110", "title": "valid_sup of the tree example is the accuracy on the sentences of the first 26 batches", "statement": "valid_sup returns the number of sentences of the first 26 batches whose label is the predicted class, divided by the number of these sentences; the predicted class is a most probable class of the tree network on a best tree of the span network for that sentence. The value lies between 0 and 1. Batches after the 26th are never looked at. Without batches there is an AttributeError.", "quantifier": "all parameters of both networks, all vocabularies, iterators of batches with at least one sentence, and all ways torch breaks ties or sorts", "why_tests_cant": "a statement about all networks, trees and batches; the examples have no tests", "anchors": ["examples/tree.py:valid_sup", "examples/tree.py:expand_spans", "examples/networks/TreeLSTM.py:TreeLSTM", "examples/networks/SpanLSTM.py:SpanLSTM"]}
{"id": "C111", "title": "Maximum likelihood: the log-probability of observed structures is largest exactly where the marginals are the means of the observations", "statement": "partition of any other potentials of the same shape is at least the tangent of partition at the given potentials, whose slopes are marginals. Hence, for any list of observed event tables of a row, the sum of log_prob over the list is as large as possible among all potentials of that shape if and only if every entry of marginals of the row equals the mean of the observations at that entry: a point where training stops is a global optimum, never a local one or a saddle.", "quantifier": "all potentials, lengths, rows, lists of observed tables (without entries past the end of the row) and all competing potentials, for LinearChainCRF, SemiMarkovCRF, TreeCRF, and DependencyCRF with and without labels", "why_tests_cant": "the claim compares with all potentials of a shape at once", "anchors": ["torch_struct/distributions.py:StructDistribution.log_prob", "torch_struct/distributions.py:StructDistribution.marginals", "torch_struct/distributions.py:StructDistribution.partition"]}
{"id": "C112", "title": "A gradient step with a small learning rate never lowers the likelihood", "statement": "If no potential moves by more than c, partition lies at most (K c)^2 / 2 above its tangent, whose slopes are marginals, where K is the number of potentials one structure can use (edges of the row for LinearChainCRF, positions for SemiMarkovCRF, 2N-1 for TreeCRF, N for DependencyCRF). Hence one step of size eta along the gradient of the mean log_prob of observed events (value minus marginals) raises that mean by at least eta (1 - K^2 eta / 2) times the squared length of the gradient: for eta below 2 / K^2 training never goes down, and strictly up away from the optimum, however large the potentials and the number of labels are.", "quantifier": "all potentials, lengths, rows, non-empty lists of observed tables (without entries past the end of the row) and learning rates, for LinearChainCRF, SemiMarkovCRF, TreeCRF, and DependencyCRF with and without labels", "why_tests_cant": "a bound for all potentials, events and step sizes", "anchors": ["torch_struct/distributions.py:StructDistribution.log_prob", "torch_struct/distributions.py:StructDistribution.marginals", "torch_struct/distributions.py:StructDistribution.partition"]}
{"id": "C113", "title": "TreeCRF.marginals with -inf potentials: conditional probabilities, and exactly where NaN", "statement": "Forbid labelled spans of a TreeCRF by potentials -inf. partition stays right (C91). marginals is NaN at an entry exactly if all labels of that entry are -inf (also below the diagonal, where no span is stored), or if some larger span of words of the table, padding included, has no tree without forbidden spans. In particular -inf in the padding makes all marginals of a shorter sentence NaN although its partition is unchanged. Every other entry is the probability of the labelled span given that nothing forbidden is used, and 0 for spans that reach into the padding. If every entry keeps one finite label there is no NaN at all, and for finite potentials the backward pass agrees with the derivative of partition. If the gradient of logsumexp is guarded against a result of -inf, all entries are the conditional probabilities.", "quantifier": "all tables, lengths, rows, sets of forbidden labelled spans and entries (below the diagonal too)", "why_tests_cant": "the NaN pattern depends on which larger spans can be bracketed; no finite set of masks shows it", "anchors": ["torch_struct/cky_crf.py:CKY_CRF.logpartition", "torch_struct/helpers.py:_Struct.marginals", "torch_struct/distributions.py:StructDistribution.marginals", "torch_struct/semirings/semirings.py:LogSemiring.sum"]}
{"id": "C114", "title": "kl, cross_entropy and entropy from partition and marginals; their gradients", "statement": "entropy = partition - sum of marginals * log_potentials (TreeCRF, DependencyCRF with and without labels). For TreeCRF and LinearChainCRF p.kl(q) = q.partition - p.partition - sum of p.marginals * (q.log_potentials - p.log_potentials), exactly (for the chain although both compute with -1e5 for log 0), and for TreeCRF p.cross_entropy(q) = q.partition - sum of p.marginals * q.log_potentials. The gradient of p.kl(q) and of p.cross_entropy(q) with respect to q.log_potentials is q.marginals - p.marginals (0 past the length of a chain row). p.kl(q) + q.kl(p) = sum of (q.marginals - p.marginals) * (q.log_potentials - p.log_potentials). Potentials that differ by at most c have kl at most (Kc)^2/2, with K = 2N-1 for the tree table of N words and K the number of edges of the chain row.", "quantifier": "all potentials of both distributions, lengths, batch rows, entries and (for the bound) all c", "why_tests_cant": "identities between several dynamic programs and derivatives over all real potentials", "anchors": ["torch_struct/distributions.py:StructDistribution.kl", "torch_struct/distributions.py:StructDistribution.cross_entropy", "torch_struct/distributions.py:StructDistribution.entropy", "torch_struct/distributions.py:StructDistribution.marginals", "torch_struct/semirings/semirings.py:KLDivergenceSemiring"]}
{"id": "C115", "title": "LinearChainCRF.marginals with forbidden transitions at -inf never gives NaN", "statement": "For LinearChainCRF with any set of transitions at potential -inf: partition is a finite number, and marginals has only numbers in [0,1], never NaN (compare C113 for TreeCRF), with exactly 0 at every forbidden transition of the sentence. If the row has a sequence without forbidden transitions, every marginal is the conditional probability of the transition given that nothing forbidden is used, up to the excess of partition over the log of the total weight of the allowed sequences, and that excess is below an explicit bound with factor exp(-1e5); it vanishes as the stand-in for log 0 goes to minus infinity.", "quantifier": "all potentials, sets of -inf entries, lengths, batch rows, positions and tags; both forms of the backward formula of logsumexp", "why_tests_cant": "NaN in a backward pass depends on the pattern of -inf in all charts; all patterns must be excluded", "anchors": ["torch_struct/linearchain.py:LinearChain.logpartition", "torch_struct/helpers.py:_Struct.marginals", "torch_struct/semirings/semirings.py:LogSemiring", "torch_struct/distributions.py:StructDistribution.marginals"]}
{"id": "C116", "title": "SemiMarkovCRF.marginals with forbidden segments at -inf never gives NaN", "statement": "For SemiMarkovCRF with any set of segments (start, length, class, next class) at potential -inf: partition is a finite number, and marginals has only numbers in [0,1], never NaN, with exactly 0 at every forbidden segment that starts inside the row. If the row has a segmentation without forbidden segments, every marginal is the conditional probability of the segment given that nothing forbidden is used, up to the excess of partition over the log of the total weight of the allowed segmentations, and that excess is below an explicit bound with factor exp(-1e5); it vanishes as the stand-in for log 0 goes to minus infinity.", "quantifier": "all potentials, sets of -inf entries, lengths, batch rows, positions, segment lengths and classes; both forms of the backward formula of logsumexp", "why_tests_cant": "NaN in a backward pass depends on the pattern of -inf in all charts; all patterns must be excluded", "anchors": ["torch_struct/semimarkov.py:SemiMarkov.logpartition", "torch_struct/helpers.py:_Struct.marginals", "torch_struct/semirings/semirings.py:LogSemiring", "torch_struct/distributions.py:StructDistribution.marginals"]}
{"id": "C117", "title": "Where DependencyCRF.marginals gives NaN when forbidden arcs have potential -inf", "statement": "For DependencyCRF (unlabelled arcs, several roots allowed) with any set of arcs at potential -inf: the marginal of an arc is NaN exactly if the arc lies in a range of nodes for which no projective half tree without forbidden arcs exists, or no division into two half trees (Blocked); at all other entries it is the conditional probability of the arc given that no forbidden arc is used. So a forbidden arc between neighbouring nodes always has a NaN marginal, there is no NaN if the arcs between neighbouring nodes (from the root to the first word, and between neighbouring words in both directions) are allowed, and all entries of a sentence without an allowed tree are NaN. With a logsumexp gradient that is guarded against -inf, all marginals are the conditional probabilities.", "quantifier": "all arc potentials, sets of -inf arcs, lengths, batch rows and pairs of words; both forms of the backward formula of logsumexp", "why_tests_cant": "NaN in a backward pass depends on the pattern of -inf in all charts; every pattern has to be classified", "anchors": ["torch_struct/deptree.py:DepTree.logpartition", "torch_struct/deptree.py:_convert", "torch_struct/helpers.py:_Struct.marginals", "torch_struct/semirings/semirings.py:LogSemiring", "torch_struct/distributions.py:DependencyCRF"]}
{"id": "C118", "title": "Where SentCFG.marginals gives NaN when forbidden preterminals, rules and roots have potential -inf", "statement": "For SentCFG with any set of preterminals, rules and roots at potential -inf: every marginal is NaN or the conditional expectation of the number of uses given that nothing forbidden is used (up to the error of the stand-in -1e5). No marginal of a row is NaN if and only if every nonterminal has an allowed rule of each of the four kinds (nonterminal or preterminal on either side), with allowed preterminals at every place of the table including the padding, and some root is allowed. If a single nonterminal has no allowed rule with two nonterminals as children, or none with one nonterminal on the left, or none with one on the right, and the table has at least three words, all marginals of rules and preterminals of the row are NaN, whatever derivations are allowed; without a rule with two preterminals all marginals of preterminals are NaN. With a logsumexp gradient that is guarded against -inf, all marginals are the conditional expectations.", "quantifier": "all potentials, sets of -inf entries, lengths of at least two words, batch rows and entries of the result; both forms of the backward formula of logsumexp", "why_tests_cant": "NaN in a backward pass depends on the pattern of -inf in all charts; every pattern and every grammar size has to be classified", "anchors": ["torch_struct/cky.py:CKY.logpartition", "torch_struct/cky.py:CKY.marginals", "torch_struct/semirings/semirings.py:LogSemiring", "torch_struct/distributions.py:SentCFG"]}
{"id": "C119", "title": "argmax and max are exact when forbidden parts have potential -inf", "statement": "Give forbidden spans, arcs, labelled arcs, transitions, segments, or grammar entries potential -inf. Then argmax never contains NaN. For TreeCRF and DependencyCRF (labelled or not, one root or several) and any set of forbidden parts: if a structure without forbidden parts exists, argmax is the 0/1 indicator of the best such structure and max is its score; if none exists, max is -inf and argmax is still the indicator of one whole structure. For LinearChainCRF, SemiMarkovCRF and SentCFG the same holds whenever a structure without forbidden parts exists and the other potentials are small against the stand-in -1e5. All of this holds for every tie-breaking rule of torch.max.", "quantifier": "all potentials, sets of -inf entries, lengths, batch rows, tie-breaking rules and entries of the result", "why_tests_cant": "ties between -inf entries occur all over the chart; the claim is about every pattern of -inf, every size and every way of breaking ties", "anchors": ["torch_struct/distributions.py:StructDistribution.argmax", "torch_struct/distributions.py:StructDistribution.max", "torch_struct/semirings/semirings.py:MaxSemiring", "torch_struct/helpers.py:_Struct.marginals", "torch_struct/cky.py:CKY.marginals", "torch_struct/linearchain.py:LinearChain.logpartition"]}
{"id": "C120", "title": "entropy, kl and cross_entropy are NaN under hard constraints written as -inf", "statement": "Give forbidden parts potential -inf. entropy of TreeCRF, DependencyCRF (labelled or not, one root or several), SemiMarkovCRF and SentCFG is NaN for every row where one structure uses a forbidden part and another avoids them all, although the distribution over the allowed structures has a finite entropy; LinearChainCRF.entropy is NaN for every row with a forbidden transition in its length. kl of two TreeCRFs or LinearChainCRFs is NaN for such rows of the first model, whatever the second; cross_entropy is NaN when a usable part is forbidden in both models, so for a shared constraint, and even of a model with itself. Rows with no forbidden part in their length are not affected: their value is exactly that of the call without constraints, whatever happens in the other rows and in the padding.", "quantifier": "all potentials, sets of -inf entries, lengths and batch rows, of every size", "why_tests_cant": "0 * -inf arises in one cell of the chart for a pattern of -inf entries and spreads through a number of operations that grows with the size", "anchors": ["torch_struct/semirings/semirings.py:EntropySemiring", "torch_struct/semirings/semirings.py:KLDivergenceSemiring", "torch_struct/semirings/semirings.py:CrossEntropySemiring", "torch_struct/distributions.py:StructDistribution.entropy", "torch_struct/distributions.py:StructDistribution.kl", "torch_struct/distributions.py:StructDistribution.cross_entropy"]}
{"id": "C121", "title": "sample under hard constraints written as -inf: when it raises and what it draws", "statement": "Give forbidden parts potential -inf. TreeCRF.sample raises RuntimeError if all labels of one cell (i, j) of any row are forbidden, even if the cell is below the diagonal or past the row's length, where no tree can use it; otherwise the trees that can be drawn are exactly those without forbidden parts. DependencyCRF.sample without labels raises if the arc between two neighbouring words, in either direction, or the root arc of the first word is forbidden in some row, although other trees may be allowed (max and argmax return them); with labels it raises if all labels of some arc or root arc within the length are forbidden; otherwise the draws are exactly the allowed trees. LinearChainCRF.sample and SemiMarkovCRF.sample never raise and never draw a forbidden part; if everything is forbidden they still return an event, with no part at all.", "quantifier": "all potentials, sets of -inf entries, lengths and batch rows, of every size", "why_tests_cant": "whether torch.multinomial sees a NaN depends on one cell of a chart for a pattern of -inf entries; a test sees a few draws of a few patterns", "anchors": ["torch_struct/semirings/sample.py:_SampledLogSumExp", "torch_struct/semirings/sample.py:_MultiSampledLogSumExp", "torch_struct/distributions.py:StructDistribution.sample", "torch_struct/cky_crf.py:CKY_CRF.logpartition", "torch_struct/deptree.py:DepTree.logpartition"]}
{"id": "C122", "title": "kmax and topk under hard constraints written as -inf", "statement": "Give forbidden parts potential -inf and let the other potentials be small against the stand-in -1e5. The first slots of kmax(k) hold, from best to worst, the scores of the best structures without forbidden parts, k of them or as many as there are, and the same slots of topk(k) hold their 0/1 indicators, for every way torch.topk may break ties. If fewer than k structures are allowed, the slots left over hold numbers near -1e5 or below: no slot is NaN and no slot holds the score of a structure with a forbidden part. For SentCFG the spans are given for each slot, and the terms, rules and roots add the k slots, so they are those of the k best derivations only if k are allowed.", "quantifier": "all potentials within the bound, sets of -inf entries, k, lengths, batch rows and tie-breaking rules, for TreeCRF, DependencyCRF with and without labels and with one or many roots, SemiMarkovCRF, SentCFG and LinearChainCRF", "why_tests_cant": "with an -inf leaf the slots [-inf, -1e5, ...] are out of order and -inf mixes with the stand-in in every product; a test sees a few patterns and a few k", "anchors": ["torch_struct/semirings/semirings.py:KMaxSemiring", "torch_struct/distributions.py:StructDistribution.kmax", "torch_struct/distributions.py:StructDistribution.topk", "torch_struct/cky.py:CKY.marginals", "torch_struct/deptree.py:DepTree._check_potentials"]}
{"id": "C123", "title": "NonProjectiveDependencyCRF under hard constraints written as -inf", "statement": "Give forbidden arcs score -inf. marginals raises exactly if in some row every root arc is forbidden, and partition of such a row is -inf. In all other cases both queries give numbers, even if no tree is left: forbidden root arcs are excluded, but forbidden arcs between words count with weight 1e-5 in partition. The exponential of partition is at least the sum over the trees without forbidden arcs and at most an explicit gap more, and the trees with forbidden arcs do contribute. The marginals of forbidden arcs are exactly 0, and every entry differs from the probability of the arc given that no forbidden arc is used by at most the gap divided by that sum. On finite scores nothing changes.", "quantifier": "all tables of scores, finite or -inf, with at least one word, batch sizes and both root modes", "why_tests_cant": "which patterns of -inf leave a singular matrix depends on all root scores; a test sees a few patterns and cannot tell a small leak from rounding", "anchors": ["torch_struct/deptree.py:deptree_part", "torch_struct/deptree.py:deptree_nonproj", "torch_struct/distributions.py:NonProjectiveDependencyCRF"]}
{"id": "C124", "title": "DependencyCRF.marginals with labels under hard constraints written as -inf", "statement": "Give forbidden labelled arcs potential -inf in a DependencyCRF with labels and several roots. marginals raises nothing. The marginals of an arc's labels are NaN exactly if all labels of the arc are forbidden, or the arc lies in a range of nodes that has no half tree, or no division into half trees, of arcs with an allowed label. Every other marginal is the probability of the labelled arc given that no forbidden one is used. So forbidding some but not all labels of arcs never gives NaN and the forbidden labels get 0; forbidding all labels of any arc of the sentence gives NaN where the probability is 0, even for arcs for which the unlabelled version gives 0; if no labelled tree is left, the whole sentence is NaN. If the gradient of logsumexp were guarded, every marginal would be the conditional probability. On finite potentials nothing changes.", "quantifier": "all tables of potentials with labels, finite or -inf, batch sizes, lengths", "why_tests_cant": "which entries are NaN depends on the whole pattern of forbidden labels through every span of the chart and its gradient; tests use finite potentials", "anchors": ["torch_struct/deptree.py:DepTree", "torch_struct/helpers.py:_Struct.marginals", "torch_struct/distributions.py:DependencyCRF"]}
{"id": "C125", "title": "DependencyCRF.marginals with a single root under hard constraints written as -inf", "statement": "Give forbidden arcs potential -inf in a DependencyCRF with multiroot=False, with or without labels. marginals raises nothing. The marginal of an arc is NaN exactly if the arc lies in a range of words that has no half tree, or no division into half trees, of allowed arcs, or among the first j words of the table for a j for which these words have no single-root tree of allowed arcs (with labels: allowed means that some label is allowed, and the marginals of an arc all labels of which are forbidden are NaN as well). Every other marginal is the probability of the arc given that no forbidden one is used. So if the arc from the root to the first word and all arcs between neighbouring words are allowed, there is no NaN (with labels: none at arcs with an allowed label); a forbidden arc between neighbouring words, or from the root to the first word, has marginal NaN where the probability is 0; if no tree is left, the whole sentence is NaN. If the gradient of logsumexp were guarded, every marginal would be the conditional probability. On finite potentials nothing changes.", "quantifier": "all tables of potentials with and without labels, finite or -inf, batch sizes, lengths of at least one word", "why_tests_cant": "which entries are NaN depends on the whole pattern of forbidden arcs through every span of the chart, the loop below the root and their gradients; tests use finite potentials", "anchors": ["torch_struct/deptree.py:DepTree", "torch_struct/helpers.py:_Struct.marginals", "torch_struct/distributions.py:DependencyCRF"]}
{"id": "C126", "title": "HMM with zero probabilities: inference, Viterbi and sampling are right, entropy is NaN", "statement": "Give an HMM probability tables with zeros, i.e. log-probabilities -inf (left-to-right models, tag dictionaries, impossible emissions). For every row with at least two observations: partition is a finite number, even where the observations have probability 0, and marginals is never NaN, lies in [0, 1] and is 0 at every pair of consecutive states with a zero factor. If the observations have positive probability, partition is their log-probability and marginals the posterior of pairs of consecutive states, up to an explicit error caused by the stand-in -1e5 for log 0. argmax is then a state sequence of positive and maximal probability and max its log-probability, for every tie-breaking of torch.max, if 8 (N-1) B < 1e5 where exp(-B) is the smallest positive entry. sample raises nothing and never draws an impossible pair. entropy is NaN for every row with an impossible pair of states.", "quantifier": "all probability tables with zeros, vocabularies, numbers of states, batches of observations, lengths, tie-breakings of torch.max, both backward formulas of logsumexp", "why_tests_cant": "which entries are 0 interacts with every merge of the scan, forwards and backwards; tests use log_softmax tables, which have no zeros", "anchors": ["torch_struct/linearchain.py:LinearChain.hmm", "torch_struct/distributions.py:HMM", "torch_struct/helpers.py:_Struct.marginals"]}
{"id": "C127", "title": "Hidden semi-Markov models with zero probabilities: inference, Viterbi and sampling are right, entropy is NaN", "statement": "Build the potentials of a SemiMarkovCRF with SemiMarkov.hsmm from probability tables with zeros, i.e. log-probabilities -inf (for instance no transition from a class to itself, impossible durations). For every row with at least one observation: partition is a finite number, even where the observations have probability 0, and marginals is never NaN, lies in [0, 1] and is 0 at every segment with a zero factor. If the observations have positive probability, partition is their log-probability and marginals the posterior of the segments, up to an explicit error caused by the stand-in -1e5 for log 0. argmax is then a segmentation of positive and maximal probability and max its log-probability, for every tie-breaking of torch.max, if 8 N B < 1e5 where exp(-B) is the smallest positive entry. sample raises nothing and never draws an impossible segment. entropy is NaN for every row that has a segmentation of probability 0 and one of positive probability.", "quantifier": "all probability tables with zeros, numbers of classes, durations, batches of emissions, lengths, tie-breakings of torch.max, both backward formulas of logsumexp", "why_tests_cant": "which entries are 0 interacts with every merge of the scan, forwards and backwards; tests use log_softmax tables, which have no zeros", "anchors": ["torch_struct/semimarkov.py:SemiMarkov.hsmm", "torch_struct/distributions.py:SemiMarkovCRF", "torch_struct/helpers.py:_Struct.marginals"]}
{"id": "C128", "title": "gumbel_crf under hard constraints written as -inf never raises and keeps to the constraints", "statement": "Give forbidden parts potential -inf. gumbel_crf(temperature) with a positive temperature never raises, whatever the noise, also where sample raises (C121). TreeCRF and DependencyCRF (with and without labels, one or several roots): in every row the result is the event of a tree, and if some tree has no forbidden part then the returned tree has none. LinearChainCRF and SemiMarkovCRF: the result never uses a forbidden part of the row, even if every structure is forbidden.", "quantifier": "all potentials, sets of -inf entries, lengths and batch rows, of every size, all temperatures > 0, noise values and tie-breakings of max", "why_tests_cant": "quantifies over the noise and the pattern of -inf entries; no test of the repository calls gumbel_crf with -inf", "anchors": ["torch_struct/distributions.py:StructDistribution.gumbel_crf", "torch_struct/semirings/sample.py:GumbelCRFSemiring"]}
{"id": "C129", "title": "SentCFG over a probabilistic grammar with zero probabilities: sentence likelihood and best derivation are right, marginals are NaN unless every nonterminal has every kind of rule", "statement": "Give SentCFG the log-probabilities of a probabilistic grammar some of whose probabilities are 0, so that tables contain -inf. For every sentence that the grammar can generate, partition is the logarithm of its probability up to the error of the stand-in -1e5, max is the logarithm of the probability of the most probable derivation and argmax that derivation; for a sentence that the grammar cannot generate partition is -inf or about -1e5. Every marginal is NaN or the expected number of uses given the sentence. No marginal of a row is NaN if and only if at every place of the table, padding included, every nonterminal has a rule of positive probability of every kind: with two nonterminals, with a nonterminal and a preterminal that can be the word there, and so on. If a single nonterminal has no rule with two nonterminals (or none with a nonterminal and a preterminal), as in a left-branching grammar, all marginals of rules and preterminals are NaN for every table of at least three words. entropy is NaN as soon as some derivation of the sentence has probability 0 and some other has not.", "quantifier": "all grammars with or without zeros, sentences of at least two words, lengths, paddings and batches", "why_tests_cant": "quantifies over all patterns of zeros in a grammar and all sentences; no test of the repository gives SentCFG a potential -inf", "anchors": ["torch_struct/distributions.py:SentCFG", "torch_struct/cky.py:CKY.logpartition", "torch_struct/semirings/semirings.py:LogSemiring", "examples/networks/NeuralCFG.py"]}
{"id": "C130", "title": "LinearChainCRF.cross_entropy and kl when the two models forbid different transitions: exactly when NaN, when +inf, and otherwise right", "statement": "Let transitions be forbidden by the potential -inf, not the same ones in the two models. For every row, cross_entropy is NaN if some transition of the row is forbidden in both models; if not, it is +inf if some transition is forbidden in the second model, even if no sequence that the first model allows takes it; and if the second model forbids none, it is a number, namely the cross entropy of the distribution over the sequences that the first model allows, up to the explicit error of the stand-in -1e5. kl is NaN if some transition of the row is forbidden in the first model; if not, it is +inf if some transition is forbidden in the second; and if neither forbids any, it is what it is without -inf. Transitions in the padding play no role.", "quantifier": "all pairs of potentials of the same shape, all sets of forbidden transitions in either model, all lengths and batches", "why_tests_cant": "quantifies over all pairs of sets of forbidden transitions; no test of the repository gives cross_entropy or kl a potential -inf", "anchors": ["torch_struct/distributions.py:StructDistribution.cross_entropy", "torch_struct/distributions.py:StructDistribution.kl", "torch_struct/semirings/semirings.py:CrossEntropySemiring", "torch_struct/semirings/semirings.py:KLDivergenceSemiring", "torch_struct/linearchain.py:LinearChain.logpartition"]}
{"id": "C131", "title": "Autoregressive with classes forbidden by logits -inf: no search result contains a forbidden class, and log_prob tells NaN, -inf and numbers apart", "statement": "Let the network forbid classes by the logit -inf, depending on what it has seen. As long as it always leaves a class, greedy_max, beam_topk and sample_without_replacement (whatever the noise) return only paths of classes that were allowed at their turn, even if the beam is wider than the number of allowed sequences; greedy_max takes an allowed class with the largest logit at every step; the values are numbers, namely the chain-rule score with the softmax over the allowed classes (plus -1e5 for slots that descend from the padding of the first beam), and do not increase. log_prob of any sequence is the chain-rule score if all its classes are allowed, -inf if one is forbidden, and NaN if normalize is on and the sequence passes a position at which all classes are forbidden; greedy_max then returns NaN too.", "quantifier": "all causal networks with logits that are real or -inf, all batches, lengths, beam sizes, noises, choices of max and topk among ties, and all sequences", "why_tests_cant": "quantifies over all networks and sets of forbidden classes; no test of the repository has a network that returns -inf", "anchors": ["torch_struct/autoregressive.py:Autoregressive.log_prob", "torch_struct/autoregressive.py:Autoregressive._beam_search", "torch_struct/autoregressive.py:Autoregressive.greedy_max", "torch_struct/autoregressive.py:Autoregressive.beam_topk", "torch_struct/autoregressive.py:Autoregressive.sample_without_replacement", "torch_struct/semirings/semirings.py:KMaxSemiring.sparse_sum", "torch_struct/semirings/semirings.py:MaxSemiring.sparse_sum"]}
{"id": "C132", "title": "Autoregressive.sample with classes forbidden by logits -inf: the chain-rule law over the allowed sequences", "statement": "Let the network forbid classes by the logit -inf, depending on what it has seen, and always leave one. Then sample((n,)) returns one-hot sequences that are independent across samples and batch rows; a sequence with a forbidden class has probability 0, and any other the product of the softmax probabilities among the allowed classes. No run in which Categorical returns only classes of positive probability gives a forbidden class. If the network forbids all classes at the first step of some row, sample raises.", "quantifier": "all causal networks with logits that are real or -inf, n, N, C, batches, and all sets of sequences", "why_tests_cant": "a law of a random output, for every network and set of forbidden classes; no test of the repository has a network that returns -inf", "anchors": ["torch_struct/autoregressive.py:Autoregressive.sample"]}
{"id": "C133", "title": "A beam as wide as the number of allowed prefixes is exact", "statement": "Let the network forbid classes by the logit -inf, depending on what it has seen, and always leave one. If K is at least the number of allowed sequences of length N-1, and equally long allowed sequences never differ by 1e5 or more in score, then the first path of beam_topk(K) is an allowed sequence with the largest log-probability of all, and its value is that log-probability; if there are at least K allowed sequences of length N, the K paths are the K best, all different, with their scores as values.", "quantifier": "all causal networks with logits that are real or -inf, K, N, C, batches, and all behaviours of topk on ties", "why_tests_cant": "optimality against exponentially many sequences, for every network and set of forbidden classes", "anchors": ["torch_struct/autoregressive.py:Autoregressive.beam_topk", "torch_struct/autoregressive.py:Autoregressive._beam_max", "torch_struct/autoregressive.py:Autoregressive._beam_search", "torch_struct/semirings/semirings.py:KMaxSemiring.sparse_sum"]}
{"id": "C134", "title": "The first result of greedy_tempmax sums to 1 over the classes but is not a path in general", "statement": "The first result of greedy_tempmax(alpha) is the gradient of the sum of the values over the batch with respect to the scores of the classes at each step, with the choice of the class held fixed but the soft tokens fed to the network dependent on the scores. At every step where this sum is differentiable in the scores, its entries over the classes sum to 1, for every network. At the last step, and at every step if alpha = 0, it is the one-hot vector of a class with the largest logit. For alpha = 1 it is not: there is a causal network with two steps and two classes whose entries at the first step are 2 and -1.", "quantifier": "all causal networks, noise, alpha, lengths, classes, batches, and all behaviours of argmax on ties", "why_tests_cant": "tests look at shapes; the statement ranges over every network, and the failure needs a network that reacts to soft tokens", "anchors": ["torch_struct/autoregressive.py:Autoregressive.greedy_tempmax", "torch_struct/autoregressive.py:Autoregressive._beam_max", "torch_struct/autoregressive.py:Autoregressive._beam_search", "torch_struct/semirings/semirings.py:TempMax"]}
{"id": "C135", "title": "A linear chain is a Markov chain: log_prob and entropy can be read off marginals", "statement": "For every row of a LinearChainCRF with at least two tags, log_prob of the event of a tag sequence is the sum of the logarithms of the marginals of its edges minus the sum of the logarithms of the marginals of its tags at the inner positions, up to an explicit error that comes from the stand-in -1e5 for log 0 (the read-off value is never below log_prob). So two models with the same marginals give every sequence the same log_prob. entropy is the sum of the entropies of the edges minus those of the tags at the inner positions, in the limit of the stand-in.", "quantifier": "all potentials, batches, lengths, numbers of tags, and all tag sequences", "why_tests_cant": "an identity between two queries over exponentially many sequences, for every table of potentials", "anchors": ["torch_struct/distributions.py:StructDistribution.log_prob", "torch_struct/distributions.py:StructDistribution.marginals", "torch_struct/distributions.py:StructDistribution.entropy", "torch_struct/linearchain.py:LinearChain.logpartition"]}
{"id": "C136", "title": "The marginals determine the distribution", "statement": "Two tables of potentials of the same shape whose marginals agree on a row give every structure of that row the same log_prob, exactly. For TreeCRF and for DependencyCRF, with and without labels, the converse holds as well: the marginals of a row agree if and only if log_prob agrees on every structure of the row. For LinearChainCRF and SemiMarkovCRF the statement includes the stand-in -1e5 for log 0 that the code uses.", "quantifier": "all pairs of tables of potentials of one shape, all lengths and rows, and all structures of a row", "why_tests_cant": "a uniqueness statement about all pairs of potentials and exponentially many structures", "anchors": ["torch_struct/distributions.py:StructDistribution.log_prob", "torch_struct/distributions.py:StructDistribution.marginals", "torch_struct/linearchain.py:LinearChain.logpartition", "torch_struct/semimarkov.py:SemiMarkov.logpartition", "torch_struct/cky_crf.py:CKY_CRF.logpartition", "torch_struct/deptree.py:DepTree.logpartition"]}
{"id": "C137", "title": "partition is the largest expected score plus entropy, and the model has the largest entropy with its marginals", "statement": "For every distribution over the structures of a row, the expected score plus the Shannon entropy is at most partition of the row, with equality for the distribution that log_prob gives and for no other. Among the distributions under which every part occurs with the probability that marginals reports, the one that log_prob gives has the largest entropy, it is the only one, and that entropy is what entropy returns. Both parts for TreeCRF and for DependencyCRF with and without labels. For LinearChainCRF and SemiMarkovCRF: partition is an upper bound, reached up to an explicit error that comes from the stand-in -1e5 for log 0.", "quantifier": "all potentials, lengths and rows, and all distributions over the structures of a row", "why_tests_cant": "ranges over all probability distributions on exponentially many structures", "anchors": ["torch_struct/distributions.py:StructDistribution.partition", "torch_struct/distributions.py:StructDistribution.entropy", "torch_struct/distributions.py:StructDistribution.marginals", "torch_struct/distributions.py:StructDistribution.log_prob"]}
{"id": "C138", "title": "validate_args=True accepts exactly the arguments with the right values", "statement": "A constructor called with validate_args=True raises ValueError when a potential is NaN or a length is negative, and otherwise builds the same distribution as without validation. A construction that raises has no other effect.", "quantifier": "all classes of distributions, all potentials (also -inf and NaN), all lengths, given or not", "why_tests_cant": "quantifies over all arguments of all classes; the tests never pass validate_args=True", "anchors": ["torch_struct/distributions.py:StructDistribution.__init__", "torch_struct/distributions.py:StructDistribution.arg_constraints", "torch_struct/distributions.py:AlignmentCRF.__init__", "torch_struct/distributions.py:SentCFG.__init__", "torch_struct/distributions.py:NonProjectiveDependencyCRF.arg_constraints"]}
{"id": "C139", "title": "split of the grammar notebook stores the end of the longest span with the same start, never a split point", "statement": "For every table of spans, split of notebooks/Unsupervised_CFG.ipynb has an entry for exactly the nonzero spans (i, j) of more than one word, and the entry is the end of the longest nonzero span that starts at i, hence at least j. So for the table of a tree the entry of an inner node is never the last word of its left child, which is what the name of the function promises.", "quantifier": "all batches of tables, and for trees all trees and all inner nodes", "why_tests_cant": "a statement about every inner node of every tree; the notebook is not tested", "anchors": ["notebooks/Unsupervised_CFG.ipynb:split"]}
{"id": "C140", "title": "Raising the potential of one part never lowers its marginal, and moves partition by between the old and the new marginal times the raise", "statement": "Raise one log-potential of a row by delta > 0 and leave the others. The entry of marginals for that part does not fall, and partition of the row rises by at least delta times the old and at most delta times the new marginal. This holds for TreeCRF, DependencyCRF with and without labels (multiroot on or off), LinearChainCRF, SemiMarkovCRF and the preterminal, rule and root scores of SentCFG (at least two words), with and without lengths; for the two chains the part is one inside the length of its row.", "quantifier": "all valid potentials and lengths, all rows and parts, all delta > 0", "why_tests_cant": "an inequality between two calls for every table, part and size of the change", "anchors": ["torch_struct/distributions.py:StructDistribution.marginals", "torch_struct/distributions.py:StructDistribution.partition"]}
{"id": "C141", "title": "Moving one log-potential multiplies the odds of its part by exp(delta), and partition moves by log(1 - m + m exp(delta))", "statement": "Move one log-potential of a row by any real delta and leave the others. If m is the entry of marginals for that part before, then after the change partition of the row has moved by exactly log(1 - m + m exp(delta)) and the entry of marginals is exactly m exp(delta) / (1 - m + m exp(delta)). So parts of marginal 0 or 1 keep it, every other marginal strictly follows its potential, and one call of marginals predicts the effect of every change of one potential. This holds for TreeCRF, DependencyCRF with and without labels (multiroot on or off), LinearChainCRF, SemiMarkovCRF and the preterminal and root scores of SentCFG (at least two words), with and without lengths; for the two chains the part is one inside the length of its row.", "quantifier": "all valid potentials and lengths, all rows and parts, all real delta", "why_tests_cant": "an exact equation between two calls for every table, part and change; a derivative test at one point sees only the first order", "anchors": ["torch_struct/distributions.py:StructDistribution.marginals", "torch_struct/distributions.py:StructDistribution.partition"]}
{"id": "C142", "title": "argmax is a subgradient of max, so parts of the best structure stay in it when their potential is raised", "statement": "For a row with max z and argmax table A, max of any other log-potentials of the same shape is at least z plus the sum over the entries of A times the change of the entry, whatever argmax does with ties. So max minus the score of a fixed structure (the loss of the structured perceptron) is a convex loss with subgradient argmax minus the structure. If one log-potential is raised by delta > 0, its entry of argmax does not fall, and max rises by at least delta times the old and at most delta times the new entry: a part of the returned structure stays in the returned structure. This holds for TreeCRF, DependencyCRF with and without labels (multiroot on or off), SemiMarkovCRF (parts inside the row) and LinearChainCRF (parts inside the row, potentials above -1e5). For SentCFG the statement about one raised score holds for every preterminal, rule and root score, where the entry is the number of uses in the returned derivation (sentences of at least two words; with one word argmax raises an error).", "quantifier": "all valid potentials and lengths, all rows, all other tables of the same shape, all ways to break ties", "why_tests_cant": "an inequality between two calls for every pair of tables", "anchors": ["torch_struct/distributions.py:StructDistribution.max", "torch_struct/distributions.py:StructDistribution.argmax"]}
{"id": "C143", "title": "A margin makes argmax stable: potentials that are off by at most delta give the same structure", "statement": "If one structure of a row scores more than 2 K delta above every other structure, where K is the largest number of potentials a structure of the row uses, then argmax returns exactly this structure, and so does argmax of every other table whose entries for the row differ by at most delta, even if the two calls break ties differently. K is the number of edges for LinearChainCRF, of steps for SemiMarkovCRF, of words for DependencyCRF (with and without labels, multiroot on or off), 2n-1 for TreeCRF and 2n for SentCFG with n words. Potentials must be above -1e5 for LinearChainCRF, and small against 1e5 for SemiMarkovCRF and SentCFG, as for argmax itself. The margin can be read off kmax(2), where kmax is exact: if its two results for the row differ by more than 2 K delta, argmax of the row is the same for all tables within delta.", "quantifier": "all valid potentials and lengths, all rows, all structures with a margin, all tables within delta, all ways to break ties", "why_tests_cant": "a statement about all tables in a neighbourhood of every table", "anchors": ["torch_struct/distributions.py:StructDistribution.argmax"]}
{"id": "C144", "title": "Span tables that are no binary trees are rejected, not decoded", "statement": "If a row of a span table has a nonzero entry for more than one word that is not the union of two neighbouring nonzero entries, then SentCFG's conversion of spans to splits raises AssertionError, and its to_parts raises AssertionError, or IndexError when some entry of the row has a symbol or length that is out of range. Neither returns a tree with a made-up or a missing rule.", "quantifier": "all span tables with any real entries, all sizes, all positions of the bad entry", "why_tests_cant": "the bad entry can be anywhere in a table of any size, next to any other entries", "anchors": ["torch_struct/cky.py:CKY.to_parts", "torch_struct/cky.py:CKY._intermediary"]}
{"id": "C145", "title": "Parts with large marginals fit together: thresholding marginals never yields incompatible parts", "statement": "If the marginals of some parts of a row miss one by less than one in total, then one structure of the row contains all of them. In particular any two parts with marginals above one half occur together in a structure, so a user who thresholds the marginals at one half never gets two crossing spans, two labels for a span or two heads for a word. For TreeCRF, DependencyCRF with and without labels and with multiroot on or off, and LinearChainCRF, where every marginal is first lowered by the error bound of C07.", "quantifier": "all valid potentials and lengths, all rows, all lists of parts", "why_tests_cant": "it quantifies over all real potentials and all sets of parts", "anchors": ["torch_struct/distributions.py:StructDistribution.marginals", "torch_struct/distributions.py:TreeCRF", "torch_struct/distributions.py:DependencyCRF"]}
