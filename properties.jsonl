{"id": "C01", "title": "KT predictions form a probability distribution", "statement": "After any sequence of successful updates, a KT estimator over a non-empty alphabet assigns every alphabet symbol a strictly positive probability, the probabilities over the alphabet sum to exactly 1, and neither predicting nor updating on an alphabet symbol raises.", "quantifier": "for every duplicate-free non-empty alphabet (default or positive initial counts), every finite sequence of alphabet symbols with non-negative weights", "why_tests_cant": "The sum must be 1 in every reachable state; there are infinitely many histories, weights and alphabets.", "anchors": ["model.py:KT.__init__", "model.py:KT.update", "model.py:KT.log_predict"]}
{"id": "C02", "title": "KT update reports the prediction it made and changes only the observed symbol", "statement": "update(symbol) returns exactly what log_predict(symbol) would have returned immediately before; afterwards only that symbol's count grew, by exactly weight, and the cached total still equals the sum of the counts. A symbol outside the alphabet raises KeyError and a rejected update leaves the estimator unchanged.", "quantifier": "for every reachable estimator state, symbol and weight", "why_tests_cant": "Coherence between the cached total and the counts is an inductive invariant over arbitrary histories.", "anchors": ["model.py:KT.update", "model.py:KT.log_predict"]}
{"id": "C03", "title": "KT closed form and order independence", "statement": "With the default prior the probability of the next symbol a is (n_a + 1/k)/(n + 1) where n_a is the total weight observed for a, n the total weight and k the alphabet size; the total log probability assigned to a unit-weight sequence is the same for every reordering of the sequence.", "quantifier": "for every alphabet, every sequence and every permutation of it", "why_tests_cant": "Quantifies over all sequences and all their permutations.", "anchors": ["model.py:KT"]}
{"id": "C04", "title": "KTBinary behaves exactly like KT((0,1))", "statement": "Fed the same symbols and weights, KTBinary and KT over the alphabet (0,1) return the same values from every update and log_predict.", "quantifier": "for every binary sequence and all weights", "why_tests_cant": "Behavioural equivalence of two implementations over unbounded input sequences.", "anchors": ["model.py:KTBinary", "model.py:KT"]}
{"id": "C05", "title": "SAD total predicted mass", "statement": "While fewer than n distinct symbols have been seen, SAD's probabilities for the seen symbols plus those for the n - #seen unseen ones sum to exactly 1. Once all n symbols have been seen the probabilities sum to S/(S+beta), strictly below 1. With n distinct symbols already seen, a new symbol raises instead of returning a value.", "quantifier": "for every n and every sequence of positive-weight updates over an alphabet of n symbols", "why_tests_cant": "The normalisation is a property of every reachable count table.", "anchors": ["model.py:SAD"]}
{"id": "C06", "title": "log-sum-exp helpers are exact and order independent", "statement": "logsumexp and logsumexp2 return log of the sum of the exponentials of their arguments (in exact arithmetic), never exponentiate a positive number, and do not depend on the order of the arguments; logsumexp with no arguments raises ValueError.", "quantifier": "for every non-empty list of reals", "why_tests_cant": "Universal statement about a real function.", "anchors": ["model.py:logsumexp", "model.py:logsumexp2", "helpers.py:log_sum_exp", "ctw.py:logsumexp"]}
{"id": "C07", "title": "Sequence helpers accumulate and give the history back", "statement": "update_seq returns the sum of the values the individual updates return when each symbol is presented with the history extended by the symbols before it, and leaves the caller's history list as it found it; the same for log_predict_seq. (The code violates the second half for an empty sequence: it empties the caller's history.)", "quantifier": "for every model, sequence and history", "why_tests_cant": "Must hold for every sequence length including the boundary case, and for every model plugged in.", "anchors": ["model.py:Model.update_seq", "model.py:Model.log_predict_seq"]}
{"id": "C08", "title": "Averager is the uniform Bayesian mixture", "statement": "The cumulative probability an Averager over n models assigns to any sequence equals the arithmetic mean of the probabilities its n component models assign to that sequence.", "quantifier": "for every non-empty list of component models, every sequence of updates", "why_tests_cant": "Induction over unbounded histories and arbitrary components.", "anchors": ["model.py:Averager.update", "model.py:Averager.__init__"]}
{"id": "C09", "title": "Averager predictions are coherent and normalised", "statement": "Averager.update returns what log_predict returned just before, and if every component's predictions sum to one then so do the Averager's.", "quantifier": "for every reachable Averager state over coherent, normalised components", "why_tests_cant": "Compositional property for arbitrary component models and histories.", "anchors": ["model.py:Averager.update", "model.py:Averager.log_predict"]}
{"id": "C10", "title": "Averager regret is at most log n", "statement": "On every sequence the Averager's cumulative log loss exceeds that of each of its n components by at most log n.", "quantifier": "for every component and every sequence", "why_tests_cant": "Worst-case guarantee over all sequences.", "anchors": ["model.py:Averager"]}
{"id": "C11", "title": "Averager.map returns a best component", "statement": "map() returns a component whose posterior log weight is maximal among all components, and among ties the one given first.", "quantifier": "for every reachable Averager state", "why_tests_cant": "Universal over histories; ties are a measure-zero case tests miss.", "anchors": ["model.py:Averager.map"]}
{"id": "C12", "title": "Factored routes by position and leaves other factors alone", "statement": "With a history of length t, Factored predicts and updates with factor t mod k only; every other factor's state is untouched, and an empty factor list raises ZeroDivisionError. (The code drops the caller's weight: the selected factor is always updated with weight 1.)", "quantifier": "for every list of factors, history, symbol and weight", "why_tests_cant": "Frame condition over all factors and positions.", "anchors": ["model.py:Factored.update", "model.py:Factored.log_predict"]}
{"id": "C13", "title": "CTW computes the context-tree mixture", "statement": "The cumulative probability reported by CTW after any sequence equals the recursively defined weighting: at a depth-D leaf the base model's probability of the symbols seen in that context, at an inner node one half the base model's probability plus one half the product over next context symbols.", "quantifier": "for every base model, every depth, every sequence of symbols with contexts of that depth", "why_tests_cant": "Refinement of an incremental algorithm to its recursive definition for all sequences.", "anchors": ["model.py:CTW.Node.update", "model.py:CTW.update"]}
{"id": "C14", "title": "CTW prediction equals what update then reports", "statement": "log_predict(s, h) returns exactly the value that update(s, h) returns if called next.", "quantifier": "for every reachable tree, symbol, history and weight", "why_tests_cant": "Two separate recursive code paths must agree on every tree.", "anchors": ["model.py:CTW.Node.log_predict", "model.py:CTW.Node.update"]}
{"id": "C15", "title": "CTW predictions are normalised", "statement": "If the base model's predictions sum to one, then for every history CTW's predicted probabilities over the alphabet sum to one.", "quantifier": "for every reachable tree and every history (depth at least 1)", "why_tests_cant": "Invariant over every tree reachable by arbitrary interleavings of predictions and updates.", "anchors": ["model.py:CTW.log_predict"]}
{"id": "C16", "title": "CTW regret against every tree source", "statement": "For every pruning of the depth-D context tree, the probability CTW assigns to a sequence is at least 2^-(cost of the pruning) times the product of the base-model probabilities at the pruning's leaves.", "quantifier": "for every sequence and every pruning of the context tree", "why_tests_cant": "Worst-case guarantee over all sequences and all exponentially many prunings.", "anchors": ["model.py:CTW"]}
{"id": "C17", "title": "Asking for a prediction changes no later answer", "statement": "Calling log_predict any number of times, with any symbols and histories, changes no value that any later update or log_predict returns. This holds for CTW, CTW_KT, PTW, PTWFixedLength, FMN (both stores), Averager, Factored and the estimators, nested in each other.", "quantifier": "for every interleaving of predictions with updates, from every state", "why_tests_cant": "log_predict does mutate the tree (it creates nodes), so absence of observable effect must be shown for all interleavings.", "anchors": ["model.py:CTW.Node.log_predict", "model.py:CTW_KT.Node.log_predict", "model.py:PTW.log_predict", "model.py:PTWFixedLength.log_predict", "model.py:FMN", "model.py:Factored.log_predict", "model.py:Averager.log_predict"]}
{"id": "C18", "title": "CTW of depth D looks at the last D symbols only", "statement": "The default context of a history is exactly D symbols long: the last D symbols, most recent last, padded on the left with zeros; two histories with the same last D symbols are treated identically. (The code violates this for D = 0, where the whole history becomes the context and the predictions stop being normalised.)", "quantifier": "for every depth and every history", "why_tests_cant": "Boundary case plus universal statement over histories of any length.", "anchors": ["model.py:CTW._mkcontext", "model.py:CTW_KT._mkcontext"]}
{"id": "C19", "title": "CTW_KT equals CTW with default arguments", "statement": "CTW_KT(D) and CTW(D) return the same values from every update and log_predict for every input sequence.", "quantifier": "for every depth, sequence, history and weight", "why_tests_cant": "Behavioural equivalence of two implementations over unbounded inputs.", "anchors": ["model.py:CTW_KT", "model.py:CTW"]}
{"id": "C20", "title": "Copies of a CTW model are independent", "statement": "After copy(), the original and the copy (and copies of copies) behave as if each had its own private tree: any interleaving of updates, predictions and further copies on any of them returns the values a fully separate deep copy would.", "quantifier": "for every finite interleaving of copy, update and log_predict over any number of models sharing nodes", "why_tests_cant": "Copy-on-write with reference counts: the sharing patterns reachable are unbounded.", "anchors": ["model.py:CTW.Node.copy", "model.py:CTW.Node.update", "model.py:CTW_KT.Node.copy", "model.py:CTW.copy"]}
{"id": "C21", "title": "The C context tree never touches freed memory and leaks nothing", "statement": "In the C implementation, no sequence of create, copy, update, predict and destroy calls dereferences a freed node or frees a node twice, and once every model object has been destroyed all nodes have been freed.", "quantifier": "for every finite interleaving of operations over any number of live model objects", "why_tests_cant": "Memory safety over all operation sequences and sharing patterns.", "anchors": ["modelfast.py:ctwnode_new", "modelfast.py:ctwnode_free", "modelfast.py:ctwnode_copy", "modelfast.py:ctwnode_update", "modelfast.py:ctwnode_log_predict"]}
{"id": "C22", "title": "The C context tree computes the same numbers as the Python one", "statement": "modelfast.CTW_KT(D) returns the same values as model.CTW_KT(D) for every call sequence when D >= 1. (They disagree for D = 0.)", "quantifier": "for every depth, sequence, history and weight", "why_tests_cant": "Behavioural equivalence across two languages for all inputs.", "anchors": ["modelfast.py:CTW_KT", "model.py:CTW_KT"]}
{"id": "C23", "title": "copy() of a CTW model over non-binary contexts always raises TypeError", "statement": "copy() on a CTW built with binary_context=False raises TypeError whatever has been observed, because the child store's iterator is not an iterator; so such a model (and any FMN or PTW over it) cannot be copied. This documents a defect: a user would expect an independent copy.", "quantifier": "for every tree, that is after every history of updates and predictions", "why_tests_cant": "A test shows one failing copy, not that no reachable tree can be copied.", "anchors": ["model.py:CTW.Node._children_store", "model.py:CTW.Node.copy"]}
{"id": "C24", "title": "PTWFixedLength computes the partition-tree mixture", "statement": "After any n symbols with n at most the (power-of-two rounded) length, the cumulative probability equals the recursive definition of partition tree weighting of that depth: one half the base model on the whole block plus one half the product of the two half blocks, down to blocks of the minimum length.", "quantifier": "for every base model, every length, every sequence no longer than it", "why_tests_cant": "Refinement of an online algorithm with promoted/unrepresented nodes to a recursive definition for all lengths.", "anchors": ["model.py:PTWFixedLength.update", "model.py:PTW.Node.update"]}
{"id": "C25", "title": "PTW tracks the mixture of the smallest enclosing tree", "statement": "For PTW without a fixed length, each update multiplies the running probability by the ratio of the partition-tree mixture of the smallest power-of-two block enclosing the extended sequence, after to before.", "quantifier": "for every base model and every sequence", "why_tests_cant": "Induction over every length, with special behaviour at each power of two.", "anchors": ["model.py:PTW.update"]}
{"id": "C26", "title": "PTW's sequential probabilities are normalised", "statement": "In every state the probabilities that update would report for the symbols of the alphabet sum to one, if the base model's do.", "quantifier": "for every normalised base model, every reachable PTW state, including at power-of-two boundaries", "why_tests_cant": "The tree changes height at boundaries; the identity must hold for all counts.", "anchors": ["model.py:PTW.update", "model.py:PTW.Node.update"]}
{"id": "C27", "title": "PTW.log_predict agrees with update", "statement": "log_predict(s) returns what update(s) reports next, and predictions sum to one. (True whenever the current minimum-length block is unfinished; the code violates it at every block boundary, hence after every symbol for the default minimum block of 1.) The same holds for PTWFixedLength and for FMN, which inherits the method.", "quantifier": "for every reachable PTW, PTWFixedLength and FMN state and symbol", "why_tests_cant": "Requires comparing two recursions on every reachable tree, boundaries included.", "anchors": ["model.py:PTW.Node.log_predict", "model.py:PTW.log_predict", "model.py:PTWFixedLength.log_predict", "model.py:FMN"]}
{"id": "C28", "title": "PTW regret against every binary temporal partition", "statement": "On every sequence PTWFixedLength's probability is at least 2^-(cost) times the product of the base model's probabilities on the segments of any binary temporal partition.", "quantifier": "for every sequence and every partition", "why_tests_cant": "Worst-case guarantee over all sequences and partitions.", "anchors": ["model.py:PTWFixedLength"]}
{"id": "C29", "title": "PTW keeps logarithmically many base models", "statement": "After n updates a PTW holds at most floor(log2 n) + 1 base models.", "quantifier": "for every n", "why_tests_cant": "Space bound for every length.", "anchors": ["model.py:PTW.Node.update"]}
{"id": "C30", "title": "The minimum partition length is rounded down to a power of two", "statement": "The block length actually used is the largest power of two that is at most min_partition_length; so it is smaller than requested unless a power of two was requested. (A defect: the documentation promises rounding up.)", "quantifier": "for every min_partition_length >= 1", "why_tests_cant": "Universal over the parameter; the documentation and code differ on all non powers of two.", "anchors": ["model.py:PTW.__init__"]}
{"id": "C31", "title": "LogStore keeps the newest and the oldest item and logarithmically many", "statement": "After n >= 1 adds the store holds exactly the items added at positions 2^j*(floor(n/2^j)-1) for j = 0..floor(log2 n), newest first: the last added is first, the first added is last and the length is floor(log2 n)+1.", "quantifier": "for every n and every sequence of items", "why_tests_cant": "Exact content for every n.", "anchors": ["model.py:LogStore.add"]}
{"id": "C32", "title": "LogStoreUniform keeps uniformly spaced items", "statement": "At every point the items kept are a strictly increasing selection of the added items whose positions are multiples of the current gap, starting with the first added item; the gap is a power of two and the number kept is logarithmic in the number added. Indexing s[i] for 0 <= i < len gives the i-th newest; (the documented s[-1] raises IndexError). An index from len up to 2*len - 1 counts the items over again from the newest, and one from 2*len on raises IndexError.", "quantifier": "for every number of adds", "why_tests_cant": "Invariant of a stateful thinning procedure for all histories.", "anchors": ["model.py:LogStoreUniform.lazy_add", "model.py:LogStoreUniform.__getitem__"]}
{"id": "C33", "title": "The two LogStore implementations agree", "statement": "learners.LogStore and model.LogStore hold the same items in the same order after any sequence of adds.", "quantifier": "for every sequence of adds", "why_tests_cant": "The project's test checks 64 adds; equality must hold for every number.", "anchors": ["learners.py:LogStore", "model.py:LogStore", "helpers.py:mscb"]}
{"id": "C34", "title": "FMN probabilities are normalised and its memory schedule is fixed", "statement": "In every state the probabilities FMN.update would report over the alphabet sum to one; the model store receives one model every 2^floor(log2 min_partition_length) symbols and is never empty.", "quantifier": "for every sequence and every base model that is normalised and copyable", "why_tests_cant": "Base models are created from a store that itself evolves with the data.", "anchors": ["model.py:FMN.update", "model.py:FMN.model_factory", "model.py:FMN.__init__"]}
{"id": "C35", "title": "FMN never does much worse than starting afresh", "statement": "The first (untrained) model is retained in the store forever, so every new block's predictor assigns every sequence at least 1/(store size) of the probability a fresh base model would.", "quantifier": "for every history and continuation", "why_tests_cant": "Worst-case guarantee over all histories.", "anchors": ["model.py:FMN", "model.py:LogStore", "model.py:Averager"]}
{"id": "C36", "title": "learners.PTW computes the depth-d partition-tree mixture and refuses to exceed it", "statement": "learners.PTW of depth d has after n <= 2^d symbols the log probability of the recursive definition of depth d (hence equals PTWFixedLength(2^d)); the update after 2^d symbols raises ValueError and leaves the model unchanged.", "quantifier": "for every depth, base model and sequence", "why_tests_cant": "Equivalence of a dictionary-of-models algorithm with the recursive definition for all sequences.", "anchors": ["learners.py:PTW.update", "learners.py:PTW.update_partial_probability"]}
{"id": "C37", "title": "learners.PTW.log_predict agrees with update", "statement": "For fewer than 2^d symbols, log_predict(s) is the change in log probability that update(s) makes.", "quantifier": "for every reachable state and symbol", "why_tests_cant": "Two code paths with different handling of missing models must agree in all states.", "anchors": ["learners.py:PTW.log_predict", "learners.py:PTW.calculate_partial_prediction"]}
{"id": "C38", "title": "learners.PTW holds at most max(1, depth) models", "statement": "Between updates the live base models are exactly the one started at time 0 and one per start of a partition block that lies before the current time and contains it; there are never more than max(1, depth), and the model started at k has seen exactly the symbols since k.", "quantifier": "for every sequence", "why_tests_cant": "Resource invariant for all histories.", "anchors": ["learners.py:PTW.update", "learners.py:PTW.prune"]}
{"id": "C39", "title": "ctw.PTW computes the same mixture", "statement": "The older ctw.PTW of a given height returns the same values as the recursive definition and its log_predict agrees with update.", "quantifier": "for every height and sequence no longer than 2^height", "why_tests_cant": "Refinement over all sequences.", "anchors": ["ctw.py:PTW"]}
{"id": "C40", "title": "Partition arithmetic", "statement": "binary_boundary(t,d) is the largest multiple of 2^d not above t; at_partition_start(t,d) holds exactly for the multiples of 2^d; mscb(t) is the number of trailing one bits of t, equivalently the exponent of the largest power of two dividing t+1.", "quantifier": "for every t and d", "why_tests_cant": "Universal arithmetic facts about bit tricks.", "anchors": ["helpers.py:binary_boundary", "helpers.py:at_partition_start", "helpers.py:mscb", "learners.py:mscb"]}
{"id": "C41", "title": "The arithmetic encoder keeps a valid interval and terminates", "statement": "If the probability of zero lies strictly between 0 and 1, every encode call terminates with 0 <= low < half < high <= top, and no pending carry bits ever accumulate. If an update makes the interval empty, encode does not terminate.", "quantifier": "for every model and every message", "why_tests_cant": "Loop termination and an invariant over unbounded messages.", "anchors": ["ac.py:BinaryArithmeticEncoder.encode"]}
{"id": "C42", "title": "Decompression inverts compression", "statement": "decompress(compress(bits), len(bits)) returns bits whenever encoder and decoder are given the same normalised model. (The code violates this in two ways. The decoder need not return: with a new ctw.KT, compress([1,1]) is [1,1,0] and decompressing that loops forever. And the encoder widens an empty zero-interval while the decoder does not, so that a message can be decoded to another one. It holds for models that never give zero less than one half, and whenever the decoder returns and every interval split was wide enough that width * p(0) >= 1. Codes of different messages of one length always differ.)", "quantifier": "for every message and every deterministic model", "why_tests_cant": "Round trip over all messages; the failing states need a precision collapse tests never reach.", "anchors": ["ac.py:compress", "ac.py:decompress", "ac.py:BinaryArithmeticEncoder", "ac.py:BinaryArithmeticDecoder"]}
{"id": "C43", "title": "Code length", "statement": "The number of bits produced is at most two plus the sum over symbols of -log2 of the fraction of the interval given to that symbol. That fraction differs from the probability the model gives the symbol by at most one part in the width of the interval.", "quantifier": "for every message and model", "why_tests_cant": "Bound over all messages.", "anchors": ["ac.py:compress"]}
{"id": "C44", "title": "Byte-level compression round trips", "statement": "decompress_bytes(compress_bytes(data), len(data)) returns data. (The code violates this: bits are unpacked least significant first and packed most significant first. With a new ctw.KT the byte 1 is compressed to 129 and decompressed to 128. It holds for the uniform model.)", "quantifier": "for every byte string and model", "why_tests_cant": "Holds or fails depending on model and data; a uniform model hides the error.", "anchors": ["ac.py:compress_bytes", "ac.py:decompress_bytes", "ac.py:grouper"]}
{"id": "C45", "title": "Which predictors can drive the coder", "statement": "One would expect every Model in model.py to work with compress and decompress. In fact decompress raises TypeError for every class of model.py on every nonempty message, because the decoder calls predict without its mandatory history argument; compress raises TypeError on every nonempty message exactly for CTW, CTW_KT, Factored and Dumb, whose update needs a history the encoder does not pass, and for the other classes behaves as with the bare model.", "quantifier": "for every model class", "why_tests_cant": "A statement about all call sites and all classes of the interface.", "anchors": ["ac.py", "model.py:Model.predict", "model.py:CTW.update"]}
{"id": "C46", "title": "FMN competes with every segmentation that re-uses remembered models", "statement": "Against any binary temporal partition of the sequence in which each segment is predicted by any model that the store holds when the segment starts, FMN loses at most a factor two per bit of the partition's description, the store size per segment, and 3/2 per doubling of the length.", "quantifier": "for every sequence, every partition and every choice of remembered models", "why_tests_cant": "Worst-case guarantee over all sequences, partitions and choices.", "anchors": ["model.py:FMN", "model.py:PTW", "model.py:LogStore"]}
{"id": "C47", "title": "The three KT estimators agree", "statement": "ctw.KT and learners.KT answer every sequence of update and log_predict calls exactly as model.KT does (learners.KT takes no weights: weight one), including the exceptions for unknown symbols; learners.KT's log_prob and num_steps are the sum of returned values and the number of updates.", "quantifier": "for every alphabet, every sequence of calls and all non-negative weights", "why_tests_cant": "Agreement of three implementations on all call sequences.", "anchors": ["ctw.py:KT", "learners.py:KT", "model.py:KT"]}
{"id": "C48", "title": "ctw.CTW with its own history agrees with model.CTW given that history", "statement": "A ctw.CTW of any depth answers every sequence of calls as model.CTW does when handed the symbols of the earlier updates as history; its sequence probability is the recursively defined context-tree mixture (the base model's at depth 0); predictions agree with updates and are normalised.", "quantifier": "for every base model, depth and sequence of calls", "why_tests_cant": "Agreement of two implementations over all call sequences.", "anchors": ["ctw.py:CTW", "model.py:CTW"]}
{"id": "C49", "title": "ctw.Averager is the uniform mixture of the models it is given", "statement": "ctw.Averager(models) assigns to every sequence the mean of the probabilities the models assign from their current states. (The code violates this for trained CTW, PTW and Averager components: it zeroes their log_prob, which they recompute, so all past probability is counted again.)", "quantifier": "for every list of models and every sequence", "why_tests_cant": "Holds for some classes of components and fails for others in every trained state.", "anchors": ["ctw.py:Averager", "ctw.py:FMN"]}
{"id": "C50", "title": "A copy answers exactly as the original", "statement": "copy() of a KT, KTBinary, SAD, Averager, Factored, CTW (binary contexts) or CTW_KT model, whatever has been done to it and however these are nested, returns a model that gives the same answers to every later sequence of update and log_predict calls. PTW, PTWFixedLength, FMN and Dumb models cannot be copied: copy raises NotImplementedError.", "quantifier": "for every model state, every nesting and every later sequence of calls", "why_tests_cant": "Equality of behaviour over all future call sequences.", "anchors": ["model.py:KT.copy", "model.py:Averager.copy", "model.py:Factored.copy", "model.py:CTW.copy", "model.py:CTW_KT.copy", "model.py:Model.copy"]}
{"id": "C51", "title": "KT redundancy against every coin", "statement": "On every sequence of n >= 1 unit-weight binary symbols, the probability the KT estimator assigns is at least 1/(2 sqrt(n)) times the probability any Bernoulli source assigns, so its total log loss exceeds the best coin's by at most log 2 + (1/2) log n.", "quantifier": "for all binary sequences of every length and all parameters in [0,1]", "why_tests_cant": "The bound is over an uncountable set of parameters and every sequence length; a test compares finitely many.", "anchors": ["model.py: KT, KTBinary", "model.py: KT.update"]}
{"id": "C52", "title": "CTW redundancy against every tree source", "statement": "On every binary sequence with contexts, CTW over KT estimators assigns at least 2^-cost times the product over leaves of 1/(2 sqrt(n_leaf)) times the probability of any tree source of depth at most the tree's depth with any leaf parameters.", "quantifier": "for all sequences, all tree sources up to the depth, all leaf parameters", "why_tests_cant": "Quantifies over all prunings and real parameter vectors and all sequences.", "anchors": ["model.py: CTW, CTW.Node.update", "model.py: KTBinary"]}
{"id": "C53", "title": "PTW redundancy against every piecewise stationary source", "statement": "On every binary sequence and for every source whose coin changes c times (at multiples of the minimum partition length), PTW over KT estimators loses at most 2 c h + 1 bits and c h + 1 factors 2 sqrt(n), h being the number of levels (plus a factor 3/2 per doubling for PTW of unknown length).", "quantifier": "for all sequences, all change times and all parameters", "why_tests_cant": "Quantifies over all change-point sets and parameters and lengths.", "anchors": ["model.py: PTW, PTWFixedLength"]}
{"id": "C54", "title": "Tile coding activates one valid feature per tiling", "statement": "For every signal in the unit cube a TileCoder activates exactly one feature of each tiling (plus the bias), all indices are distinct and below the number of features announced. (The code violates this when the fractional part of 1/width is at least 1/(number of tilings), and exactly then: TileCoder(3, tile_width=.3) has 13 features and activates index 13 for the signal [1].)", "quantifier": "for every number of tilings, dimension, width and signal", "why_tests_cant": "Signals range over a continuum and the boundary cases depend on width and number of tilings.", "anchors": ["sensors.py: TileCoder, active_tiling_bits, concatenate_coders"]}
{"id": "C55", "title": "Two signals share a tile exactly if they are in the same box", "statement": "In each tiling, two signals activate the same feature exactly if on every axis the shifted values lie in the same tile interval: no two tiles share an index.", "quantifier": "for every pair of signals, tiling, dimension and width 1/k", "why_tests_cant": "Quantifies over pairs of real vectors and every dimension; collisions may appear in a single cell.", "anchors": ["sensors.py: TileCoder.get_active_tiles, active_tile_coords, active_tile_bit"]}
{"id": "C56", "title": "Resolution and generalisation of tile coding", "statement": "Two signals get the same features exactly if on every axis they lie in the same interval of length 1/(n k), and they differ in at most as many tilings as there are such intervals between them, summed over axes. get_pairs lists every pair of inputs once.", "quantifier": "for every pair of signals, number of tilings n, dimension and width 1/k", "why_tests_cant": "A statement about all pairs of real vectors.", "anchors": ["sensors.py: TileCoder, get_pairs"]}
{"id": "C57", "title": "The coin flip environment is the announced piecewise stationary source", "statement": "Whatever was done with a CoinFlip before, get_data(n) returns for each t < n the comparison of the t-th number of the seeded stream with the probability whose index is the number of changepoints passed (cyclically), so shorter requests are prefixes of longer ones and calls give the same flips; a changepoint not later than its predecessor stops all later changes; the chance of 1 is one minus the parameter (the documentation says 'probability (of 1)'); iterating gives a single flip; an empty list of probabilities raises ZeroDivisionError.", "quantifier": "for every seed, random stream, list of probabilities, list of changepoints, length and prior state", "why_tests_cant": "Quantifies over all changepoint lists, all prior histories of the object and all random streams.", "anchors": ["environments.py: CoinFlip.get_data, CoinFlip.__call__, CoinFlip.update_probability, CoinFlip.parse_prob"]}
{"id": "C58", "title": "Presentation of protocol files", "statement": "If every directory of the protocol has rows and no step count is negative, repeated update() calls on a fresh file environment return the rows of each directory in protocol order, each block cut or repeated to its step count, then one None, then the same again; get_all_data() returns exactly these rows from any state. The attribute step counts the rows returned since the start or the last None. With a negative step count, which Protocol.from_list allows, the two disagree.", "quantifier": "for all protocols, file contents, step counts, states of the environment and numbers of calls", "why_tests_cant": "Quantifies over all protocols and over unbounded numbers of calls.", "anchors": ["environments.py: FileEnvironment.update, FileEnvironment.get_all_data, FileEnvironment.update_data_block, FileEnvironment.get_data"]}
{"id": "C59", "title": "Returns and traces", "statement": "calculate_return with a discount below one gives at every step the discounted sum of the later rewards, bounded by M/(1-g) for discounts in [0,1) and rewards of size at most M; with a horizon and no discount it gives the sums of the next horizon rewards; with the default arguments it raises TypeError on every non-empty sequence. decay_trace is the same sum read backwards, and a replacing trace never exceeds the largest feature.", "quantifier": "for all sequences of any length, discounts and horizons", "why_tests_cant": "Real-valued closed forms over sequences of every length.", "anchors": ["features.py: calculate_return", "utilities.py: decay_trace"]}
{"id": "C60", "title": "Running mean", "statement": "running_mean(data, n) returns the mean of each window of n consecutive values, n-1 fewer values than the data.", "quantifier": "for all non-empty data and all windows n >= 1", "why_tests_cant": "Quantifies over all data and all window sizes; the tests in the docstring use windows 2 and 4 only.", "anchors": ["features.py: running_mean"]}
{"id": "C61", "title": "Scaling, log sums, unit vectors and argmax", "statement": "scale_features maps a non-constant feature onto [0,1] keeping order and reaching both ends (a constant one is returned unchanged), and clips to [0,cap] for a given range; log_sum_exp is the logarithm of the sum of exponentials; get_unitizer gives unit vectors or IndexError; argmax returns the index of a largest value however ties are broken.", "quantifier": "for all real vectors, ranges, caps, labels and tie-breaking choices", "why_tests_cant": "Quantifies over all real vectors and all random choices.", "anchors": ["utilities.py: scale_features, log_sum_exp, argmax", "helpers.py: log_sum_exp", "features.py: get_unitizer"]}
{"id": "C62", "title": "Splitting data for training and testing", "statement": "DataSplitter 'half' cuts the data into two consecutive parts whose sizes differ by at most one. 'sample' returns, for every shuffle, increasing row lists without repetition; every training row is more than gap rows away from every test row; the first and last gap rows are unused; the union of the parts does not depend on the shuffle; and the sizes are those of the two halves of the samples.", "quantifier": "for all data lengths, gaps, sample sizes and all shuffles", "why_tests_cant": "Quantifies over all permutations the random generator may produce and all sizes.", "anchors": ["experiment.py: DataSplitter.__call__"]}
{"id": "C63", "title": "Regions of equal labels", "statement": "get_regions returns a dictionary whose keys are the labels that occur, each once, and which lists for each label exactly the maximal blocks of consecutive rows with that label, in order; every row lies in a block of its label; no labels raises IndexError.", "quantifier": "for all label sequences", "why_tests_cant": "Quantifies over all sequences of any length over any label type.", "anchors": ["helpers.py: get_regions"]}
{"id": "C64", "title": "Outer boundaries of a class", "statement": "get_outer_boundaries on the regions of a label sequence returns the smallest interval that contains every row of the class together with the blocks of rest rows directly before the first and after the last of them.", "quantifier": "for all label sequences and pairs of occurring labels", "why_tests_cant": "Quantifies over all sequences of any length.", "anchors": ["helpers.py: get_outer_boundaries"]}
{"id": "C65", "title": "Forget Me Not in ctw.py is a partition-tree mixture over its stored models", "statement": "ctw.FMN(height, Base) accepts exactly the sequences of at most 2^height symbols and then fails an assertion. The probability it assigns is the partition-tree mixture in which a segment starting at time t is predicted by the uniform mixture of the models stored at time t, whatever the iteration order of the set; it loses at most the partition's description and the store size per segment against any choice of stored models; with LogStore the number of models after n symbols is floor(log2(n+1))+1. With the default KT base its predictions are exact and sum to one.", "quantifier": "for all base models meeting the interface, heights, alphabets, weights, sequences, set iteration orders and partitions", "why_tests_cant": "Quantifies over all sequences, partitions and orders in which Python enumerates a set.", "anchors": ["ctw.py: FMN, PTW, Averager, LogStore, KT"]}
{"id": "C66", "title": "ctw.FMN predictions agree with update and sum to one for every base model", "statement": "For any base model that is itself a normalised predictor whose log_predict agrees with update, ctw.FMN's log_predict returns what update then returns and the predictions over the alphabet sum to one.", "quantifier": "for all base models, heights, sequences and set iteration orders", "why_tests_cant": "Quantifies over all sequences and base models; the failing case needs a nested mixture as base model.", "anchors": ["ctw.py: FMN.update, FMN.Base, PTW.log_predict, Averager.__init__, CTW.update"]}
{"id": "C67", "title": "learners.Averager is the uniform mixture of its models", "statement": "Updating a learners.Averager over any non-empty list of distinct models with a sequence succeeds exactly when every model accepts it; log_prob is then the log of the mean of their probabilities, and map returns the first model with the largest probability. Without models the constructor raises ZeroDivisionError.", "quantifier": "for all models, model lists and sequences", "why_tests_cant": "Quantifies over all sequences and all model behaviours.", "anchors": ["learners.py: Averager"]}
{"id": "C68", "title": "learners.Averager predicts conditional probabilities and can be a base model", "statement": "For models that are normalised predictors, predict returns the probability of the next symbol given the past, so that its values over the alphabet sum to one after every sequence, and an Averager can serve as base model of learners.PTW.", "quantifier": "for all models, model lists, alphabets and sequences", "why_tests_cant": "Quantifies over all sequences; holds before the first update, where a test would look.", "anchors": ["learners.py: Averager.log_predict, Averager.update, PTW.update"]}
{"id": "C69", "title": "reset() makes a learner new", "statement": "After any calls, reset() brings every learner of learners.py into the state of a newly created one, so that no later call can tell them apart.", "quantifier": "for all learners, and all sequences of calls before and after", "why_tests_cant": "Quantifies over all pairs of call sequences.", "anchors": ["learners.py: Model.reset, KT.reset, Averager.reset, PTW"]}
{"id": "C70", "title": "Descriptions of learners.PTW", "statement": "get_child_string lists the heights of the completed subtrees, which after n symbols are the positions of the ones in the binary representation of n, in decreasing order, provided the base model is never certain; get_model_string lists exactly the starts of the base models that are held, in increasing order, each up to the last time.", "quantifier": "for all base models, depths and sequences", "why_tests_cant": "Quantifies over all sequences; depends on no probability being exactly one.", "anchors": ["learners.py: PTW.get_child_string, PTW.get_model_string"]}
{"id": "C71", "title": "Protocol strings round-trip", "statement": "Printing a protocol and parsing the string with Protocol.from_string gives back the same directory names and step counts, provided names have no underscore, counts are not negative, and a name without a count does not end in a dash or a number (this last condition is necessary). A negative count always comes back positive with its sign moved into the name. Every parsed row has a name without underscore and a non-negative count.", "quantifier": "every list of rows, of any length, with any names and counts; every string for the last sentence", "why_tests_cant": "Names and counts are unbounded; the doctests try seven strings. Parsing uses nested separators and int(), so a name that happens to end in a number is silently changed.", "anchors": ["environments.py: Protocol.get_protocol_parts", "environments.py: Protocol.__str__", "environments.py: EnvDir.__str__", "helpers.py: format_protocol", "helpers.py: format_param"]}
{"id": "C72", "title": "Parameter strings are parsed back to the parameters", "statement": "split_params without evaluation of values returns exactly the parameters that were written as key-value pairs joined by underscores, for keys without dash (underscores allowed) and values without underscore (dashes allowed); of equal keys the last one counts. It raises exactly on strings with several parts whose last part has no dash, and then IndexError.", "quantifier": "every non-empty list of parameters within these conditions; every string for the error clause", "why_tests_cant": "The loop rewrites the list that it iterates over; only a proof over all lists shows that no key or value is lost or merged.", "anchors": ["helpers.py: split_params", "helpers.py: format_param"]}
{"id": "C73", "title": "Numbers appended to names are recovered", "statement": "split_number inverts join_number for every name, natural number and width; a negative number comes back positive with the sign in the name. get_array_headers gives distinct headers of one length whose string order is their numeric order, and split_number recovers the cleaned name and index from each. de_number splits digits off any name, with or without dash, but raises IndexError on a name that is all digits.", "quantifier": "every name, number, width and array length", "why_tests_cant": "Widths change at powers of ten and names may themselves have dashes and digits; tests try single values.", "anchors": ["utilities.py: join_number", "utilities.py: split_number", "utilities.py: get_array_headers", "helpers.py: de_number"]}
{"id": "C74", "title": "All combinations of parameter values", "statement": "unique_dict_sets yields exactly the dictionaries that have the given keys and for each key one of the listed values; there are as many as the product of the numbers of values, all distinct if the values of each key are. get_all_combinations gives the same, except that for no parameters it gives none instead of the one empty combination.", "quantifier": "every dictionary of lists of values", "why_tests_cant": "Completeness and absence of repetition concern every number of keys and values; a test compares a few literal dictionaries.", "anchors": ["helpers.py: unique_dict_sets", "utilities.py: get_all_combinations"]}
{"id": "C75", "title": "Shared and unique keys and values of parameter sets", "statement": "For a non-empty list of dictionaries, get_shared_keys returns the sorted keys that all have, get_unique_keys the sorted keys that only some have, and get_shared_values the items on which all agree. For an empty list all three return None.", "quantifier": "every list of dictionaries", "why_tests_cant": "Counting and deleting while iterating must be right for every number of dictionaries and overlap of keys.", "anchors": ["utilities.py: get_shared_keys", "utilities.py: get_unique_keys", "utilities.py: get_shared_values"]}
{"id": "C76", "title": "Grouping of parameter sets", "statement": "group_by_key and group_by_keys put every parameter set into exactly the group of its label, in the original order and as often as it occurs, and sets without the key go to the group of None. With group_by_keys two sets share a group exactly if the cleaned strings of their values agree for each of the keys, provided keys have no dash and these strings no underscore; different values with equal cleaned strings are merged.", "quantifier": "every list of parameter sets and every choice of keys", "why_tests_cant": "No set may be lost or duplicated whatever the order of arrival; tests group a handful.", "anchors": ["utilities.py: group_by_key", "utilities.py: group_by_keys", "utilities.py: join_params"]}
{"id": "C77", "title": "Setting attributes from parameters", "statement": "set_attributes succeeds exactly when each valid parameter is given or is an attribute of the object and no checked parameter is None; then the object has the given values for the included parameters and its old values otherwise. If a required parameter is missing the object is unchanged; if a value is None the parameters before it are already set.", "quantifier": "every object, every parameter dictionary, every list of valid parameters and every setting of the two flags", "why_tests_cant": "Four flags and the order of keys interact; failure in the middle of the loop leaves a mixture of old and new values that depends on order.", "anchors": ["utilities.py: set_attributes"]}
{"id": "C78", "title": "Parameter strings and modifiers of utilities.py", "statement": "split_params reads strings of key-value pairs, with values that are lists joined by dashes, back as keys and values in order; a string without dash gives no parameters; a key with exactly two numbers raises TypeError. split_modifiers undoes appending a modifier, leaves no modifier in the name and loses no part; remove_modifiers gives each name once and undoes add_modifiers.", "quantifier": "every list of parameters with keys without dash and values without dash and underscore; every name and list of modifiers without underscore", "why_tests_cant": "Strings are unbounded and separators are nested; the doctests try a few strings and none with two numbers.", "anchors": ["utilities.py: split_params", "utilities.py: split_items", "utilities.py: split_modifiers", "utilities.py: remove_modifiers", "utilities.py: add_modifiers"]}
{"id": "C79", "title": "Approximate and exact equality helpers", "statement": "all_approx holds exactly for lists of equal length that are near element by element. approx of helpers.py with positive precision holds exactly when the numbers differ by less than that many decimals; approx of utilities.py with the same precision also accepts any numbers at most ten apart. dicts_exact_match holds exactly when every item of the first dictionary is in the second, so it is not symmetric and the empty dictionary matches everything.", "quantifier": "every pair of lists, numbers, precisions and dictionaries", "why_tests_cant": "The error in the sign of the exponent is invisible to tests that compare near numbers; the statement is about all numbers.", "anchors": ["helpers.py: approx", "helpers.py: all_approx", "helpers.py: dicts_exact_match", "utilities.py: approx", "utilities.py: all_approx"]}
{"id": "C80", "title": "Sequence methods of ctw.py", "statement": "update_seq returns the sum of what the single updates return and ends in the same state; over a lawful model its probabilities sum to one over all sequences of a length. log_predict_seq does not learn from the sequence: it multiplies the predictions for the single symbols, which also sums to one over all sequences of a length but is not the probability that update_seq reports. CTW.log_predict_seq uses the growing sequence as context and leaves the history of the model as it was.", "quantifier": "every model of ctw.py that keeps log_prob up to date, every state, every sequence and weight, every length", "why_tests_cant": "The two methods agree on sequences of length at most one and the totals range over all sequences of every length.", "anchors": ["ctw.py: ProbSeq.update_seq", "ctw.py: ProbSeq.log_predict_seq", "ctw.py: CTW.log_predict_seq"]}
{"id": "C81", "title": "Node counts of context trees", "statement": "The tree of a CTW has a node at the root and at each position on the path of a context that was used, whether for an update or a prediction, and no other. modelfast.CTW_KT.size is the number of these nodes. model.CTW.size is that number as long as no copy is made; after copy() the nodes that the copy creates are counted for the original and the size of the copy never changes.", "quantifier": "every sequence of updates, predictions and copies with any histories", "why_tests_cant": "The count must hold after every interleaving of calls on models and their copies, which share nodes.", "anchors": ["modelfast.py: CTW_KT.size", "modelfast.py: ctwnode_size", "model.py: CTW.size"]}
{"id": "C82", "title": "ctw.SAD", "statement": "ctw.SAD(n) returns what model.SAD(n) returns, exceptions included, in every sequence of updates and predictions, and its log_prob is the sum of what the updates returned.", "quantifier": "every alphabet size and every sequence of calls", "why_tests_cant": "Equality of two implementations over all histories.", "anchors": ["ctw.py: SAD", "model.py: SAD"]}
{"id": "C83", "title": "Shared histories in ctw.py", "statement": "A ctw.CTW returns what a model.CTW returns that is handed the present content of the history list, whether the list is its own or was set with use_history, whatever the caller does to the list between the calls. It appends to the list exactly when it owns it; reset_history raises AssertionError when it does not.", "quantifier": "every sequence of use_history, reset_history, updates, predictions and outside changes of the list", "why_tests_cant": "The list is shared mutable state; the statement is about every interleaving of changes by owner and model.", "anchors": ["ctw.py: ProbSeq.use_history", "ctw.py: ProbSeq.reset_history", "ctw.py: CTW.update", "ctw.py: CTW.log_predict"]}
{"id": "C84", "title": "Directory names of parameter structures", "statement": "A Structure writes its parameters, those of nested structures included, into a directory name with get_dir_string and params_from_dir_string reads them back: from the name below any base directory it recovers each parameter that was set with its value, no other parameter, and the base directory. Therefore different settings never share a directory. Full claim: for every Structure class and every setting. It holds for string values of kept characters without separators in the places that are split, and fails for the listed cases.", "quantifier": "every list of fields, nested to any depth, every assignment of string values, every base directory in normal form", "why_tests_cant": "Field lists and nesting are unbounded and the reader works from the last component backwards without knowing which optional parameters are present; tests cover six fixed directory names.", "anchors": ["datasets.py: Structure.get_dir_string", "datasets.py: Structure.get_nonpos_string", "datasets.py: Structure.params_from_dir_string", "datasets.py: Struct.stringify", "datasets.py: Parsable.stringify", "helpers.py: de_string", "helpers.py: split_params", "experiment.py: PTWModel", "experiment.py: CoinEnv"]}
{"id": "C85", "title": "The command line program keeps the data", "statement": "Compressing a file with z.py and any of its models, and then uncompressing the result with the same options, gives back the file. Full claim: for all eleven models and all files. It fails for every file, because uncompress always raises. What holds: with the models KT, PTW and FMN compressing ends normally for files of 1 to 2^32-1 bytes, changes only the output file, puts the length first, and files with different content have different compressed files.", "quantifier": "every file content, every model name and depth, both byte orders, every state of the file system", "why_tests_cant": "Inputs are files of any length; that no two of them collide, and that no input makes uncompress work, are statements about all of them. There is no test of z.py.", "anchors": ["z.py: __main__", "ac.py: compress_bytes", "ac.py: decompress_bytes", "model.py: KT", "model.py: PTW", "model.py: FMN"]}
{"id": "C86", "title": "Progress display", "statement": "While a file is compressed, the bytes handed to the coder are exactly those of the file in order, whatever the length of the file relative to the chunks; after every chunk a bar of exactly 60 characters is drawn whose filled part is the fraction read so far, ending with 100%.", "quantifier": "every file length and every fraction between 0 and 1", "why_tests_cant": "Boundaries of chunks, sixtieths and hundredths fall on arbitrary lengths; tests cannot cover every length and there are none.", "anchors": ["z.py: _bytes_with_progress", "z.py: progress_bar"]}
{"id": "C87", "title": "Environments yield what their random draws determine", "statement": "A hallway and a room yield by turns an action and an observation: the action is whether the draw of the turn is below the probability of going forward; the observation of a hallway is the direction, turned once for every rotation so far, that of a room is whether one is back at distance 0 facing back. A wall does not stop: a step forward in front of it goes through it. A switcher draws twice in a turn, once to decide whether to choose a mode anew and once for the action; a mode chosen again goes on in the state it was left in, and is not changed by the turns of the others. Without modes a switcher raises IndexError.", "quantifier": "every probability, every stream of random numbers, every list of modes with repetitions, every number of turns", "why_tests_cant": "The generators are infinite and their state depends on the whole history of draws; there is no test of pomdp.py.", "anchors": ["pomdp.py: Hallway", "pomdp.py: Room", "pomdp.py: Switcher"]}
{"id": "C88", "title": "A run of a job set leaves the script of every job", "statement": "A call of run goes through every choice of one value for each parameter once. It leaves for every job, in the log directory under the name protocol-model-depth.queuename.sh, a script with the command that compresses the job's file with the job's model and depth, and with the line that makes the file out of its parts exactly if the file is not there. It leaves no temporary script and changes no other file. The protocol, model and depth can be read back from the name of a log.", "quantifier": "every set of parameter values, every file system, every sequence of answers of the queue", "why_tests_cant": "The files left behind depend on which names coincide among all jobs of all runs, and on the answers of an external program.", "anchors": ["jobs.py: JobSet.run", "jobs.py: JobSet.submit_job", "jobs.py: JobSet.pbs_template", "jobs.py: pull_params_from_name"]}
{"id": "C89", "title": "What is read from the logs of jobs", "statement": "The statistics of a log are the lines among its last seven which have a label, a colon and a value: the first word after the colon, of the last such line. A log that ends with the message of its start is reported as flaked, one that ends with the message that the job was killed with the reason; an empty log raises IndexError. Of the log that the compression program writes every statistic is found, except that the ratio is lost if the number of nodes is printed. The table of all logs has one entry per name up to the first full stop, with the name, parameters and statistics of the log listed last; one unreadable log and there is no table.", "quantifier": "every contents of every log, every list of logs", "why_tests_cant": "Which lines count depends on the position in an arbitrary text; which logs survive depends on all names in the directory.", "anchors": ["jobs.py: pull_stats_from_file", "jobs.py: get_all_logs", "z.py: main"]}
{"id": "C90", "title": "Log files hold what was written and are read as that", "statement": "A new log file holds the line with its name, the line with the headers if there are any, and then the written lines; no other file is changed. In safe mode no call changes a file that is there already. A reader finds the headers of such a file and then row by row what was written; one pass through the reader gives one row. check_headers gives the headers that are asked for by name or by the part before the first hyphen. A file name without directory raises; write_log raises in every case, having emptied the file if safe mode is off; without a line of headers the first row is taken for it unless it begins with a digit; a file of comments makes check_headers raise IndexError.", "quantifier": "every file system, every sequence of calls, every list of headers and rows, every contents of the file", "why_tests_cant": "What a file holds depends on the whole sequence of calls and on what was there before; whether a row is lost depends on its first character.", "anchors": ["logfiles.py: LogWriter", "logfiles.py: LogReader", "logfiles.py: peek_char", "logfiles.py: pathify"]}
{"id": "C91", "title": "Finding and checking log files", "statement": "get_headers of a subset gives only columns of the file, at most one for each name, and every name that is a column, in order; a name with a number stands for the column of the prefix or for the array element; a name that is a number and no column raises IndexError. file_complete without requirements says whether the file is there; with required headers one of them is enough; with required lines it raises NameError for every file that is there. get_filepaths gives, each once, in every directory the file of the name, or if there is none and parts count those whose name contains it, without the ignored ones.", "quantifier": "every file, every set of columns and requested names, every directory tree", "why_tests_cant": "The statements concern all trees and all sets of columns; nothing of logfiles.py is tested.", "anchors": ["logfiles.py: get_headers", "logfiles.py: file_complete", "logfiles.py: file_length", "logfiles.py: get_filepaths"]}
{"id": "C92", "title": "Log data are read by column, and saved tables come back", "statement": "get_log_data of a file with comments, a line of headers and rows gives for every requested name that is a header or a cleaned header the values of its column, converted if all are numbers; for one such name an array, or ValueError. Without a subset all headers are taken. save_log_data writes the path and the notes as comments, the sorted headers and the rows, and get_log_data gives back the saved table. num_data_lines counts the lines of numbers up to the first blank line. A blank line before the headers makes the headers a row; headers that are the same once cleaned give the last column for both; a header asked for twice has its values twice; a column with the name comments is lost; an empty file raises NameError; get_snippets always raises; an empty note raises and leaves the file cut.", "quantifier": "every file of that form, every subset, every table with any number of columns and rows, every conversion function", "why_tests_cant": "The round trip concerns all tables and names; the two loops over the same lines agree only if no line is blank.", "anchors": ["utilities.py: get_log_data", "utilities.py: save_log_data", "utilities.py: get_header_list", "utilities.py: num_data_lines", "utilities.py: get_snippets"]}
{"id": "C93", "title": "Redundancy over any alphabet", "statement": "Over an alphabet of k >= 2 symbols the KT estimator gives every sequence of n >= 1 unit-weight symbols at least 1/(e (k/2)^k n^((k-1)/2)) times the probability that any source of independent symbols gives it. Therefore CTW over such estimators loses against every tree source one bit per node and one such price per leaf, PTW loses against every source whose distribution changes c times 2 c h + 1 bits and c h + 1 such prices (h levels), and FMN the same with each price multiplied by the logarithmic size of its store.", "quantifier": "every finite alphabet, every sequence over it, every source distribution, every tree source, every piecewise stationary source whose changes are at multiples of the minimum block", "why_tests_cant": "A bound for all sequences and all real parameters; tests can only sample.", "anchors": ["model.py: KT", "model.py: CTW", "model.py: PTW", "model.py: PTWFixedLength", "model.py: FMN"]}
{"id": "C94", "title": "Strings of items and command lines give back what they were made of", "statement": "split_items(join_items(l)) is l for every non-empty list of names, natural numbers, None and positive floats; two lists have the same string exactly if they agree once other characters are removed; signs and the empty list are lost. split_params(join_params(**d)) gives the parameters in the order of the keys. An argument parser that reads params_to_args(**d) finds for every parameter that is not false its words, in the order of the keys; but 0 is left out and 1 loses its value. params_to_arg_string split at blanks is params_to_args. shorten_keys succeeds exactly if no part of a key is empty.", "quantifier": "every list of items, every dictionary of parameters", "why_tests_cant": "Round trips over all lists and dictionaries; tests show a few strings.", "anchors": ["utilities.py: join_items", "utilities.py: split_items", "utilities.py: join_params", "utilities.py: split_params", "utilities.py: params_to_args", "utilities.py: params_to_arg_string", "utilities.py: shorten_keys"]}
{"id": "C95", "title": "make_dirs makes a directory, and get_all_dirs lists a path", "statement": "make_dirs(path) gives a true value exactly if the directory is there afterwards, makes the missing directories above it and changes nothing else. get_all_dirs(path) gives the components of the path, or those below a base directory.", "quantifier": "every disk, every path, every number of missing directories", "why_tests_cant": "The behaviour depends on how many directories are missing and where the first obstacle is; tests try one path on one machine.", "anchors": ["utilities.py: make_dirs", "utilities.py: get_all_dirs", "utilities.py: get_all_subdirs"]}
{"id": "C96", "title": "Zipping and unzipping lose nothing, also when stopped", "statement": "zipfile and unzip with cleanup are inverse to each other and change no other file. If either stops at any moment, the complete file or the complete zipped file is there, and what file_exists gives afterwards is a complete file. file_exists gives the path if it is there, the unzipped one if it is zipped, and otherwise a false value.", "quantifier": "every disk, every text, every moment at which the program stops", "why_tests_cant": "Crashes between two writes cannot be produced by unit tests.", "anchors": ["utilities.py: zipfile", "utilities.py: unzip", "utilities.py: file_exists", "utilities.py: is_zip"]}
{"id": "C97", "title": "Matching of files and parameters", "statement": "match_sets gives the number of elements that are not required, or -1. get_best_file_match gives the file of the features' own, or else the first of the text files listed that have the features and the fewest others. split_ext divides a name, taking .gz with the extension before. get_dir_params adds the parameters in the name of a directory. validate_params tells whether the required parameters are given, with values that are required. check_param_matches tells whether a candidate has the required values and none of the restricted ones.", "quantifier": "every set of items, every list of files, every dictionary of parameters and of requirements", "why_tests_cant": "Statements about all listings and dictionaries; tests try a few.", "anchors": ["utilities.py: match_sets", "utilities.py: match_items", "utilities.py: get_best_file_match", "utilities.py: split_ext", "utilities.py: get_all_text_files", "utilities.py: get_dir_params", "utilities.py: validate_params", "utilities.py: check_param_matches"]}
{"id": "C98", "title": "Lines of log files, bins and scaled values", "statement": "skip_comments gives the comments at the beginning and leaves the file before the first other line, or raises if there is none. get_header_indices gives for a header its last column. get_formatted_data gives the words of a line, or those of the given columns, as numbers where they are; a column out of range raises IndexError and a double blank gives an empty word. bin_data of 100 numbers gives the means of consecutive pieces of nearly equal length; for another number of data the values are not means, and for too few it raises. scale_val is increasing, maps the range to 0 to 1 and with a cap stays in it. calc_alpha_init gives the numerator whose first step size is alpha.", "quantifier": "every file, every line, every number of bins from 1 to 100, every series, every range", "why_tests_cant": "Statements about all files and all series; tests try a few.", "anchors": ["utilities.py: skip_comments", "utilities.py: get_header_indices", "utilities.py: get_formatted_data", "utilities.py: bin_data", "utilities.py: scale_val", "utilities.py: calc_alpha_init"]}
{"id": "C99", "title": "Rounding errors of KT and of sums of probabilities", "statement": "In an arithmetic whose operations have a relative error of at most eps, logsumexp2 never raises and is wrong by at most eps times its value plus 8 eps, however far apart its arguments are. The sum that update_seq computes for a KTBinary over n symbols is within eps n^2 (3 log(2n) + 5) of the exact one if 32 eps n <= 1. In every arithmetic log_predict of KTBinary and of CTW returns exactly what update would return, digit for digit.", "quantifier": "every arithmetic with relative errors of at most eps, all arguments, every sequence; for the last part every arithmetic whatever and every state", "why_tests_cant": "Tests compare with a tolerance on a few inputs; the bound is for all inputs and all ways of rounding.", "anchors": ["model.py: logsumexp2", "model.py: KTBinary.update", "model.py: KTBinary.log_predict", "model.py: Model.update_seq", "model.py: CTW.Node.update", "model.py: CTW.Node.log_predict"]}
{"id": "C100", "title": "Rounding errors of CTW", "statement": "If every operation has a relative error of at most eps and 100 eps T (D + 1) <= 1, then no update of a CTW of depth D over KTBinary raises during T updates, the sum of the values returned is within B = 22 (D + 1) eps T^2 (log(2T) + 2) of the exact one, each log prediction is within 2B of the exact one, and the predicted probabilities of 0 and 1 sum to 1 up to a factor between exp(-2B) and exp(2B). For double precision, depth 8 and ten thousand symbols B is less than 1/1000.", "quantifier": "every arithmetic with relative errors of at most eps, every depth, every context function into a finite set, every sequence of observations of weight 1", "why_tests_cant": "The log probabilities of a node are kept as rounded running sums, so errors could grow along the sequence and from child to parent; a test sees only its own sequence.", "anchors": ["model.py: CTW.Node.update", "model.py: CTW.Node.log_predict", "model.py: CTW.update", "model.py: KTBinary"]}
{"id": "C101", "title": "The arithmetic coder with rounded probabilities", "statement": "The round trip of the arithmetic coder needs the encoder and the decoder to see the same probabilities, but the encoder takes one minus the probability of 1 and the decoder the probability of 0. There is a model whose two probabilities sum to 1 up to 2^-53 in every state and for which the code of the message 1 0 is decoded as another message. If at every 1 of the message both probabilities give the same integer split, and there is room for zero, decompress returns the message whenever it returns; and the splits are the same if the product of width and probability is further from every integer than the width times the difference of the probabilities.", "quantifier": "every pair of probability functions, every message; the first part is a witness", "why_tests_cant": "The failure needs a product within a rounding error of an integer, which random tests meet about once in a million symbols.", "anchors": ["ac.py: BinaryArithmeticEncoder.encode", "ac.py: BinaryArithmeticDecoder.decode", "ac.py: compress", "ac.py: decompress"]}
{"id": "C102", "title": "Formatting of parameters", "statement": "clean_string raises exactly for a value in which some dictionary has the empty key, and then TypeError. If all keys consist of letters, digits, _, . and -, so does the result, it contains no /, and cleaning it again changes nothing. The items of a list of words without - can be read back, a dictionary of words is read back by split_params, and the order of insertion does not matter; nesting is lost and keys are not cleaned. format_param raises exactly if a name is forced and missing or an empty key is to be cleaned; name and value can be read off name=value; the code arg gives one argument for each item. format_join with the code / always raises TypeError.", "quantifier": "every nested value, every name, code and flag", "why_tests_cant": "Statements about values nested to any depth and about all strings; tests try a few.", "anchors": ["helpers.py: clean_string", "helpers.py: format_param", "helpers.py: format_join", "helpers.py: split_params"]}
{"id": "C103", "title": "Lists of arguments", "statement": "A loop over listify(value) runs through nothing for None, the value itself for a string or something that cannot be iterated over, and the elements otherwise. The code violates this for generators without copy: the call uses them up, and the result is empty. With copy=True the result is a new list, except for a list, which is returned itself.", "quantifier": "every value", "why_tests_cant": "A statement about all values, including those that can be iterated over only once.", "anchors": ["helpers.py: listify"]}
{"id": "C104", "title": "Filters of the columns of an environment file", "statement": "An environment read from files consists of the columns asked for by their names, or by the part of the name before the first hyphen, in the order of the file, and each is filtered by the filters of its own name in the order given, with the parameters of its own name. The code violates the last part: scaling uses the range of the header given last for every column, which is right only if all scaled headers have the same range as that one. The names rollmean, scaled, unitvect and nothing at all are accepted; the first other name raises, among them trace and return. The filter unitvect works on the whole column at once and raises unless the number of classes is the number of rows; scaling maps the upper end of a range to 1 only if the range begins at 0. The columns are those check_headers returns.", "quantifier": "every list of headers and filters, every file, every parameter", "why_tests_cant": "The error needs two scaled headers with different ranges and gives plausible numbers; that all lists of filters are applied in order is a statement about all of them.", "anchors": ["environments.py: FileEnvironment.get_file_filters", "environments.py: FileEnvironment.set_headers", "environments.py: FileEnvironment._filter_data_block", "features.py: get_unitizer", "logfiles.py: LogReader.check_headers"]}
{"id": "C105", "title": "Construction of structures from keywords", "statement": "In every structure that is constructed from keywords, the value of a typed parameter has its type and is one of its choices, with nargs a list of such values of the right length. Constructing a structure again from its own items gives the same items, at any depth of nesting. A required parameter that is missing raises; without nested structures a field depends on its own keyword only; a keyword reaches the parameter of this name in nested structures of any depth. The code has these flaws: a number for nargs makes a required parameter optional; a Boolean given as a non-empty string is always true; an optional list that is not given becomes a list of the marker for missing values; a required nested structure with defaults for everything is constructed only if there is some keyword that the outer structure does not use. An integer parameter keeps a Boolean, a parameter with several values that is given a dictionary gets the list of its keys, and a dictionary parameter that is given a list of strings reads them joined by underscores.", "quantifier": "every class of structures, nested to any depth, every set of keywords", "why_tests_cant": "Statements about all classes and all values; that conversion is idempotent depends on the interplay of types, choices, nargs and nesting.", "anchors": ["datasets.py: Structure.__init__", "datasets.py: Parsable.set_self", "datasets.py: Parsable.convert_val", "datasets.py: Listable.set_self", "datasets.py: Keyed.set_self", "datasets.py: Structure.set_inherited", "datasets.py: Structure.from_wildcard", "datasets.py: Structure.items", "datasets.py: Boolean"]}
{"id": "C106", "title": "Saving and loading of data and models", "statement": "Saving data or a model never changes a file that exists. When saving data returns a path, there was no such file, and it now has the data of the object after one line of comment, other files being unchanged. A model that was saved is loaded by every object with the same names, and stays the first one. The code violates the corresponding claims about data: data passed to save_data are ignored; if the object has none, AttributeError is raised and an empty log is left, after which nothing can be saved; load_data without base_dir always raises, and with it looks in the base directory and not in the directory of the log, so that data are read back only if the directory string is empty. An exception of an experiment that logs its model is replaced by TypeError if there is no model yet.", "quantifier": "every file system, every object, every data and model, every experiment", "why_tests_cant": "Statements about every state of the files and every object; a test that saves and loads in memory finds the data in memory.", "anchors": ["datasets.py: Structure.save_data", "datasets.py: Structure.load_data", "datasets.py: Structure.log_exists", "datasets.py: Structure.loggable", "datasets.py: Experiment.save_model", "datasets.py: Experiment.load_model", "datasets.py: Experiment.run", "datasets.py: Experiment.__exit__"]}
{"id": "C107", "title": "Selection of structures by values", "statement": "A structure matches exactly if every asserted key is an attribute whose value or string form is among the options, and the string form of no dropped key is. Order and repetition of conditions do not matter, and more conditions match less. Dropping by a value should be the complement of asserting it; this holds for a string of kept characters of a parameter without keyword, and is false otherwise: a structure is never dropped by the string of a parameter with a keyword, nor by any value that is not a string. Asserting None matches nothing.", "quantifier": "every class and object, every set of conditions, every value", "why_tests_cant": "Statements about all objects and conditions; the tests drop only by a parameter without keyword.", "anchors": ["datasets.py: Structure.matches", "datasets.py: Structure.get_parameter", "datasets.py: Structure._iter_base_params", "datasets.py: Parsable.stringify"]}
{"id": "C108", "title": "Structures on the command line", "statement": "A structure should be read back from its own command line. This holds for classes of any number of untyped, string, integer and Boolean parameters if all attributes are there, strings are single tokens that do not begin with a hyphen, and other values belong to parameters of their type. Otherwise it is false: a string with a space is cut off there; a string that begins with a hyphen makes the program exit; an attribute that is not there comes back as None, as the string None, or raises TypeError for an integer, and a Boolean without default that is not given is true; an untyped value comes back as a string; any value of a Boolean parameter comes back as its truth value; a required parameter with a default must be given.", "quantifier": "every class of such parameters, every object, every behaviour of argparse for other tokens with a hyphen", "why_tests_cant": "Statements about all classes and values; the tests of this compare the second object with itself.", "anchors": ["datasets.py: Structure.get_arg_string", "datasets.py: Parsable.get_arg_string", "datasets.py: Boolean.get_arg_string", "datasets.py: Parsable.add_parser_arg", "datasets.py: Boolean.add_parser_arg", "datasets.py: Structure.from_string", "datasets.py: Structure.from_args", "datasets.py: Structure.from_namespace"]}
{"id": "C109", "title": "Rounding errors of partition tree weighting", "statement": "In rounded arithmetic whose operations have relative error at most eps, no update of PTW or PTWFixedLength over KTBinary raises, and the sum of the values returned differs from that of exact arithmetic by at most a constant times the height of the tree times eps times the square of the number of updates times a logarithm; with exact arithmetic the rounded updates are the exact ones.", "quantifier": "every arithmetic of a given accuracy, every sequence of observations of weight 1, every minimal partition length and fixed length", "why_tests_cant": "A statement about all sequences and all ways of rounding; tests compare a few sums with tolerances that were found by trial.", "anchors": ["model.py: PTW.Node.update", "model.py: PTW.update", "model.py: PTWFixedLength.update", "model.py: logsumexp2", "model.py: KTBinary.update"]}
{"id": "C110", "title": "Length of the code against the probability of the message", "statement": "The code that compress gives for n bits has at most 2 + n bits more than -log2 of the probability that the model gives the message, and at most 2 + n log2(M/(M-1)) more if the share of every symbol is at least M units wide. With ctw.KT this holds, up to log2(n)/2 + 1 bits, against every coin, and with ctw.CTW, up to the cost of the tree and its parameters, against every tree source. No bound that does not grow with n holds, even with 32 bits.", "quantifier": "every message, every normalised model, every register size, every coin and every tree source", "why_tests_cant": "A bound on the compressed size of all messages under all models; the loss only shows for probabilities that make intervals narrow around the middle.", "anchors": ["ac.py: compress", "ac.py: BinaryArithmeticEncoder", "ctw.py: KT", "ctw.py: CTW"]}
{"id": "C111", "title": "Entering and leaving an experiment", "statement": "When an experiment is entered, the base directory of each of its parts is that of the experiment followed by the string of the experiment's own parameters, the directories of the parts before it and its own name if that is a keyword; if the experiment has no parameters of its own it ends in its own log path. A part finds, under each name that it inherits, what the parts before it shared last under this name (the output_dim of a part as input_dim), or else the value of the experiment. If a part cannot be entered, those after it are untouched, no part is left again and nothing is saved. On leaving, all fields are left in order and the model is saved if asked for, as long as no exception but AttributeError is raised.", "quantifier": "all experiments with any number of parts, any directories, any names shared and inherited, and any effects of the parts", "why_tests_cant": "The number and order of parts, what they share and where an exception occurs are unbounded; tests use one experiment with one or two parts.", "anchors": ["datasets.py: Experiment.__enter__", "datasets.py: Experiment.__exit__", "datasets.py: Experiment.get_inherited", "datasets.py: Structure.set_inherited", "datasets.py: Experiment.run"]}
{"id": "C112", "title": "Rounding errors of models over models", "statement": "Any tower of CTW, PTW and PTWFixedLength over KTBinary can be updated in rounded arithmetic without exceptions, and the sum of the returned values (exact, or as update_seq adds it up) differs from that of exact arithmetic by at most a constant of the tower times the error of one operation times the square of the number of updates, up to a logarithm; nesting changes only the constant. In exact arithmetic each of the first T updates gives its symbol a probability of at least 1/(2T), however many models are nested.", "quantifier": "all towers of models, depths, heights and partition lengths, all sequences of symbols and histories with weight 1, and all arithmetics with relative error eps per operation, as long as 100 * constant * eps * length <= 1; PTWFixedLength within its length and CTW of depth at least 1", "why_tests_cant": "Which rounding errors occur, how models are nested and how errors accumulate over a sequence cannot be enumerated; a test sees one sequence with one nesting.", "anchors": ["model.py: CTW.Node.update", "model.py: PTW.Node.update", "model.py: PTW.update", "model.py: PTWFixedLength.update", "model.py: logsumexp2", "model.py: Model.update_seq"]}
{"id": "C113", "title": "The encoder in double precision", "statement": "Arithmetic with 53 binary digits, rounded to the nearest even, makes relative errors of at most 2^-53, and KTBinary then has exactly its counts for less than 2^52 updates. If model and encoder compute in rounded arithmetic and the probabilities keep the distance m >= 16 eps from 0 and 1, then compression succeeds and the code has at most 2 + n (1 + log2(1/(1 - 8 eps/m))) bits more than -log2 of the probability that the model reports for the message. For every tower of CTW and PTW over KTBinary this distance is 1/(4n), and the code is at most 2 + n bits and a bound of the rounding errors longer than -log2 of the probability of the message in exact arithmetic.", "quantifier": "all messages, all models (resp. all towers of CTW and PTW of any depth), all registers of at least one bit, all arithmetics with relative error eps per operation, as long as the precision suffices for the length", "why_tests_cant": "The messages, the intermediate roundings and the widths of the interval cannot be enumerated; a test sees the length of the code of one message.", "anchors": ["ac.py: ArithmeticEncoder.encode", "ac.py: ArithmeticEncoder._p", "ac.py: ArithmeticEncoder.output", "ac.py: compress", "model.py: KTBinary", "model.py: CTW", "model.py: PTW"]}
{"id": "C114", "title": "Heights and bit indices from logarithms in double precision", "statement": "Computed in double precision, the height of the smallest partitions of PTW is that of exact arithmetic for all minimum lengths up to 2^40, and the height of PTWFixedLength is that of exact arithmetic for all lengths up to 2^40. The bit index mscb of utilities.py agrees with that of helpers.py. (False in part: for the lengths 2^29, 2^31 and 2^39 the height is one too large, which costs up to one bit, and mscb is one too large from index 48 on.)", "quantifier": "all lengths up to 2^40, all times whose index is below 63, all base models and sequences within the length", "why_tests_cant": "There are 2^40 lengths, and the three wrong ones are not those one would test; the doctests of mscb stop at 8.", "anchors": ["model.py: PTW.__init__", "model.py: PTWFixedLength.__init__", "utilities.py: mscb", "helpers.py: mscb"]}
{"id": "C115", "title": "The model returned by PTW.map is the maximum a posteriori one", "statement": "PTW.map() returns a base model that is the maximum a posteriori predictor: among the possible starts of the segment that contains the last symbol, the one with the largest total of prior times likelihood over all temporal partitions. (False: the prior weight of stopping at a node is left out, so that after the bits 0, 1, 0 the model of the whole sequence is returned although the segment of the last bit is more probable. What holds: the returned model has seen the sequence from some start on, no start is more than 2^k times as probable, with k the levels of the tree, and a start more than 2^k times as probable as all others is found; when the tree is full no start is more than twice as probable. The candidates are the starts along the right edge of the tree, and what is maximised is the probability of reaching the candidate times that of its segment. The same for the map that PTWFixedLength inherits, at any length, and for the PTW of ctw.py.)", "quantifier": "all base models, all minimum lengths, all nonempty sequences of observations, all temporal partitions", "why_tests_cant": "The posterior is a sum over a number of partitions that is doubly exponential in the levels; a test compares one state with a value computed by the same keys.", "anchors": ["model.py: PTW.map", "model.py: PTW.update", "model.py: PTWFixedLength", "ctw.py: PTW.map"]}
{"id": "C116", "title": "Mixtures in floating point are near their exact values", "statement": "logsumexp of any positive number of floating-point values does not raise and is near the logarithm of the sum of their exponentials, with an error of one rounding of the result plus a small multiple of the number of values. An Averager over any list of models built from KTBinary with CTW, PTW and PTWFixedLength, of different kinds and depths, never raises, and the sum of the log probabilities its updates return differs from the exact one by at most an explicit bound that grows like the square of the number of updates times a logarithm.", "quantifier": "all arithmetics with a given relative accuracy, all lists of values, all lists of models, all sequences of observations", "why_tests_cant": "Tests compare a few sums with a tolerance; they cannot bound the error for every sequence and every mixture.", "anchors": ["model.py: logsumexp", "model.py: Averager.__init__", "model.py: Averager.update"]}
{"id": "C117", "title": "Forget-me-not in floating point is near an exact run up to near ties", "statement": "FMN over KTBinary with LogStore or LogStoreUniform in floating point never raises. The log probabilities its updates return add up to nearly the sum of a run in exact arithmetic which, at the end of each period, stores a model that is the best one up to a small difference. If no comparison of the exact run is a near tie, in particular in the first period, then the run is that of FMN in exact arithmetic.", "quantifier": "all arithmetics with a given relative accuracy, all periods, all sequences of observations, both stores", "why_tests_cant": "Rounding can decide which model is stored when two are nearly equally good, and the later predictions depend on it; a test sees one such decision.", "anchors": ["model.py: FMN.__init__", "model.py: FMN.update", "model.py: PTW.map", "model.py: Averager.map"]}
{"id": "C118", "title": "Size of the code and of compressed files against the best source", "statement": "For every message of n bits and every k <= 15 the code that compress gives has at most 2 + 31/(31-2k) (-log2 p + n log2(e)/2^k) bits, where p is the probability that the model gives the message; the rounding of the interval costs only a small part of the message and of its code. So z.py compress with the models KT, PTW and FMN writes files whose size is bounded by that against every coin (KT), every source whose coin changes at any times (PTW) and every source whose coin changes at multiples of 1024 bits (FMN), with the known redundancy for each.", "quantifier": "all messages, all files of 1 to 2^32-1 bytes, all normalised models, all sources, all k", "why_tests_cant": "A test compresses a few files; the intervals that lose most are those that get narrow around the middle, which the coder never widens, and no test can bound how often that happens.", "anchors": ["ac.py: BinaryArithmeticEncoder.encode", "ac.py: compress", "ac.py: compress_bytes", "z.py: main program", "model.py: KT", "model.py: PTW", "model.py: FMN"]}
{"id": "C119", "title": "Loss of forget-me-not against sources that change", "statement": "On every binary sequence and for every source whose coin changes c times (at multiples of the minimum partition length), FMN over KT estimators loses at most what PTW may lose, and in addition the size of its store, which is logarithmic, for each of c h + 1 segments. For every base model and every binary temporal partition FMN loses against new models on the segments only that factor more than PTW.", "quantifier": "all sequences, all sources, all base models, all minimum partition lengths", "why_tests_cant": "The bound is over all sources and sequences.", "anchors": ["model.py: FMN.update", "model.py: LogStore.add", "model.py: PTW.update"]}
{"id": "C120", "title": "Records of structures", "statement": "get_record of an instance gives exactly the fields that are not transient, in order, with their values, or raises AttributeError if one is not set; from the record of a constructed instance an instance with the same record can be constructed when the transient fields may be left out. get_flat_record gives the parameters of the class and of all nested structures with their values. matches_param tells whether the value of one parameter is not among those to drop and is among those asserted.", "quantifier": "all classes of structures nested to any depth, all keywords, all instances, all options", "why_tests_cant": "A class can be nested to any depth and names can recur at any level; a test fixes one class.", "anchors": ["datasets.py: Structure.get_record", "datasets.py: Structure.get_flat_record", "datasets.py: Structure._iter_base_params", "datasets.py: Structure.matches_param"]}
{"id": "C121", "title": "Failed updates", "statement": "An update that raises an exception leaves no trace: a caller who catches the exception and goes on gets from all later updates and predictions what would have been returned without the failed update, for all model classes and all combinations of them, whatever was called before, with more failed updates in between, and for forget-me-not models whatever is in the store.", "quantifier": "all models built from KT, SAD, KTBinary, Averager, CTW, PTW, PTWFixedLength and FMN over base models whose failed updates change nothing, all sequences of calls before and after, all symbols and histories, all weights that are not negative", "why_tests_cant": "What a failed update leaves behind depends on the point of the recursion where it raised, and shows only in later calls; there are unboundedly many histories.", "anchors": ["model.py: KT.update", "model.py: SAD.update", "model.py: Averager.update", "model.py: CTW.Node.update", "model.py: PTW.Node.update", "model.py: PTW.update", "model.py: PTWFixedLength.update", "model.py: FMN.update", "model.py: Model.update_seq"]}
{"id": "C122", "title": "Redundancy of SAD on sparse alphabets", "statement": "On every nonempty sequence of N unit-weight symbols, m different ones of the n possible ones, SAD(n) loses against every source of independent symbols at most log(n choose m) + (m/2) log(N/m) - (1/2) log N + (3m/2) log(1 + 2 log N) + m log 4 + log m + 1 nats: the size n of the alphabet enters only by the number of ways to choose the symbols that occur. The same holds for the SAD of ctw.py; CTW over SAD loses such a price per leaf of a tree source and one bit per node, PTW such a price per segment and the description of the partition.", "quantifier": "every finite alphabet, every sequence over it, every source distribution, every tree source, every binary temporal partition with a distribution per segment", "why_tests_cant": "A bound for all sequences and all real parameters; that the adaptive parameter beta costs only a logarithm of a logarithm shows in no finite number of runs.", "anchors": ["model.py: SAD.update", "model.py: SAD.log_predict", "ctw.py: SAD", "model.py: CTW", "model.py: PTW"]}
{"id": "C123", "title": "Conversion of a raw log", "statement": "reformat_data never changes a file that is there, whether it ends normally, raises or is stopped at any point, and the only files it makes are emg.txt, glove.txt and labels.txt of the directory, each of which at every moment begins like its complete text. In a directory without these files it leaves the complete texts. A second run after a normal end changes nothing. After every normal end the three files hold the converted data.", "quantifier": "every file system, every directory, every raw log, every way to read it and to write its parts, every point at which the run is stopped", "why_tests_cant": "A claim about every crash point and every earlier history of the directory; a test sees a run that ends normally in an empty directory.", "anchors": ["logfiles.py: reformat_data", "logfiles.py: LogWriter.__init__", "logfiles.py: LogWriter.__enter__", "logfiles.py: LogWriter.__exit__"]}
{"id": "C124", "title": "Rounding errors over larger alphabets", "statement": "In an arithmetic whose operations have a relative error of at most eps, KT over any nonempty alphabet and SAD(n), and every tower of CTW, PTW and PTWFixedLength over them, never raise, and the sum of the values returned by T updates differs from that of exact arithmetic by at most a constant of the tower times eps T^2 (10 L + 4), where L is log(n (T + 1)) for KT and log(3 n T^2) for SAD, which needs an arithmetic that counts exactly. The constant of SAD does not depend on the size of the alphabet. log_predict returns digit for digit what update would return.", "quantifier": "every accurate arithmetic (double precision is one), every finite alphabet, every tower of models, every sequence of symbols of the alphabet with weight 1", "why_tests_cant": "An error bound for all sequences and all lengths; the parameter of SAD divides by a logarithm near zero, which magnifies rounding errors most when all symbols are different.", "anchors": ["model.py: KT.__init__", "model.py: KT.update", "model.py: KT.log_predict", "model.py: SAD.update", "model.py: SAD.log_predict", "model.py: CTW", "model.py: PTW", "model.py: PTWFixedLength"]}
{"id": "C125", "title": "Rounding errors of predictions", "statement": "Call update and log_predict in any order on any tower of CTW, PTW and PTWFixedLength over KTBinary, KT or SAD, in an arithmetic whose operations have a relative error of at most eps. No call raises, and every single result differs from that of exact arithmetic by at most a constant of the tower times eps (U + 1)^2 (10 L + 4) after U updates, where L is as in C124, and however many predictions were made. Moreover in every arithmetic, accurate or not, log_predict of KTBinary, KT, SAD and of CTW over them returns digit for digit what update would return, in every state, and so does that of PTW and PTWFixedLength over them except when the number of updates is a positive multiple of the least partition length.", "quantifier": "every arithmetic, every tower, every interleaving of updates and predictions of symbols of the alphabet (updates with weight 1 for the error bound)", "why_tests_cant": "An error bound for all interleavings; log_predict of PTW sums its adjustment in another order than update, which only shows in rounded arithmetic.", "anchors": ["model.py: KTBinary.log_predict", "model.py: KT.log_predict", "model.py: SAD.log_predict", "model.py: CTW.Node.log_predict", "model.py: PTW.Node.log_predict", "model.py: PTW.log_predict", "model.py: PTWFixedLength.log_predict"]}
{"id": "C126", "title": "Length of the code in rounded arithmetic", "statement": "Compress n bits with the arithmetic coder of N bits, with any tower of CTW and PTW over KTBinary as its model, computing everything in an arithmetic of relative error eps that suffices for n. Nothing raises, and for every k with 2k < N the code has at most 2 + (N-1)/(N-1-2k) (-log2 p + n log2(e)/2^k + E) bits, where p is the exact probability of the message under the tower and E a bound of the rounding errors (below a thousandth of a bit for a thousand bits in double precision). So the code is near that of every coin (KT), and of every coin that changes at times of its own (PTW), whatever the rounding errors do.", "quantifier": "every arithmetic of the given accuracy, every message, N, k and tower; every coin, and every changing coin", "why_tests_cant": "A bound against all sources for all messages, with the rounding of model, coder and interval together.", "anchors": ["ac.py: ArithmeticEncoder", "z.py: compress", "model.py: KTBinary", "model.py: PTW", "model.py: CTW"]}
{"id": "C127", "title": "Forget-me-not in rounded arithmetic, with predictions", "statement": "Call update and log_predict of FMN in any order, over KTBinary, over KT with any alphabet or over SAD, with either model store, in an arithmetic of relative error eps that suffices for the number of updates. Neither making the model nor any call raises, and every number returned is near the corresponding one of a run in exact arithmetic that stores, at the end of each period, a model that is the best one up to a near tie; without near ties it is the exact run. Predictions of Averager return, digit for digit, what update would, in every state; those of FMN do so within a period.", "quantifier": "every arithmetic of the given accuracy, every sequence of calls (symbols, histories, order of predictions and updates), every period length and alphabet", "why_tests_cant": "Rounding errors accumulate through the weights of every stored model; tests compare a few values at one precision.", "anchors": ["model.py: FMN", "model.py: Averager", "model.py: PTW.log_predict", "model.py: LogStore", "model.py: LogStoreUniform", "model.py: KT", "model.py: SAD"]}
{"id": "C128", "title": "Arrays read from text", "statement": "If every string of a list or series is by itself the text of a number or of a nested list of numbers, de_array returns these, one for each string and in order, and so does strs_to_floats; in particular the texts that str() gives of nested lists are read back. One number that is not a literal, such as nan, or one missing cell makes the whole call raise. What a generator yields is lost: the result is empty. strs_to_floats raises for every single string that is the text of a list. If some string is not a literal by itself, rows may be lost or shifted without an error.", "quantifier": "every list of strings, every nesting, every syntax of numbers", "why_tests_cant": "The strings are joined and read as one text; whether the boundaries survive depends on all of them. The doctests use two rows.", "anchors": ["logfiles.py: de_array", "features.py: strs_to_floats"]}
{"id": "C129", "title": "Memory and work of PTW and FMN", "statement": "After n symbols a PTW with minimum block length 2^m holds new models that have seen exactly the symbols since the beginnings of the blocks of 2^j symbols, j >= m, that contain the last symbol, one for each different beginning: as many as there are ones in the binary notation of floor((n-1)/2^m), and one. An update makes one update of each model held after it, in the first 2^(m+k) updates k/2 + 1 on average. In FMN with LogStore the mixture that begins at st has exactly floor(log2(st/2^m + 1)) + 1 components, the store floor(log2(n/2^m + 1)) + 1 models, and in all there are at most the number of mixtures and one times the size of the store; with LogStoreUniform one more for each mixture and the store.", "quantifier": "every sequence of symbols of any length, every minimum block length, every lawful base model, both stores", "why_tests_cant": "The logarithmic cost is a claim about sequences of every length; tests run a few short ones.", "anchors": ["model.py: PTW.update", "model.py: FMN.update", "model.py: LogStore", "model.py: LogStoreUniform"]}
{"id": "C130", "title": "PTWFixedLength beyond the announced length", "statement": "Feeding PTWFixedLength more symbols than announced raises nothing. The probability reported for a sequence of any length is the partition-tree mixture of the announced height, or of the smallest tree that covers the sequence if that is higher, so the regret bound of C28 holds for it. The probabilities of the next symbol sum to one, except when the number of symbols so far is a power of two not less than the announced length rounded up to a power of two and the minimum block: then they sum to (1 + b/p)/2, where b is the probability of the sequence for one base model and p that of the mixture, which is more than 1/2, at most 3/2, and 1 only if b = p.", "quantifier": "every sequence of symbols of any length, every announced length and minimum block, every base model with normalised updates", "why_tests_cant": "Tests stop at the announced length; the loss of normalisation occurs only at single steps, powers of two beyond it.", "anchors": ["model.py: PTWFixedLength.update", "model.py: PTW.update"]}
{"id": "C131", "title": "The C context tree returns the same digits as the Python ones", "statement": "In double precision, modelfast.CTW_KT with two symbols, model.CTW_KT and model.CTW over KT return the same floating point numbers at every call of update and log_predict, in any order, for every depth of at least 1 and all non-negative weights. model.CTW_KT and model.CTW agree in every arithmetic, errors included. The results of the C code, with any alphabet size, are near those in exact arithmetic, by a bound like that of C125.", "quantifier": "every list of calls of update and log_predict, every history, depth at least 1, non-negative weights; every arithmetic that is accurate, in which addition is commutative, zero is neutral for results and halves are exact", "why_tests_cant": "The two programs add in a different order and choose different branches of logsumexp2 on ties; tests compare a few sequences up to a tolerance, and cannot show that no digit ever differs.", "anchors": ["modelfast.py: CTW_KT", "modelfast.py: ctwnode_update", "modelfast.py: ctwnode_log_predict", "modelfast.py: logsumexp2", "model.py: CTW_KT", "model.py: CTW", "model.py: logsumexp2"]}
{"id": "C132", "title": "Compression that is stopped", "statement": "If z.py compress is stopped at any moment, or the disk is full, every file other than OUTFILE is as it was, and OUTFILE is unchanged or holds a beginning of the file that the whole run would have written. If INFILE and OUTFILE differ, running the program again has the result of an uninterrupted run. What is left of OUTFILE cannot be taken for a complete compressed file.", "quantifier": "every model, input, pair of paths, state of the file system and moment at which the run stops", "why_tests_cant": "Tests run the program to its end; a crash may come after any byte, and whether a cut file looks complete depends on the codes of all other inputs.", "anchors": ["z.py: main", "ac.py: compress_bytes"]}
{"id": "C133", "title": "Interrupted updates", "statement": "If an update is interrupted (by Ctrl-C, an exception raised in a signal handler or lack of memory), the model is as before the update or as after it.", "quantifier": "every model, history of complete and interrupted updates, and point between two assignments at which an update is interrupted", "why_tests_cant": "Tests do not interrupt an update; the interruption may come between any two assignments, in any node of a tree, any number of times, and the effect may show much later.", "anchors": ["model.py: KT.update", "model.py: KTBinary.update", "model.py: SAD.update", "model.py: Averager.update", "model.py: CTW.Node.update", "model.py: PTW.update", "model.py: PTW.Node.update", "model.py: PTWFixedLength.update"]}
{"id": "C134", "title": "Context trees in different threads", "statement": "Context trees, including copies of one another, can be used in two threads at once: each thread gets the values that it would get alone.", "quantifier": "every schedule of the steps of two threads, all sequences of creations, copies, updates and predictions in each of them, every base model, context functions and depth", "why_tests_cant": "The number of schedules is exponential in the number of steps and tests see few of them; the harm of a bad one may only show in later predictions, in no thread's own code.", "anchors": ["model.py: CTW.Node.update", "model.py: CTW.Node.log_predict", "model.py: CTW.Node.copy"]}
{"id": "C135", "title": "Symbols that are not in the alphabet", "statement": "update and log_predict with a symbol that is not in the model's alphabet raise an exception, and the model returns afterwards what it would have returned without the call.", "quantifier": "every symbol outside of the alphabet, every state reachable before, all later calls, every alphabet, depth and context", "why_tests_cant": "The symbols are all integers, and a wrong one may be accepted without any sign; its effect is on results of arbitrary later calls.", "anchors": ["model.py: KT", "model.py: KTBinary", "model.py: CTW", "modelfast.py: CTW_KT", "modelfast.py: ctwnode_update", "modelfast.py: ctwnode_base_update"]}
{"id": "C136", "title": "Weights of updates", "statement": "The weight of an update says how much of an observation it is: of a number of updates only the total weight of every symbol matters to all later answers. So an update with weight zero changes no later answer, weights add up, and an update with the opposite weight takes an update back.", "quantifier": "all model classes, all lists of updates with the same totals, all real weights (also zero and negative ones), all later calls", "why_tests_cant": "The weights are all real numbers, and the effect of a wrong one shows only in later calls.", "anchors": ["model.py: KT.update", "model.py: KTBinary.update", "model.py: SAD.update", "model.py: Averager.update", "model.py: CTW.Node.update"]}
{"id": "C137", "title": "Seeing a symbol makes it more probable", "statement": "An observation does not make the same observation less probable: when a symbol is observed twice in a row, with the same history and weight, the second update reports at least the probability that the first one reported.", "quantifier": "all model classes and their nestings, all histories of updates, all symbols, histories and non-negative weights", "why_tests_cant": "The claim compares two consecutive answers after every history; the exceptions occur only at certain positions or for certain symbols.", "anchors": ["model.py: KT.update", "model.py: KTBinary.update", "model.py: SAD.update", "model.py: Averager.update", "model.py: Factored.update", "model.py: CTW.update", "model.py: PTW.update", "model.py: PTWFixedLength.update", "model.py: FMN.update"]}
{"id": "C138", "title": "The names of the symbols do not matter", "statement": "A model does not depend on what its symbols are called: if all symbols are renamed, in the alphabet, in the observations and in the histories, then every call on the model and on its copies returns what it returned before, or raises the same exception.", "quantifier": "all model classes and their nestings, all injective renamings (also to symbols of another type), all sequences of calls", "why_tests_cant": "There are unboundedly many renamings and call sequences; the exception concerns only the first few observations of a sequence.", "anchors": ["model.py: KT", "model.py: KTBinary", "model.py: SAD", "model.py: Averager", "model.py: Factored", "model.py: CTW._mkcontext", "model.py: PTW", "model.py: PTWFixedLength", "model.py: FMN", "model.py: LogStore", "model.py: LogStoreUniform"]}
{"id": "C139", "title": "Models in place of equal models", "statement": "Inside another model, a model can be replaced by one that answers all calls alike without any difference to the caller: KT((0,1)) by KTBinary and CTW by CTW_KT, as components of Averager or Factored, as base model of CTW, PTW, PTWFixedLength or FMN, at every depth of nesting.", "quantifier": "all pairs of models that answer alike, all enclosing models, all sequences of calls", "why_tests_cant": "The claim is about all nestings of models and all later calls; tests compare single classes on a few sequences.", "anchors": ["model.py: KTBinary", "model.py: CTW_KT", "model.py: Averager", "model.py: Factored", "model.py: CTW", "model.py: PTW", "model.py: PTWFixedLength", "model.py: FMN"]}
{"id": "C140", "title": "Depth of nested calls", "statement": "How deep the calls of a model are nested does not depend on what it has seen, except for partition trees, where it grows with the logarithm of the length of the sequence: an update of CTW(depth) with the default base models succeeds exactly if Python's recursion limit leaves room for depth + 4 calls, one of CTW_KT(depth) for depth + 3; the next update of a PTW after n symbols needs as many as its base model, two, and the number of ones in the binary notation of the number of complete blocks; FMN needs two more. With less room the update raises RecursionError.", "quantifier": "all recursion limits, all depths, all sequences of symbols, all trees whether or not their nodes are missing or shared, all base models whose calls are nested to a fixed depth", "why_tests_cant": "Sequences long enough to nest the calls of PTW even 40 deep cannot be run; tests use the default limit and small depths, far away from it.", "anchors": ["model.py: CTW.Node.update", "model.py: CTW.node_factory", "model.py: CTW_KT.Node.update", "model.py: PTW.Node.update", "model.py: PTW.node_factory", "model.py: FMN.update", "model.py: FMN.model_factory", "model.py: Averager.update", "model.py: LogStore.lazy_add"]}
{"id": "C141", "title": "Size of the reference counts of the C code", "statement": "The count of references to a node of modelfast.CTW_KT never exceeds the number of models that exist. So while fewer than 2^32 models exist, the unsigned int that holds it does not wrap around: copies are independent, no freed node is used and nothing leaks. With 2^32 models the count of a node shared by all is 0 and a symbol shown to one model changes the predictions of another; with one model more, destroying a model frees a node that the others still use.", "quantifier": "all sequences of creating, copying, updating, asking and destroying models, all alphabet sizes and depths, all sizes of the count", "why_tests_cant": "Four billion copies do not fit into the memory of a test machine, and no test could show that fewer copies with deep trees cannot reach the limit earlier.", "anchors": ["modelfast.py: ctwnode_copy", "modelfast.py: ctwnode_free", "modelfast.py: ctwnode_update", "modelfast.py: CTW_KT.copy", "modelfast.py: CTW_KT.__del__"]}
{"id": "C142", "title": "Mixtures stay within the range of their parts", "statement": "Averaging models, context trees, partition trees and forget-me-not never give the next symbol a probability below the least or above the largest one that the models they are built from could have given after as many symbols. So with KT estimators and weights of at most one, a symbol out of k has a probability of at least 1/(k(n+1)) after n symbols, whatever came before: one more symbol never costs more than log(k(n+1)), and no bit is ever hopeless for the coder.", "quantifier": "all base models, alphabets, histories, depths, block lengths, contexts, stores and weights between zero and one", "why_tests_cant": "A single sequence on which a mixture is more extreme than all its parts would be enough, and the bound has to hold after every history.", "anchors": ["model.py: KT.update", "model.py: Averager.update", "model.py: CTW.update", "model.py: PTW.update", "model.py: PTWFixedLength.update", "model.py: FMN.update"]}
{"id": "C143", "title": "Damaged codes, and bits after a code", "statement": "If the first bits of a code are intact, then the beginning of the message that they stand for is decoded, whatever comes later: damage never spreads backwards by more than the coder's look-ahead. Zeros may follow a code, and any bits may follow one that ends with a one; a code that ends with a zero may not be followed by other bits, so codes cannot be concatenated and told apart. For models that give zero at least one half, decompress returns on every bit sequence whatsoever.", "quantifier": "all models, messages, beginnings of messages, damaged continuations, numbers of bits of the coder and requested lengths", "why_tests_cant": "The damage can be any bit sequence after any prefix, and non-termination on malformed input cannot be observed by running the decoder.", "anchors": ["ac.py: compress", "ac.py: decompress", "ac.py: BinaryArithmeticDecoder.decode"]}
{"id": "C144", "title": "No model shortens everything, and the length is needed", "statement": "Of all messages of the same length at most 2^k have codes of at most k bits, whatever the model, so at most one in 2^j is shortened by j bits, and for each length some message is not shortened at all; likewise for bytes. The code alone does not tell the message: different messages of different lengths can have the same code, so that the length has to be kept.", "quantifier": "all models, message lengths, sets of messages and code lengths", "why_tests_cant": "A counting argument over all messages and all models; no finite number of runs shows that a compressor cannot be too good.", "anchors": ["ac.py: compress", "ac.py: compress_bytes"]}
{"id": "C145", "title": "Predictions converge to the probabilities of the source", "statement": "If the symbols are drawn at random, the predictions get close to the true probabilities: the expected sum over the first n predictions of the squared distance between predicted and true distribution is at most four times the loss against the source. So it grows with log n only for KT on independent draws, for CTW on tree sources, for PTW and FMN on sources whose distributions change a few times; and it is bounded by 4 log k, for ever, for an average of k models of which one is right. The expected number of predictions that are off by e or more is at most 4R/e^2.", "quantifier": "all alphabets, distributions, tree sources, piecewise stationary sources, base models of averages, histories and numbers of symbols", "why_tests_cant": "A statement about the expectation over all sequences of each length and all sources; simulations only sample both.", "anchors": ["model.py: KT.update", "model.py: Averager.update", "model.py: CTW.update", "model.py: PTW.update", "model.py: FMN.update"]}
{"id": "C146", "title": "More general models cost little", "statement": "A context tree of greater depth loses against a shallower one at most one bit for each of the shorter contexts that occurred, so at most 2^d bits for ever with binary symbols. A partition tree for a length that is 2^j times as large loses at most j bits; one with shorter blocks at most one bit for each of the longer blocks; one that does not know the length at most log2(3/2) bits per doubling and one bit. An average over more models loses at most the logarithm of the ratio of their numbers.", "quantifier": "all base models, sequences, weights, depths, lengths, block lengths and lists of models", "why_tests_cant": "The bounds compare two models on every sequence; a test compares them on one.", "anchors": ["model.py: CTW", "model.py: PTWFixedLength", "model.py: PTW", "model.py: Averager"]}
{"id": "C147", "title": "The order of averaged models does not matter", "statement": "An average returns the same value from every update whatever the order of its models, and whether each of them is given once or several times, as long as equally often; and it raises on the same sequences.", "quantifier": "all models, orders, numbers of repetitions and sequences of observations", "why_tests_cant": "All permutations of all lists and all sequences.", "anchors": ["model.py: Averager.__init__", "model.py: Averager.update"]}
{"id": "C148", "title": "Mixtures follow the model that predicts best", "statement": "The next probability that an average gives to a symbol differs from the one that any of its models gives by at most the share of the other models in the probability of what was seen. So if one of n models was better than each of the others by a factor of e^D, the difference is at most (n-1) e^-D, and for D > 0 map() returns this model. Likewise a context tree differs from each tree of contexts, and a partition tree from each partition in time, by at most one minus its share.", "quantifier": "all base models, numbers of models, trees, partitions, sequences, next symbols, histories and weights", "why_tests_cant": "The bound relates the answer after every history to shares that depend on the whole history.", "anchors": ["model.py: Averager.update", "model.py: Averager.map", "model.py: CTW.update", "model.py: PTW.update", "model.py: PTWFixedLength.update"]}
{"id": "C149", "title": "Partition trees split reluctantly", "statement": "On at most 2^d symbols, every level that is added to a partition tree of depth d halves the distance between the probability that the tree and that one base model give to the data: if one base model does better, the loss falls with the depth and stays above that of the base model. While one symbol is repeated, a partition tree over KT has a greater loss than KT and a smaller one than shallower trees; it gives the repeated symbol a probability above that of a new KT and below that of KT, and every other symbol at most the probability of a new KT.", "quantifier": "all base models, depths, lengths, minimum partition lengths, sequences; for repeated symbols all alphabets of at least two symbols, all symbols, numbers of repetitions and histories", "why_tests_cant": "The project's tests compare a few depths on up to sixteen zeros; the claim is about every depth and every length, including the ends of blocks.", "anchors": ["learners.py: PTW.update", "learners.py: Model.total_loss", "model.py: PTW.update", "model.py: PTWFixedLength.update", "test_models.py: test_depth_differences", "test_models.py: test_ptw_cost"]}
{"id": "C150", "title": "The order of what was seen", "statement": "To KT, to averages of KT models and to context trees over them, the order of observations of the same weight does not matter: whatever the order, the probability of all of them is the same and so is the answer to everything that follows. Context trees depend on the pairs of history and symbol only. To partition trees the order does not matter within minimum partitions; beyond these it does. To SAD it matters.", "quantifier": "all alphabets, numbers of models, depths, minimum partition lengths, sequences, permutations of them and continuations; a witness where the order matters", "why_tests_cant": "The claim compares all permutations of all sequences and everything that may follow.", "anchors": ["model.py: KT.update", "model.py: KTBinary.update", "model.py: Averager.update", "model.py: CTW.update", "model.py: PTWFixedLength.update"]}
{"id": "C151", "title": "Mixtures of one part, and of mixtures", "statement": "An average of one model answers as that model, an average of averages of equally many models as the average of all of them, a context tree whose context is always the same as its base model, and a partition tree as its base model until the first minimum partition is complete.", "quantifier": "all base models, numbers of models, contexts, depths, minimum partition lengths, sequences, histories and weights", "why_tests_cant": "Two different objects are compared after every history.", "anchors": ["model.py: Averager.update", "model.py: CTW.update", "model.py: PTW.update", "model.py: PTWFixedLength.update"]}
{"id": "C152", "title": "Alphabets of the C implementation", "statement": "modelfast.CTW_KT works with every alphabet of up to 128 symbols, and of up to 256 where C's char is not signed; calls with symbols and histories of the alphabet then have the results of the Python implementation. With a larger alphabet, where char is signed every call that uses a symbol from 128 on, as its symbol or in its context, leaves the arrays of the tree; integers that are not bytes raise ValueError.", "quantifier": "all alphabet sizes, both kinds of char, all depths, states, call sequences, symbols and histories", "why_tests_cant": "Tests run on one platform, and an access outside of an array need not be visible.", "anchors": ["modelfast.py: CTW_KT.update", "modelfast.py: CTW_KT.log_predict", "modelfast.py: CTW_KT._mkcontext", "modelfast.py: ctwnode_update", "modelfast.py: ctwnode_log_predict"]}
{"id": "C153", "title": "Whatever is put together is a model", "statement": "Averages, products, context trees, partition trees and forget-me-not models over KT estimators, over models of the user's own that keep to the contract, and over one another, in any combination and to any height, also when the parts are of different classes and have been trained before: updates with symbols of the alphabet never raise, the probabilities they report sum to one over the next symbol and over all sequences of any length, and asking for predictions changes nothing. If no partition tree is among the parts, predictions agree with updates. If nothing without a working copy is among them, copies can be made at any time and answer as the original.", "quantifier": "all ways of putting models together, all alphabets, call sequences, histories and non-negative weights", "why_tests_cant": "There are infinitely many combinations, and each has infinitely many states.", "anchors": ["model.py: Averager", "model.py: Factored", "model.py: CTW", "model.py: PTW", "model.py: FMN", "model.py: KT", "model.py: LogStore", "model.py: LogStoreUniform"]}
{"id": "C154", "title": "Objects that are used more than once", "statement": "An Averager given different objects is the uniform mixture of them. An object that occurs in the list more often counts once, while the weights are those for the length of the list: the probability of every non-empty sequence is the sum over the different objects divided by the length of the list, so the first probabilities sum to one exactly if no object occurs twice. Objects may be parts of several mixtures and be used directly as well: no sequence of calls raises, and each mixture of different objects, or that has been updated, predicts what update then reports, with probabilities that sum to one. Factored([m] * k) answers as m; a copy of Factored answers as the original if no object is a factor twice, and otherwise need not.", "quantifier": "all lists of objects, all states, all interleavings of calls of objects and of mixtures over them, all base models that keep to the contract", "why_tests_cant": "Sharing matters in some interleavings only, and there is no bound on their number.", "anchors": ["model.py: Averager.__init__", "model.py: Averager.update", "model.py: Averager.log_predict", "model.py: Factored.update", "model.py: Factored.log_predict", "model.py: Factored.copy"]}
{"id": "C155", "title": "One wrong symbol costs little", "statement": "Changing one symbol of a sequence of n symbols, wherever it is, changes the log probability that KT over k symbols reports by the logarithm of the ratio of the two symbols' counts elsewhere, each k times plus one, and so by at most log(k(n-1)+1), which is reached; leaving it out changes it by at most log(kn). The same bound as for KT holds for PTWFixedLength over KT, whatever the lengths. For CTW over KT, where a wrong symbol also changes the contexts of the next symbols, the bound is (depth+1) log(kn), and what came before the first symbol matters by at most depth log(kn). An Averager loses no more than the model that loses most.", "quantifier": "all alphabets, sequences, positions, symbols and histories, all depths of at least one, all minimum partition lengths and heights", "why_tests_cant": "The bound is about every pair of sequences of every length; which pair is worst is not known beforehand.", "anchors": ["model.py: KT.update", "model.py: CTW.update", "model.py: CTW.__init__", "model.py: PTWFixedLength.update", "model.py: Averager.update"]}
{"id": "C156", "title": "How much of the history has to be kept", "statement": "A model put together in any way from the classes of model.py other than Factored looks no further back than its deepest context tree: on histories whose last D symbols agree, every call returns or raises the same and leaves the same state, so that in every program it is enough to pass history[-K:] for any K of at least one and at least the greatest depth. Less is not enough: a CTW of depth D predicts differently after histories that differ only D steps back. Factored with n factors also looks at the length of the history modulo n; given histories that are cut to K symbols it only ever uses one factor.", "quantifier": "all nestings of the classes, all states, all programs of calls, all histories, all depths of at least one, all K", "why_tests_cant": "There is no bound on how models are nested or on the length of histories.", "anchors": ["model.py: CTW.update", "model.py: CTW.log_predict", "model.py: Averager.update", "model.py: PTW.update", "model.py: FMN.update", "model.py: Factored.update"]}
{"id": "C157", "title": "How good a model can be", "statement": "No model is better than another on every sequence: for any two models over the same alphabet, in any states, and for every length there is a sequence to which the first gives no more probability than the second. On every sequence of n >= 1 bits KTBinary loses at least log(n)/2 and at most log(n)/2 + log 2 more than the best coin; and every model of bits, put together in any way, loses at least log(n)/2 more than some coin on some sequence of n bits. So in the worst case the KT estimator is within one bit of the best that any model could do. The log k that an Averager of k models may lose cannot be improved either.", "quantifier": "all models that give distributions, all states, all lengths, all sequences", "why_tests_cant": "The claims range over all models and over all 2^n sequences of every length.", "anchors": ["model.py: KTBinary.update", "model.py: KT.update", "model.py: Averager.update", "model.py: Averager.__init__"]}
{"id": "C158", "title": "Sources that change, with any base model", "statement": "If a new base model loses at most a factor M against each source of a class, on every part of a sequence, then on a sequence whose source changes c times PTWFixedLength, PTW and FMN over that base model lose at most c h + 1 times M (for FMN times the size of its store) and 2 c h + 1 bits (and for PTW and FMN a factor 3/2 per doubling), where h is the number of levels. In particular PTW and FMN over CTW over KT learn sources that change between tree sources, over any alphabet. An Averager of k models loses at most k times what its best model for the class loses, so that it can be such a base model.", "quantifier": "all base models, all classes of sources, all sequences of changes at multiples of the minimum block length, all sequences of symbols from the alphabet", "why_tests_cant": "The bound is for every sequence and every source, over all base models.", "anchors": ["model.py: PTW.update", "model.py: PTWFixedLength.update", "model.py: FMN.update", "model.py: CTW.update", "model.py: Averager.update"]}
{"id": "C159", "title": "Total loss of learners", "statement": "In learners.py, after any program of calls that do not raise, the total loss of a KT or PTW object is minus the sum of the logarithms of probabilities that update has returned (since the last reset). In ctw.py the property of the same name has the other sign: it is the sum of the logarithms that update has returned, minus the loss. learners.SAD and from_sequence raise on every use.", "quantifier": "all alphabets, all base models, all programs of calls", "why_tests_cant": "The programs of calls cannot be enumerated; that a class cannot be used at all needs every input.", "anchors": ["learners.py: Model.total_loss", "learners.py: Model.from_sequence", "learners.py: KT.update", "learners.py: PTW.update", "learners.py: SAD", "ctw.py: ProbSeq.total_loss"]}
{"id": "C160", "title": "In the long run", "statement": "If a base model loses at most a polynomial factor against each source of a class, and the source changes few times (so that the number of changes times the squared logarithm of the length is small against the length; at most n to a power below one is enough), then for every epsilon there is a length from which on PTW and FMN over it lose at most epsilon per symbol, on every sequence, against every choice of sources and every way to change. The same for KT against every distribution and CTW against every tree source of a size, and for PTW and FMN over CTW against changing tree sources. Some limit is needed: if the source may change at every symbol, every model over bits loses one bit per symbol on some sequence of each length.", "quantifier": "all base models, all classes of sources, all sequences from some length on, all ways to change at multiples of the minimum block length, all epsilon", "why_tests_cant": "A limit, uniform over all sequences and sources.", "anchors": ["model.py: KT.update", "model.py: CTW.update", "model.py: PTW.update", "model.py: FMN.update"]}
{"id": "C161", "title": "What answers reveal", "statement": "Over at least two symbols a caller can compute from two answers of a KT estimator how many symbols it has seen and how often one of them: from the probability p of the symbol and its probability p' after it has been seen once more, (1 - p') / (p' - p) is the number of symbols seen plus one. So two KT estimators give every sequence the same probability exactly if one has seen every symbol as often as the other; if not, some symbol, once or twice, tells them apart. Over one symbol the answers reveal nothing.", "quantifier": "all alphabets, all sequences seen, all sequences asked", "why_tests_cant": "An equivalence between all answers and the whole past.", "anchors": ["model.py: KT.update", "model.py: KT.log_predict"]}
{"id": "C162", "title": "Contexts of different lengths", "statement": "CTW takes a context function from its caller. If no context is the end of another one (contexts of one length are an example), CTW is a model: nothing raises, the probabilities of the next symbol sum to one after any updates, and log_predict returns what update returns. If the context of one history is a proper end of that of another, of length n, then after one symbol with the first history, to which the base model gave probability p, the predictions with the second history sum to 1 + (1/p - 1) / 2^(n+1). So CTW is a model exactly if no context is the end of another; with the default contexts, exactly if the depth is positive.", "quantifier": "all context functions, all base models, all sequences of updates, all integers as depth", "why_tests_cant": "All context functions and all histories; the exact condition.", "anchors": ["model.py: CTW.update", "model.py: CTW.log_predict", "model.py: CTW._mkcontext"]}
{"id": "C163", "title": "What context trees over contexts of different lengths learn", "statement": "If no context is the end of another one, CTW gives every sequence the probability of this mixture: at the end of a context that of a fresh base model over the symbols seen there; before it, half that of a base model over the symbols seen there plus half the product over the next context symbols. Against every assignment of base models to parts of the contexts (a tree that splits only on the way to contexts) it loses at most one bit for each split and one for each leaf that is not the end of a context.", "quantifier": "all suffix-free context functions, all base models, all sequences, all such trees", "why_tests_cant": "All context functions, all sequences and all trees to compare with.", "anchors": ["model.py: CTW.update", "model.py: CTW.context"]}
{"id": "C164", "title": "Which arguments make a model", "statement": "KT(alphabet, counts) is a model exactly if counts has a positive count for every symbol of the alphabet; KT(alphabet) with any non-empty list is a model over its distinct symbols, at first all equally probable, and with the empty list it can be made but raises KeyError whatever the symbol. KTBinary(counts) is a model exactly if both counts are positive. SAD(n) accepts a sequence exactly if it has at most n different symbols. Averager and Factored are models exactly if their lists are not empty. PTW(min_partition_length = x) is a model exactly if x > 1/2; for 0 < x <= 1/2 it can be made but raises at its first symbol, for x <= 0 its constructor raises. FMN raises in its constructor for every x <= 1/2, and otherwise is what it is for the largest power of two up to max(1, x).", "quantifier": "all alphabets, all counts, all integers n, all real minimum partition lengths, all base models, all sequences of updates", "why_tests_cant": "All values of the arguments, with the exact condition.", "anchors": ["model.py: KT.__init__", "model.py: KTBinary.__init__", "model.py: SAD.__init__", "model.py: Averager.__init__", "model.py: Factored.__init__", "model.py: PTW.__init__", "model.py: FMN.__init__"]}
{"id": "C165", "title": "What the stores remember", "statement": "A LogStore holds its first item for ever, and the item at position 2^v (2u+1) exactly until 2^(v+1) items have been added since, counting it; so how long an item is held depends only on its position. Counting ages from one for the newest item, it holds exactly one item of the ages from 2^j to less than 2^(j+1), for every j for which there are such items; so near every item ever added one is held of at least half and less than twice its age. A LogStoreUniform of gap g holds for every item ever added one that was added less than 2g items before it. FMN with LogStore holds exactly one model from the end of a period of each such range of ages.", "quantifier": "all numbers of items added, all positions, all ages; for FMN all sequences and base models", "why_tests_cant": "All numbers of items and all positions.", "anchors": ["model.py: LogStore.add", "model.py: LogStoreUniform.lazy_add", "model.py: FMN.update", "learners.py: LogStore.add"]}
{"id": "C166", "title": "How good a model of several symbols can be", "statement": "On every sequence of n symbols out of k, KT with the initial count 1/2 for each symbol loses (k-1)/2 log n against the best distribution, at least that less k log (2k) and at most that plus log (2k). For every model of k symbols, in particular for everything put together from the classes of model.py, there is a sequence of each length on which it loses at least (k-1)/2 log n - k log (2k) against some distribution. The default counts 1/k do not lose more than that in the worst case, up to a constant, and on a sequence of one symbol they lose between (1-1/k) log (n+1) and log n + log k.", "quantifier": "all alphabets, all models, all lengths; for KT all sequences", "why_tests_cant": "All models, all alphabets and all lengths.", "anchors": ["model.py: KT", "model.py: KT.update", "model.py: KT.__init__"]}
{"id": "C167", "title": "What the models of ctw.py and learners.py lose", "statement": "ctw.KT and learners.KT lose at most the price of one distribution against every source of independent symbols. ctw.CTW(depth, KT), which keeps its own history, loses against every tree source at most one bit per node above the maximal depth and one such price per leaf. If a new base model loses at most a factor against each source of a class, ctw.PTW(height) and learners.PTW(depth) over it lose, on a sequence whose source changes c times, at most c*height+1 times that and 2*c*height+1 bits; for ctw.FMN the factor is multiplied by the size of its store, which is logarithmic in the number of symbols.", "quantifier": "all alphabets, all sequences up to 2**height, all sources and change points, all base models, any order of the stored models", "why_tests_cant": "All sequences and all sources.", "anchors": ["ctw.py: KT", "ctw.py: CTW", "ctw.py: PTW", "ctw.py: FMN", "learners.py: KT", "learners.py: PTW"]}
{"id": "C168", "title": "The coder as a stream", "statement": "The bits that have come out of the encoder after the first symbols are the beginning of the code, whatever follows. Their number is at most the information in those symbols as the coder counts it and at least that less N-1, for a coder of N bits. However probable the symbols are, at least one of any 2**N-1 symbols in a row makes a bit come out, so a code of c bits stands for at most (2**N-1)(c-2)+2**N-2 symbols, and m bytes for fewer than (2**N-1)m bytes. For every N there are a model and a message of 2**N-2 symbols for which nothing comes out before the flush.", "quantifier": "all models that sum to one, all messages, all continuations, all sizes N >= 1 of coder", "why_tests_cant": "All messages, models and sizes of coder; the message that reaches the limit has four thousand million symbols with the coder of 32 bits.", "anchors": ["ac.py: compress", "ac.py: compress_bytes", "ac.py: BinaryArithmeticEncoder.encode", "ac.py: BinaryArithmeticEncoder.flush"]}
{"id": "C169", "title": "What may be passed as a history", "statement": "KT, KTBinary, SAD and Dumb take anything as history, also nothing. Averager, PTW, PTWFixedLength and FMN take whatever their parts take, and treat it as their parts do. Factored takes lists and tuples and raises TypeError without a history; CTW with its default contexts and CTW_KT take lists only and raise TypeError otherwise. update_seq without a history, or with a tuple, raises after the object has been updated with the first symbol. If the context function of CTW returns the history it is given, every call empties the list of the caller: an update after log_predict with the same list reports another probability, and in update_seq each symbol after the first has only the symbol before it as its context.", "quantifier": "all models built of these classes, all states, all symbols, histories and sequences", "why_tests_cant": "All compositions of classes and all states.", "anchors": ["model.py: Model.update_seq", "model.py: CTW", "model.py: CTW_KT", "model.py: Factored", "model.py: Averager", "model.py: PTW", "model.py: FMN"]}
{"id": "C170", "title": "A factory that returns the same object", "statement": "A CTW of depth at least one whose model_factory returns the same KTBinary at every call raises nothing, but it is no model: after any updates, and with whatever history comes next, the probabilities that it reports for the two symbols sum to more than one. Every update counts its symbol once for each node that it visits.", "quantifier": "all positive counts to begin with, all depths from one, all context functions, all sequences of updates, all histories and positive weights", "why_tests_cant": "All sequences, depths and states.", "anchors": ["model.py: CTW", "model.py: CTW.Node.update", "model.py: KTBinary.update"]}
{"id": "C171", "title": "Context trees and partition trees are Bayesian mixtures", "statement": "The probability that CTW reports for a sequence is the sum over all prunings of the context tree, each with two to the minus its description length as prior and with one base model at each leaf; that of PTWFixedLength and learners.PTW is the sum over all binary partitions in time, with a new base model in each segment. The priors sum to one. What CTW, PTWFixedLength and PTW report for the next symbol is the average of what these models predict, weighted by their posterior probabilities. What FMN reports for the next symbol is the ratio of two such sums over partitions in time, in which a segment has the mean of the probabilities that the models stored when it starts give to it. CTW of depth d + 1 over contexts of k symbols averages over at least 2^(k^d) models, a partition tree with d + 1 levels over at least 2^(2^d).", "quantifier": "all base models, context functions, depths, minimum block lengths and sequences", "why_tests_cant": "The sum has doubly exponentially many terms.", "anchors": ["model.py: CTW", "model.py: PTW", "model.py: PTWFixedLength", "learners.py: PTW", "model.py: FMN"]}
{"id": "C172", "title": "The KT estimators have beta and Dirichlet priors", "statement": "The probability that KTBinary, and KT over two symbols, reports for a sequence of bits is that of a coin whose bias is drawn from the beta distribution with the initial counts as parameters: Beta(0.5, 0.5) by default, as the documentation says. The current counts are the parameters of the posterior distribution, and the prediction is its mean. Over an alphabet of any size, the probability that KT reports is that of independent draws from a distribution which is itself drawn from the Dirichlet distribution with the initial counts as parameters, and the current counts are again the parameters of the posterior. A CTW over binary estimators reports the probability of drawing a pruning of the context tree, a coin for each leaf, and tossing the coins.", "quantifier": "all alphabets, positive initial counts, sequences with unit weights, functions of the bias, depths and context functions", "why_tests_cant": "The prior is a continuous distribution and the sequences have every length.", "anchors": ["model.py: KT", "model.py: KTBinary", "model.py: CTW"]}
{"id": "C173", "title": "A model of the observations given the actions", "statement": "On a sequence in which actions and observations alternate, Factored((Dumb(), m)).update_seq does what calls of m.update for the observations alone do, each with the whole past and the action just taken as history: the same total, the same state of m, the same exceptions, and the caller's history is restored. log_predict_seq likewise. Every action has probability one and changes nothing. If the actions follow any policy, the probabilities of all sequences of n observations sum to one. With CTW_KT of depth at least two as m, if a rule tells the observation from the action and the observation before and is wrong k times, n observations cost at most 12 + k + (k + 2) log2 n bits; the n observations of a Hallway cost at most 13 + 3 log2 n bits. With FMN over CTW_KT as m the cost is at most that with CTW_KT as m, one bit, log2 1.5 for each level of its partitions and the logarithm of the greatest number of stored models. Copying such a model raises NotImplementedError.", "quantifier": "all models m, histories of even length, sequences, policies, rules, depths, random numbers and weights", "why_tests_cant": "All sequences, all policies and all models; the bounds hold for every length.", "anchors": ["model.py: Factored", "model.py: Dumb", "model.py: CTW_KT", "model.py: FMN", "modelfast.py: CTW_KT", "pomdp.py: Hallway"]}
{"id": "C174", "title": "What log_predict_seq returns", "statement": "log_predict_seq asks the model as it is, without learning: it returns the logarithm of the product of the predictions that the model gives, as it was before the call, for each symbol after the history and the symbols before it, and it has no effect on later answers. A sequence can be given in parts. For objects put together from the classes of model.py without PTW and FMN, after any training, the probabilities of all sequences of n symbols sum to one; for PTW and FMN at the end of a block of minimum length they sum to more than one, for every n. For KT, KTBinary and SAD the order of the sequence does not matter. It is not the probability that update_seq reports: a new KTBinary gives 0 0 the probability 1/4 instead of 3/8.", "quantifier": "all models whose predictions have no effect, all states, histories, sequences and lengths", "why_tests_cant": "All states and all sequences; the sums have exponentially many terms.", "anchors": ["model.py: Model.log_predict_seq", "model.py: Model.update_seq", "model.py: KT", "model.py: KTBinary", "model.py: SAD", "model.py: PTW", "model.py: FMN"]}
{"id": "C175", "title": "How deep a context tree has to be for the environments", "statement": "For every d there are two possible courses of a Room in which the last d symbols before an observation are the same and the observation is different. So CTW_KT of any depth, whatever it has been trained with, gives to what is really observed in the two courses probabilities that sum to one, and at most 1/2 to one of them. The same holds for a Hallway and depth one, although depth two is enough there (C173).", "quantifier": "all depths, all probabilities of going forward strictly between zero and one, all training sequences", "why_tests_cant": "Every depth and every training sequence.", "anchors": ["pomdp.py: Room", "pomdp.py: Hallway", "model.py: CTW_KT", "modelfast.py: CTW_KT"]}
{"id": "C176", "title": "Symbols that are not seen", "statement": "To a model for which the order does not matter (C150), symbols that are not seen do not matter, wherever they stand: the sum, over all that they can be, of the probabilities of the whole sequence is the probability of the sequence without them. So on average over what such a model expects next, what it will report for an observation is what it reports now. This holds for KT over any alphabet. It is false for CTW if the histories contain the symbols that are not seen: CTW(1) gives zero the probability 1/2 as first symbol and 9/16 as second one. It is false for partition trees, which give two zeros the probability 11/32 at the start and 5/16 one symbol later.", "quantifier": "all models that do not depend on the order, alphabets, initial counts, weights, sequences and numbers of missing symbols", "why_tests_cant": "The sum is over all words of every length, inserted anywhere in every sequence.", "anchors": ["model.py: KT", "model.py: KTBinary", "model.py: CTW", "model.py: PTWFixedLength"]}
{"id": "C177", "title": "Sequences with a pattern", "statement": "If a rule tells the next bit from the last d bits and is wrong k times in n bits, and m different contexts occur, then a context tree of depth d loses at most m (d + 1 + log2(n)/2) + k log2(2n) + 1 bits: it does not pay for the contexts that could occur and do not. On n bits that repeat with period p, a context tree of any depth d from p on loses at most (d + p)(d + 1 + log2(n)/2) + p log2(2n) + 1 bits. Both hold for CTW in model.py and for CTW_KT in modelfast.py, which report the same.", "quantifier": "all rules, periods, depths, lengths and sequences of bits", "why_tests_cant": "All rules and sequences of every length.", "anchors": ["model.py: CTW", "modelfast.py: CTW_KT"]}
{"id": "C178", "title": "How much a context tree loses at least", "statement": "If every rule that tells the next bit from the last d bits is wrong at least k times on a sequence, then a context tree of depth d loses at least 2k bits on it. So a depth that is too small cannot be made up for by more data: for every d there is a sequence of period d + 2 on which the context tree of depth d loses at least two bits in each period for ever, although trees of depth d + 2 or more lose only logarithmically many in all (C177). Both hold for CTW in model.py and for CTW_KT in modelfast.py.", "quantifier": "all depths of at least one, all sequences of bits, all rules, all numbers of periods", "why_tests_cant": "All rules and sequences of every length.", "anchors": ["model.py: CTW", "modelfast.py: CTW_KT"]}
{"id": "C179", "title": "Every run costs a bit", "statement": "On every sequence of bits the binary estimator loses at least one bit for each maximal run of equal bits. Splitting time does not make changes cheaper: partition trees of fixed length over it lose at least as much. Both hold in model.py, ctw.py and learners.py. Without a fixed length, PTW in model.py loses at least the number of runs less one bit for each level that its tree has grown.", "quantifier": "all sequences of bits with weight 1, all minimum partition lengths and heights or depths (the fixed ones within the length they allow)", "why_tests_cant": "All sequences of every length.", "anchors": ["model.py: KTBinary, PTW, PTWFixedLength", "ctw.py: KT, PTW", "learners.py: KT, PTW"]}
