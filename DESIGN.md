# Formal model of forget-me-not: design

## Trusted base

* Lean 4.33.0's kernel, and Mathlib as installed for it.
* Axioms: every theorem depends on at most `propext`, `Classical.choice` and `Quot.sound`. No axiom is added, there is no `sorry`, and neither
  `native_decide` nor `bv_decide` is used. Concrete witnesses use `decide +kernel`, which the kernel evaluates itself.
* The hand translation from the Python text (for `modelfast.py`, the C text) to Lean definitions. Each definition cites the lines it translates.
  Nothing checks that translation mechanically. The seeded changes in `seeded/LOG.jsonl` check only that the theorems notice changes to it.

### Global simplifications

* **Floating point.** Python `float` and C `double` values are exact real numbers (`ℝ`). Rounding, overflow, underflow, `inf` and `nan` are not
  modelled, except in `Model/Rounding.lean`, `Model/RoundingPTW.lean`, `Model/RoundingTower.lean`, `Model/RoundingFMN.lean`, `Model/RoundingAC.lean`, `Model/RoundingAlphabets.lean`, `Model/RoundingFast.lean` and `Model/RoundingHeights.lean`: there `logsumexp2`, `KTBinary`, `KT`, `SAD`, `CTW`, `CTW_KT` (Python and C), the arithmetic encoder, the heights of partition trees and the updates and predictions of `PTW` and `PTWFixedLength` compute in an arbitrary arithmetic whose operations have a
  relative error of at most ε (and `exp` an additional absolute one, for underflow), and C99, C100, C109, C112, C113, C116, C117 and C124 to C127 and C131 bound the difference to the exact model. `math.log` keeps its guard: it raises `ValueError` on non-positive input. Division raises `ZeroDivisionError` on a zero divisor.
* **Exceptions** are values of `Py := Except PyErr`. When an operation raises, the model records the error; the half-updated state of a raising
  operation is modelled only where a theorem speaks about it.
* **Mutation.** An object is a value and a mutating method returns the new value. Aliasing is modelled explicitly where the code relies on it: the
  context-tree nodes shared between copies (`Model/CTWHeap.lean`); for objects given to `Averager` and `Factored` more than once see C154.
* **Symbols** are elements of a type with decidable equality; for binary models they are `Bool` or `Fin 2`. Negative indices such as `counts[-1]`
  are outside the model of the binary estimators.
* Python `int` is `ℤ` or `ℕ`; exact.
* **Loops** whose termination is in question (`ac.py`, `FileEnvironment.get_all_data`) carry fuel. Totality theorems give an explicit sufficient
  amount; non-termination theorems say that every amount runs out.
* Further simplifications stand at the head of each file in `Verif/Model`.

## Layout

* `lean/Verif/Py.lean`: errors, guarded log and division, Python list slices.
* `lean/Verif/Model/*.lean`: the translated code.
  By the file that most of a module translates (each definition cites its own lines; some modules draw on further files):
  `model.py`: KT, Averager, CTW, CTWDepth, CTWSize, PTW, LogStore, FMN, LogSumExp, Predictor, Constructing, Histories, Frames, Aliased, SameObject,
  Either, Failures, Interrupted, Threads, ACCalls, Rounding, RoundingAlphabets, RoundingPTW, RoundingTower, RoundingFMN, RoundingHeights;
  `modelfast.py`: Fast, CTWHeap, CTWHeapWrap, Chars, OutOfRange, RoundingFast; `ctw.py`: Ctw, CtwSeq, CtwFMN; `learners.py`: Learners, LearnersBase,
  LearnersKT, LearnersMore; `ac.py`: AC, RoundingAC; `helpers.py`: Helpers, Format, Strings, Splitting (also `experiment.py`); `utilities.py`: Files,
  Items, LogData, LogText, Matching, Params, Vectors (also `features.py`); `environments.py`: CoinFlip, FileEnv, Filters; `datasets.py`: Structures,
  Construct, Saving, Entering, Matches, Records, CommandLine; `logfiles.py`: Logs, Literals, Reformat; `jobs.py`: Jobs, Text; `pomdp.py`: Pomdp;
  `sensors.py`: Sensors; `z.py`: Z.
* `lean/Verif/Spec/*.lean`: small specifications that do not use the model.
* `lean/Verif/Proofs/*.lean`: helper lemmas.
* `lean/Verif/Props/*.lean`: the property theorems, named `Cnn_...`, with a concrete case of their hypotheses beside them.

## Generic predictor interface

`Predictor σ α` is a record of `update : σ → α → history → weight → Py (ℝ × σ)`, `logPredict : σ → α → history → Py (ℝ × σ)` and
`copy : σ → Py σ`. Composite models (Averager, Factored, CTW, PTW, FMN) take the record of their base model, so their theorems hold for every base.
`Spec/Predictor.lean` defines runs, sequence probabilities and what it means for a predictor to be *lawful*: total on its alphabet, update agrees
with prediction, probabilities sum to one. `ctw.py` objects keep their own history; `ProbSeq` records their methods and the attribute `log_prob`.

## What is modelled

| file | modelled | not modelled |
|------|----------|--------------|
| `model.py` | all classes; states after exceptions (C121) | that attributes can be reassigned from outside |
| `modelfast.py` | tree allocation, copy-on-write, free, update, predict, size; symbols out of range (C135), symbols as `char` (C152) | the rest of the cffi binding; `malloc` failure; negative depths |
| `ctw.py` | `ProbSeq`, `KT`, `SAD`, `CTW`, `PTW`, `Averager`, `LogStore`, `FMN` | `ProbSeq.prob` (always AttributeError), `Factorize` (returns itself) |
| `learners.py` | `LogStore`, `PTW`, `KT`, `Averager`, `reset`, descriptions of `PTW`; `SAD` and `Model.from_sequence` up to the exceptions they always raise (C159) | doctests, the main program |
| `ac.py` | encoder, decoder, bit and byte functions, call signatures | file handling |
| `helpers.py` | partition arithmetic, `log_sum_exp`, `get_regions`, `get_outer_boundaries`, `format_protocol`, `split_params` without evaluation, `de_number`, `unique_dict_sets`, `approx`, `all_approx`, `dicts_exact_match`, `clean_string`, `format_param`, `format_join`, `listify` | plotting, tests helpers |
| `utilities.py` | item strings, command lines and short keys (C94), directories (C95), zipped files (C96), file and parameter matching (C97), lines of logs, bins and scaling (C98), `get_log_data`, `save_log_data`, `get_header_list`, `num_data_lines`, `read_strings`, `read_floats`, `get_snippets` up to its exception (C92), `scale_features`, `decay_trace`, `calculate_return`, `running_mean`, `log_sum_exp`, `argmax`, `join_number`, `split_number`, `get_array_headers`, combinations, shared keys and grouping of parameters, `set_attributes`, `split_params` (`float()` is an arbitrary partial function), modifiers, `approx` | argument parsing |
| `features.py` | `calculate_return`, `running_mean`, `get_unitizer`, `strs_to_floats` (C128) | sklearn |
| `sensors.py` | tile coders, pairs, concatenation | plotting |
| `environments.py` | `CoinFlip`, `FileEnvironment`, `Protocol`, `EnvDir` | data frames; reading of log files (an arbitrary function for C58); `get_env_data`, `get_return_data` |
| `experiment.py` | `DataSplitter` | experiment set-up (importing the module raises NameError: `LogStore`, a default value in line 114, is not imported; lines 136-216 are one string) |
| `datasets.py` | directory names of structures of string parameters, writing and reading without evaluation (C84), construction from keywords and inheritance (C105), saving and loading (C106), selection (C107), command lines (C108), entering and leaving experiments (C111), records (C120) | most of `argparse` |
| `z.py` | the whole program on files as byte lists, and the progress display (C85, C86, C132) | `docopt`, timing, what is printed |
| `pomdp.py` | all (C87) | other kinds of modes |
| `jobs.py` | `JobSet` and the reading of logs, on files as a map from paths to texts, `qsub` as a stream of answers (C88, C89) | plots, `print` |
| `logfiles.py` | `LogWriter`, `LogReader`, headers, completeness and finding of files (C90, C91), `reformat_data` (C123), `de_array` (C128) | `pandas` reading and writing (arbitrary functions), `get_dir`, `get_params` (names that are not defined) |
| `local.py` | two constants | |

## Properties

| id | modelled as | method |
|----|-------------|--------|
| C01-C03 | `KT` with association-list counts and a cached total | invariant by induction over runs; closed form; exchangeability |
| C04 | `KTBinary` | bisimulation with `KT` on `[0, 1]` |
| C05 | `SAD` with association-list counts | invariant and algebra; error branches stated |
| C06 | `logsumexp`, `logsumexp2` | direct |
| C07 | `update_seq`, `log_predict_seq` with the history list threaded through | induction; **partial**: false for the empty sequence (the code empties the history) |
| C08-C11 | `Averager` as list of (component state, log weight) | induction; `exp` of the cumulative log weight is the mixture |
| C12 | `Factored` as list of states | frame lemma; **partial**: the caller's weight is dropped |
| C13-C17 | `CTW` nodes as an inductive tree | refinement to a recursive specification on sub-sequences; C17 by bisimulations, for all the model classes |
| C18 | `_mkcontext` with Python slices | list lemmas; **partial**: false at depth 0 |
| C19 | `CTW_KT` | bisimulation with `CTW` over KT |
| C20, C21 | heap of nodes with reference counts (unlimited; see C141 for their size), handles, sessions of calls | representation invariant, separation, exact reference counts. C20 assumes that predicting with a base model leaves it unchanged, which `C20_base_models` shows for the base models used |
| C22 | the C functions, `depth` as context length | equality with `CTW_KT` for depth ≥ 1; disagreement at 0 |
| C23 | copy of a non-binary node | negation, for every tree |
| C24-C29 | `PTW.Node` chains | refinement to the recursive partition-tree mixture |
| C27 | both code paths, of `PTW`, `PTWFixedLength` and `FMN` | **partial**: agreement inside blocks; at block boundaries predictions sum to more than one |
| C30 | `min_height` | the code rounds down, the documentation says up |
| C31-C33 | both `LogStore`s (pairs of item and age in lists), `LogStoreUniform` | closed form of contents by induction |
| C34, C35, C46 | `FMN` over any lawful store and copyable base; stored models are values | composition; invariants over runs; regret by recursion over the partition |
| C36-C38 | `learners.PTW` with its two dictionaries merged | refinement to the mixture of C24; contents of the dictionary |
| C39, C47-C49 | `ctw.py` | bisimulation with model.py; refinement to the mixtures; C49 **partial**: `Averager` is wrong for trained components that recompute `log_prob` |
| C40 | bit operations on `ℕ` | arithmetic |
| C41-C43 | integer state machines | interval invariant; the decoder lags the encoder; C42 **partial**: two ways to fail, both with witnesses; the round trip is proved whenever there is room for zero and the last symbol made the code longer, or (zero never having less than 4/2^N) the code ends with a one |
| C44 | byte packing; `mirror` (`Spec/Mirror.lean`) reverses the bits of a byte | **partial**: false (bit order), true for the uniform model; for other models the bytes come back when every byte is mirrored before and after `decompress_bytes`: unpacking mirrored bytes gives the code and fewer than eight zeros, which keep the window of the decoder |
| C45 | table of call signatures | decision logic |
| C50 | `copy` methods | bisimulation, for any nesting |
| C51-C53 | KT, CTW, PTW against sources with real parameters | KT redundancy by induction on counts, then composition with C16 and C28 |
| C54-C56 | tile coders | arithmetic on tile numbers; C54 **partial**: false exactly for the widths such that the fractional part of 1/width is at least 1/n, n being the number of tilings (`C54_indices_valid_iff`) |
| C57 | `CoinFlip` on a stream of uniform numbers | invariant over calls |
| C58 | `FileEnvironment` iterators as explicit states | simulation of the cyclic specification |
| C59-C61 | vector functions on lists | closed forms; C60 **partial**: false for window one |
| C62-C64 | `DataSplitter`, regions | order and permutation lemmas; runs |
| C65, C66 | `ctw.FMN` over any lawful store | invariant `CFMN.Hist`: the factories at each time are those of the stores; C66 **partial**: false for `CTW` as base model |
| C67-C70 | rest of `learners.py` | simulation by `model.Averager`; invariant of C36; C68, C69 **partial**: false in general, with witnesses |
| C71-C73 | strings as character lists, `int()` for ASCII | lemmas on splitting and joining; induction over the parser's loop |
| C74-C77 | dictionaries as association lists; an object is the dictionary of its attributes | membership and order lemmas; invariants of the loops |
| C78 | as C72, items are integers, floats, `None` or strings | induction over the parser's loop; filters of parts |
| C79 | reals; `np.spacing` is a parameter | direct |
| C80, C82, C83 | the remaining methods of `ctw.py`; a shared list is its present content, changed by steps of the caller | induction over the sequence; simulation by model.py |
| C81 | the tree of C13, with a counter and its owner per handle | invariant over sessions; C81 **partial**: false after `copy()` |
| C84 | fields as nested lists, `os.path` functions on character lists, `literal_eval` as a parameter | mutual induction over nested fields; the reader's loop takes off what the writer added; C84 **partial**: false for some classes of experiment.py and for values with separators |
| C85, C86 | files as a map from paths to byte lists, buffered output, exceptions as results; `compress_bytes` as in C44 | codes that differ only in padding point to the same interval, so they code the same message; `FMN` has lawful updates on reached states; C85 **partial**: `uncompress` raises, eight models raise |
| C87 | generators as resumable states over streams of random numbers, mode objects in a numbered store | closed forms by induction; the state of the switcher after `t` turns is the fold of each object's own actions |
| C88 | `JobSet.run` on a map from paths to texts; the loop leaves the temporary file moved to the script | invariant of the loop: which job wrote last under each name; **partial**: scripts of jobs that differ only in base directory or platform can overwrite each other |
| C89 | texts, lines and words as in Python; `get_all_logs` on a list of names and contents | `Says` (Spec/Jobs.lean) describes a line with a statistic without `split`; fold over the last seven lines |
| C90 | writers and readers over a map from paths to texts, calls as a list | invariant of an open writer: the file is the text of the lines so far; a reader is at the lines that are left |
| C91 | the loops of `get_headers` and `get_filepaths` | induction; paths of distinct directories are distinct |
| C92 | the loops of `get_log_data`, `save_log_data` and `num_data_lines` over the lines of a file; `float()` is an arbitrary partial function | induction over the lines with the index table as invariant; the saved text is a file of the form which the reader is proved for |
| C93 | KT, CTW, PTW, FMN over any alphabet against sources with real parameters (`Spec/Categorical.lean`) | Stirling's bound and Bernoulli's inequality for one symbol, product over the alphabet, then composition with C16, C28 and C46 |
| C94 | `join_items`, `params_to_args` on character lists; a value is what the branches ask about it | lemmas on splitting and joining; `readArgs` is a separate reader of command lines |
| C95 | a disk as a map from paths to directories and contents, `make_dirs` with the depth of recursion as fuel | induction over the missing directories; **partial**: false below an obstacle and for relative paths |
| C96 | as C95; `zipfile` and `unzip` give the list of disks they go through | case analysis of every state; **partial**: an incomplete file left by a crash is taken for complete |
| C97 | sets of items as lists, `os.listdir` as a list, values are `None`, numbers or strings | finite sets; induction over the loop with the best file so far; **partial**: raises for lists, accepts parts of strings |
| C98 | a file as the list of its lines, `bin_data` over exact numbers with `np.add.reduceat` | induction over the lines; the pieces are shown to make up the data |
| C99 | `logsumexp2`, `KTBinary`, the loop of `update_seq` and `CTW.Node` over an arbitrary arithmetic (`Model/Rounding.lean`) | propagation of relative errors through quotients and logarithms; induction over the sequence |
| C100 | as C99 | simulation of the rounded tree by the exact one: the error of a node is linear in the number of its updates and in its depth, since the log of a mixture is 1-Lipschitz; induction over the context and the sequence |
| C101 | the coder of C42 with a model whose probabilities of 0 and 1 need not sum to 1 | the witness is computed with integers as for C42; the decoder equals that of a normalised model, and so does the encoder if the splits agree |
| C102 | nested values as an inductive type; `str` and `repr` are parameters | induction over nested values; sorting by keys is shown to be canonical; round trip by C72 |
| C103 | values by how often they can be iterated over | direct |
| C104 | filter names to functions, the loop variable `header` kept because the closures read it later; data frames as lists of columns | `C104_block` characterises every block read by an inductive relation over filter names; witness for the wrong range |
| C105 | fields as a nested inductive type, values as an inductive type, external conversions as arbitrary functions | mutual structural recursion; conversion of every kind of field is shown to be idempotent; induction over the path to a nested parameter |
| C106 | file system of C88 and C90, contents of files through arbitrary functions, experiment as an arbitrary function | case analysis of every path through the functions; comparison of the two paths |
| C107 | classes as trees of fields, attributes as a partial function, conditions as lists | induction over the conditions; lengths of strings after cleaning; **partial**: dropping is the complement of asserting only for strings without keyword |
| C108 | parameters of four kinds, tokens, the part of `argparse` that is needed with an arbitrary function for other tokens | tokens of the command line; induction over the parameters with the flags seen so far; **partial**: see the notes |
| C109 | the updates of `PTW` and `PTWFixedLength` over an arbitrary arithmetic (`Model/RoundingPTW.lean`) | simulation as for C100; a corrected right child of `k ≥ 1` symbols loses at most one unit per level; the adjustments over all heights form a geometric series |
| C110 | the encoder of C41-C43 | the kept part of the interval is at least half of, and at most one unit less than, what the probability asks for; induction over the message; C51 and C52 for sources; a family of messages for the linear loss |
| C111 | Model/Entering.lean: parts with arbitrary attributes and arbitrary `__enter__` | induction over the parts: paths as lists of components, and the attributes of the experiment as what was shared last |
| C112 | Model/RoundingTower.lean: towers as lists of layers over `KTBinary`, with the updates of Model/Rounding.lean and Model/RoundingPTW.lean | each layer preserves a relation between rounded and exact states whose error is a remembered part (`gap`) plus a small part per update; induction over the layers |
| C113 | the encoder in an arbitrary arithmetic, and 53-bit arithmetic with unbounded exponent as an instance (Model/RoundingAC.lean) | bounds of the kept width per symbol as for C110; towers by the simulation of C112 and normalisation of the exact tower |
| C114 | `math.log(n, 2)` as the rounded quotient of rounded logarithms, 53 binary digits (Model/RoundingHeights.lean) | powers of two: log 2 to 90 binary digits by its series and a table of roundings, each checked by integer inequalities; other lengths: error bound against the distance to the next power; `mscb`: distance of log2(2^M - 1) to M against half a unit in the last place |
| C115 | `PTW.map` (Model/PTW.lean), the same inherited by `PTWFixedLength`, and that of ctw.py (Model/CtwFMN.lean), against a list of all temporal partitions with their prior weights (Spec/PTWMap.lean) | the sum over partitions with a given last start obeys a recursion over levels; the keys of `map` are compared with it by induction over the represented nodes, and given exactly (`mapWeights`, Props/PTWMapExact.lean); witness computed for the bits 0, 1, 0 |
| C116 | `logsumexp` and `Averager` over an arbitrary arithmetic (`Model/RoundingFMN.lean`); models of different classes as a sum type | each exponential has a relative error except for underflow, and one of them is 1, so the sum has a relative error; `logsumexp` does not increase distances; the components by the simulation of C112 |
| C117 | `FMN` over an arbitrary arithmetic (`Model/RoundingFMN.lean`), and runs in exact arithmetic that store a nearly best model (`Spec/RoundingFMN.lean`) | the simulation of C109 with a base model (the `Averager` over the stored models) that may change from update to update; the keys of `map` are near the exact ones, so that a maximum of the rounded keys is nearly one of the exact keys |
| C118 | the coder of C41 and the program of C85 | potential: what has been lost while the interval was narrow is at most the bits by which it is narrower than `2^k`; when bits are output the interval is widened to nearly the whole range, so that the loss is a part `k / 31` of the code since the last output, and each symbol is counted at most twice |
| C119 | `FMN` with `LogStore` as in C35 and C46 | C46 with the first model of the store for every segment; the partition of C53 |
| C120 | the fields and values of C105, transience as an arbitrary function of the parameter | mutual structural recursion over nested classes; the conversions are idempotent as in C105; witness for the flat record |
| C121 | every method returns its result together with the state, also after an exception; proved equal to the other models otherwise | invariants over the trees; the state after a failed update is described exactly and shown to give the same next update; witnesses for the cases in which it is noticed |
| C122 | `SAD` as in C05; the price is defined from the sequence only | a lower bound of the probability is maintained over the run: factorials of the counts, the number of ways to name the symbols, and what repetitions have cost, which telescopes into a binomial coefficient early and a power of a logarithm late; then Stirling's formula |
| C123 | `reformat_data` and the writer of C90 as functions on the file system, with the list of the states in which the run may be stopped (each prefix of what is written); reading and conversion are arbitrary functions that may raise | induction over the files; counter-theorems for every prefix and every failing conversion |
| C124 | `KT` and `SAD` in an arbitrary arithmetic, as in C99, and towers over an arbitrary base | relative errors of counts, of their sum and of `beta` are followed through the formulas; the simulation of C112 holds for every base |
| C125 | `log_predict` of `PTW`, `PTW.Node` and `PTWFixedLength` in an arbitrary arithmetic, in the order of its own code (`Model/RoundingPTW.lean`) | predictions keep the relation of C112 and C124 and its remembered part; induction over the calls. For equality of digits: heights and counts do not depend on the arithmetic, and within a block no node is complete |
| C126 | the rounded encoder and models of C113 | `ac_all_account`: the accounts of C118 hold with the probability that the encoder really uses, which is near that of the model; then C112 and the redundancies of C51 and C53 |
| C127 | `log_predict` of `Averager` and `FMN` over an arbitrary arithmetic (`Model/RoundingFMN.lean`); `Spec/RoundingFMNPredict.lean` | `predSim_av`: the prediction errors of the components carry over to `Averager`; with `PredSim.ptw` of C125 on the tree; then induction over the calls |
| C128 | `de_array`, `strs_to_floats`, `ast.literal_eval` on lists of numbers (`Model/Literals.lean`); texts of nested lists (`Spec/Literals.lean`) | `parse_inner`: what is read for a list by itself is read the same inside another list; induction over the strings and over the nested list |
| C129 | `PTW` and `FMN` as in C24 to C34; `Spec/Memory.lean` | `rep_starts`: induction over the represented nodes, the beginnings are the truncations of the binary notation of n - 1; a sum of binary digits; C31 and C32 for the stores |
| C130 | `PTWFixedLength` as in C24, `PTW` nodes | invariant `Beyond`: the represented tree of C25 and the mixture with max(height - m, levels) levels, for all lengths; the sum over the next symbol is the ratio of the two mixtures |
| C131 | `model.CTW_KT` and the C code over an arbitrary arithmetic (`Model/RoundingFast.lean`); `Arith.Regular` in `Spec/RoundingFast.lean` | node by node correspondence of the trees with equal numbers (`KNode.Corr`, `CTWNode.TCorr`); C's `log` never gets an argument for which Python's raises; double precision is regular by the properties of rounding in C113; error bound by C125, for larger alphabets with a simulation of the counts of the C code (`CSim`) |
| C132 | the files at every moment of a run of C85 (`Z.stages` in `Model/Z.lean`): how much of what was written is in the file is left open, since it depends on buffers | every stage is a beginning of what is written; running again reads the same input; the witness is computed with the coder in integers; **partial**: a cut file may be the complete file of other data |
| C133 | the states between the assignments of an update, class by class (`Model/Interrupted.lean`); sessions mix complete and interrupted updates (`Spec/Interrupted.lean`) | invariants `Below` and `Heavy`: the weights of a mixture sum to at most one, every node's value is at least that of its parts; models in shared memory as programs of single steps (`Model/Threads.lean`) stopped after any number of steps (`Props/InterruptedHeap.lean`); **partial**: the sum of the probabilities only |
| C134 | the steps of `CTW.Node` as programs that read or write one field of one node (`Model/Threads.lean`); schedules are a relation (`Spec/Threads.lean`) | each program stays within the nodes that it can reach and its own new ones (`Within`), so steps of disjoint programs commute; a thread that runs alone refines the heap model of C20 (`Proofs/ThreadsAlone.lean`); **partial**: models that share no node |
| C135 | integers as symbols: Python's list indices, and the words of the C structure after the counts, with infinities and NaN (`Model/OutOfRange.lean`) | simulation for the indices that are taken for others; invariants `Sound` and `Poisoned` for the C code: once −∞ or NaN is in the root's two sums, it stays; **partial**: false for negative indices and in the C code |
| C136 | the models of C01 to C15 with arbitrary real weights (`Spec/Weights.lean`) | the counts after any successful run are the initial ones plus the total weights, by induction; bisimulation of `SAD` states that differ in the order of the dictionary; the counterexamples by the closed forms of C08 and C13; **partial**: false for `SAD`, `Averager`, `CTW` and `Factored` |
| C137 | the models of C01 to C34 (`Spec/Reinforce.lean`) | sequence probabilities are log-convex under repetition, which sums, products and the recursions of the closed forms of C08, C13, C24, C25 and C34 preserve (Cauchy and Schwarz); **partial**: false for `PTW` at block ends and for `SAD` with new symbols |
| C138 | the models of C01 to C34, two alike models at a time (`Spec/Relabel.lean`) | relations between the states of two models are lifted through every model class and both stores (`Proofs/Relabel.lean`); **partial**: false for the default contexts of `CTW` |
| C139 | as C138, with the identity as renaming | the liftings of C138; C04 and C19 for the basic cases |
| C140 | the methods of all models with a count of the calls that are still allowed (`Model/Frames.lean`) | calls that make between `lo` and `hi` nested calls compose (`Proofs/Frames.lean`); number of nodes of a partition tree from C129 |
| C141 | heap of C20 with counts modulo `M` (`Model/CTWHeapWrap.lean`) | every node has one place (`Placed`), so it is referenced at most once from each model; a heap whose counts stay below `M` behaves alike under both arithmetics; violation by induction on the number of copies |
| C142 | models of C01, C08, C13, C24, C25, C34 | the closed forms are sums of products in which one factor grows by one symbol, so that bounds on the ratio are preserved (`Rg.ctw`, `Rg.ptw`); for FMN every model of store and tree predicts as the first one after at most `n` updates (`FMN.allTrained_run`) |
| C143 | model of C41, C42 | the intervals that a bit sequence selects are followed without a bound on its length (`Path`); the decoder's window depends on the next `N` bits only (`win_append`); termination by the width of the interval (`decompress_any`) |
| C144 | model of C41 | codes padded with zeros to `k` bits are distinct for messages of one length (`compress_inj_padded`), so there are at most `2 ^ k` |
| C145 | models of C01, C08, C13, C25, C34 and their bounds (C10, C93) | the relative entropy of `n` symbols is the sum of the expected relative entropies of the predictions and at most the loss (`entropy_le`); each is at least the squared Hellinger distance, and that a quarter of the squared distance, by Cauchy-Schwarz (`distance_sq`) |
| C146 | closed forms of C08, C13, C24, C25 | induction over the depth: the mixture of the deeper tree contains half of that of each leaf of the shallower one (`ctwProb_deeper`, `ptwProb_taller`, `ptwProb_finer`) |
| C147 | closed form of C08 | a mean does not depend on the order |
| C148 | closed forms of C08, C13, C24, C25 | each part lies below the mixture for every next symbol, and both add up (`Following.close`); the probability of a tree or partition adds up over the next symbol by induction over the tree |
| C149 | closed forms of C24, C25, C36; KT on one symbol (C03) | the level added halves the distance (`ptwProb_near`); the mixture as a function of the number of repetitions (`steady`), compared with KT by induction over the levels, as the predictions of KT increase strictly |
| C150 | specification `OrderFree` in Spec/Order.lean; closed forms of C03, C08, C13, C24 | mixtures of permutation invariant probabilities, by induction over the levels (`ctwProb_perm`, `ptwProb_blocks`); witness for partition trees |
| C151 | specification `SameAnswers` in Spec/Order.lean; closed forms of C08, C13, C24, C25 | equality of the closed forms, by induction over contexts and sequences |
| C152 | `bytes` and the conversion to `char`, signed or not; an index outside of an array ends the model (`Model/Chars.lean`) | refinement of the model of C22 for symbols that survive the conversion; **partial**: false for larger alphabets, which is proved |
| C153 | `Built` (`Spec/Compose.lean`): an inductive description of the objects that can be put together, with lists of objects of different classes | each class preserves the contract of its parts, by the theorems of C09, C16, C24, C34 and C50; induction on the construction |
| C154 | `Averager` and `Factored` over identities, with a heap of states (`Model/Aliased.lean`); programs mix calls of objects and of mixtures | simulation by the models of C08 and C12; the weights sum to the probability in every interleaving |
| C155 | pairs of runs of `KT`, `CTW`, `PTWFixedLength` and `Averager` on sequences that differ in one place | order-independence (C03) moves the symbol to the end; induction on the context tree and the partition tree of the closed forms (C13, C130) |
| C156 | `Window`, an inductive description of nested models; programs of calls with histories cut to `history[-K:]` | induction on the nesting; closed form (C13) for the lower bound |
| C157 | the closed form of the KT estimator against the best coin; any two lawful models | Stirling's formula from both sides; both distributions over sequences sum to one |
| C158 | `changingProb`, sources with labels over time; `Competes`, what a base model loses against a class | the partition of C53 with the regret bounds C28, C119; C93 for context trees |
| C159 | `Learner`, `LSAD`, `ProbSeq.totalLoss` | induction on programs of calls; case analysis |
| C160 | the sources of C158 with lengths going to infinity | C158 with bounds on the prices by powers of the logarithm, and limits of logarithms against powers; a counting argument for the necessity |
| C161 | KT with the closed form of its counts | the two answers solved for the counts; C03 for the other direction |
| C162 | `CTWNode` with any context function; `mkcontextInt`, contexts of any integer depth | invariant over the paths of the tree: the end of a context has the probability of its base model, the way to one the average; the tree after one update in closed form for the converse |
| C163 | as C162 | induction over the updates: each node holds the mixture of the symbols seen below it (`RepC`); induction over the tree for the loss |
| C164 | constructors of `Verif.Model.KT`, `Averager`, `Factored`, `FMN`; `minHeightOf`, `predictorOf`, `initOf`: any `min_partition_length` | for the converse a sequence of one or two updates that raises; induction over the sequence for `SAD` |
| C165 | as C31, C32, C34 | from the closed forms of C31 and C32 and the schedule of C34, by arithmetic of powers of two |
| C166 | the closed form of KT with equal initial counts; any lawful model | bounds on rising factorials from both sides by induction in steps of two, from Stirling's formula; comparison of two distributions over sequences as in C157 |
| C167 | the models of ctw.py and learners.py of C36, C39, C47, C48, C65 | the closed forms, with the partitions of C53 and the prices of C93; simulation of ctw.KT, learners.KT and ctw.CTW by the classes of model.py |
| C168 | the encoder of C42/C43 | `encodeAll` of a concatenation; the width of the interval between 2 and `2 ^ N` is divided among the bits that came out; a symbol without output narrows the interval by at least one |
| C169 | `HPredictor`: methods that are given nothing, a list or a tuple as history; `updateShared`: `CTW` whose context is the caller's list | induction over the parts: the history is only handed on; the list is empty after every call |
| C170 | `CTWNode.updateOne`: `Node.update` where all nodes refer to one base model | induction along the path: below each node the symbol has been counted once more, so the shares of the two symbols sum to more |
| C171 | the recursive specifications of C13, C24 and C34; finite types of prunings and partitions | distributing the product over the sums, by induction over the depth |
| C172 | the models of C01 and C13, Mathlib's beta distribution, the Dirichlet distribution by breaking a stick | one step: the density times θ is a multiple of the next density; induction over the alphabet and the sequence; C171 for the trees |
| C173 | `Factored((Dumb(), m))` (model.py:838-885) over a sum type; alternating sequences, policies | induction over the sequence; a tree source with four leaves and C52 for the bounds |
| C174 | `log_predict_seq` against a source with fixed conditional probabilities | induction over the sequence with indistinguishable states; C27 and C153 for the sums |
| C175 | the environments of C87; two courses with a common suffix | explicit courses, by induction over their length; contexts depend on the suffix only |
| C176 | the models of C01, C13, C24; all words in place of the missing symbols | moving the missing symbols to the end (C150), where they sum to one; exact values of the counterexamples |
| C177 | the tree of C13; a bound with one term for each context that occurs | induction over the depth; the rule as a coin of known bias at each context (C51) |
| C178 | the tree of C13; the errors of the best rule as in C177 | induction over the depth, with the best rule as witness |
| C179 | the trees of C24, C25, C36 and C39; runs counted in Spec/RunCount | a sequence of two parts has at most the runs of both; induction over the levels |

## Where the code does not do what one expects

Each line is a theorem about the unchanged code.

* `update_seq([])` clears the caller's history (C07).
* `Factored.update` ignores the weight (C12).
* `CTW(0)` uses the whole history as context, so its predictions are not normalised (C18), and it differs from `modelfast.CTW_KT(0)` (C22).
* `copy()` of a `CTW` over non-binary contexts always raises (C23); `PTW`, `PTWFixedLength`, `FMN` and `Dumb` have no copy (C50).
* `PTW.log_predict` overestimates at block boundaries, for the default block after every symbol (C27).
* The minimum partition length is rounded down (C30).
* `LogStoreUniform[-1]` raises IndexError, and an index past the end, from `len` to `2 * len - 1`, does not: it counts the items over again (C32).
* `SAD` loses mass once all symbols are seen (C05).
* The encoder's constant `_3_4` equals one half, so that its third branch is dead and intervals can become narrow (C41).
* `decompress(compress([1, 1]))` with a new `ctw.KT` does not return; with narrow intervals the decoder can return a wrong and longer message (C42).
* Bytes come back with their bits reversed (C44). No class of model.py works with `decompress` (C45).
* `ctw.Averager` over trained components counts the past twice (C49).
* `ctw.FMN` over `ctw.CTW` is not normalised: `Averager` sets `log_prob` to zero but the root keeps its probability (C66).
* `learners.Averager.log_predict` returns a joint probability, its `update` returns nothing (C68); `reset` does not reset `learners.Averager` and `learners.PTW` (C69).
* A tile width such that the fractional part of 1/width is at least 1/(number of tilings) makes tile numbers overlap or overflow (C54).
* `CoinFlip`'s parameter is the probability of 0, not of 1 as its documentation says; changepoints that are not increasing get
  stuck (C57).
* A negative step count makes `FileEnvironment.update` and `get_all_data` disagree (C58).
* `calculate_return` with default arguments raises TypeError (C59). `running_mean(data, 1)` is empty (C60). Constant features are not scaled (C61).
* A protocol with a negative step count, or with a name that ends in a number and no step count, is parsed back as a different one (C71).
* `split_params` loses parameters whose value has an underscore (C72). `split_number` and `join_number` disagree on negative numbers; `de_number('12')`
  raises IndexError (C73).
* `get_all_combinations({})` gives no combination (C74). `group_by_keys` can merge groups of different values (C76). `set_attributes` is not atomic (C77).
* A key with two numbers makes `utilities.split_params` raise TypeError; `add_modifiers` skips a modifier that is a substring of the name (C78).
* `utilities.approx` with a precision uses `10**precision` instead of `10**-precision`; `dicts_exact_match` tests inclusion (C79).
* `log_predict_seq` of ctw.py does not learn from the sequence, unlike that of model.py (C80).
* After `CTW.copy()` new nodes of the copy are counted in the `size` of the original (C81).
* Reading a directory name leaves the name of a keyword `Struct` in the base directory (`PTWModel`, `FMNModel`), raises ValueError for
  `CoinEnv`, and mixes up parameters when only optional ones are unset; values with separators make different settings share a directory (C84).
* `z.py uncompress` raises `KeyError` for every file; `compress` raises with eight of the eleven models, the default among them, having overwritten the
  output file; compressing a file onto itself loses it (C85).
* `JobSet(run_now=True)` runs nothing: `z` has no `__main__`, and the exception is swallowed. Scripts of jobs which differ only in platform or base
  directory overwrite each other; a hyphen in a protocol shifts the parameters read from a log's name (C88).
* The ratio is not found in the logs of models that print their number of nodes; logs of reruns, and all logs of a protocol with a full stop,
  share one entry; one empty log makes `get_all_logs` raise (C89).
* `LogWriter.write_log` always raises, after the file was emptied if safe mode is off; `LogWriter('name.txt')` raises; going through a `LogReader` gives one
  row; without headers a first row that begins with a minus sign is lost (C90).
* `file_complete` with required lines raises NameError, and with required headers accepts a file with one of them (C91).
* `get_log_data` does not count blank lines, so that after one before the headers the line of headers is a row; headers that are the same
  once cleaned give the last column for both; a column `comments` is lost; an empty file raises NameError; `get_snippets` and
  `simplify_logs` always raise; `save_log_data` with an empty note raises and leaves the file cut (C92).
* Reading a structure without fields raises NameError (C84).
* Nothing in `CTW` notices if its factory returns the same object at each call; the probabilities reported then sum to more than one (C170).
* If the context function of `CTW` returns the list it is given, every call empties the caller's history (C169).
* `KT([])` and `PTW(min_partition_length = x)` with `0 < x <= 1/2` can be made, but raise whatever the first symbol is (C164).
* `CTW` with a negative depth, or with a context function of which one context is the end of another, gives probabilities that sum to more than one (C162).
* `learners.SAD` cannot be used: `update` raises NameError, `log_predict` and `total_loss` AttributeError (C159).
* `learners.Model.from_sequence` raises NameError for every sequence (C159).
* `ctw.ProbSeq.total_loss` has no minus sign, so it is minus the loss; in learners.py the property of the same name has it (C159).
* `Factored` relies on the length of the history: with a history cut to a fixed number of symbols it always uses the same factor (C156).
* `Averager([m, m])` keeps one entry with the weight for two: the probabilities of its first update sum to one half (C154).
* A copy of `Factored([m, m])` does not share its factors, so that it answers differently from the original (C154).
* With more than 128 symbols, `modelfast.CTW_KT` uses negative array indices where `char` is signed; a symbol above 255 raises ValueError (C152).
* ac.py:77: `_3_4` of the encoder equals `_half`, so that codes are not self-delimiting: 010 is the code of 00001 with the default `ctw.KT`, and 010 followed by 111 is decoded as 00110 (C143).
* The reference counts of `modelfast` wrap around when `2 ^ 32` models exist (C141).
* `CTW(0)` nests one call per symbol of the history, so that it raises `RecursionError` on long histories (C140).
* `CTW` with default arguments treats 0 specially: with all bits exchanged it gives other probabilities (C138).
* `PTW` over `KTBinary` with the default minimum length: after 0, 0, 0 a fourth 0 has probability 19/24, then a fifth one 347/470 (C137).
* After `SAD.update(s, weight=0)` with a new symbol `s`, every prediction of `s` and every update with it raises `ValueError` (C136).
* With a negative weight `KTBinary` can return the logarithm of a number above one (C136).
* `KTBinary` and context trees take the symbols −1 and −2 for 1 and 0 (C135).
* `modelfast.CTW_KT` accepts symbols beyond its alphabet; with the first of them, all later results are NaN (C135).
* Reference counts of context tree nodes are read and written in separate steps: models that share nodes (copies) cannot be used in
  different threads, not even to copy the same model in both (C134).
* `PTW.update` interrupted after the adjustment makes it twice (C133).
* `CTWNode.update` releases a shared child before it copies it; interrupted in between, later updates of the copy change the original (C133).
* `KT.update` and `SAD.update` change the counts in two steps; an interruption between them is never repaired: probabilities that sum to
  more than one, or a symbol that raises for ever (C133).
* A compressed file that has lost its end may be the complete compressed file of other data of the same length: nothing marks the end
  (C132).
* `PTWFixedLength` does not notice that it is fed more than the announced length: at that point (and at later powers of two) the probabilities of the next symbol do not sum to one (5/6 for the bits 0, 1 with length 2); `PTW` corrects this with `log_prob_adjustment`, the other implementations raise an error. (C130)
* C123: `reformat_data` (logfiles.py:345-352) opens its files in mode `x` and takes an existing file as done. After a run that was stopped or raised, `emg.txt` is incomplete (for a failed conversion it holds only the comment line), and every later run ends normally and keeps it (`C123_stopped`, `C123_conversion_fails`).
* An update that raises can be noticed later (C121): in a mixture, the components before the one that raised have been updated; in a CTW node, the base model
  has been updated when the context symbol is no index, and then the probabilities no longer sum to one; in PTW, a complete partition has been promoted, which
  changes `log_predict`; `update_seq` leaves the symbols before the failed one in the caller's history.
* `get_flat_record` of a structure with nested structures raises AttributeError, or gives the value of a field of the outer structure that has the same
  name (C120). With `matches_param` a nested structure never matches when a parameter of the outer one is asserted (C120).
* `PTW.map` is documented to return the maximum a posteriori model but leaves out the prior weight of stopping at a node and of the levels that are not represented; after the bits 0, 1, 0 it returns the less probable model (C115).
* In double precision `PTWFixedLength(2 ** 29)` gets height 30, because `math.log(2 ** 29, 2)` is a little more than 29; also for 2^31 and 2^39 (C114).
* `mscb` of utilities.py is one too large from 2^48 - 1 on, because `np.log2` is rounded up (C114).
* An AttributeError inside the `__enter__` of a part is hidden, and if a later part fails the earlier ones are never left (C111).
* The round trip of structures through the command line loses everything after a space, exits for strings that begin with a hyphen, turns missing attributes
  into `None` or `'None'`, missing Booleans without default into `True`, and does not use the default of a required parameter (C108).  The tests
  `test_defaults_set` and `test_defaults_not_set` compare the second object with itself.
* `matches(drop_vals={k: v})` does not drop a structure with value `v` if the parameter has a keyword (the default) or `v` is not a string;
  `assert_vals={k: None}` matches nothing (C107).
* `save_data(data)` ignores its argument, and raises AttributeError and leaves a log without data if the object has no data; `load_data()` always raises, and
  `load_data(base_dir)` looks in another directory than `save_data` writes to; `run` replaces an exception by TypeError if the model is logged and not
  yet there (C106).
* A Boolean parameter given as the string `False` is true, an optional `Listable` that is not given becomes a list of the marker `empty`, `nargs=2` makes a
  required parameter optional, and a required nested structure is not constructed from its defaults unless there is some other keyword (C105).
* The filter `scaled` of `FileEnvironment` is a closure over the loop variable: every column is scaled with the range of the header given last (C104).
* The filter `return` of `FileEnvironment` always raises NameError, and `unitvect` raises unless the number of classes is the number of rows (C104).
* `format_join` with the code `/` passes a list to `os.path.join` and raises TypeError; `clean_string` does not clean keys (C102).
* `listify` uses up generators, and with `copy=True` does not copy lists (C103).
* The encoder computes the probability of 0 as one minus that of 1, the decoder asks for it; a rounding error of 2^-53 between the two can lose the
  message (C101).
* `bin_data` always divides at 0 to 100: for more than 100 data the last bin takes all the rest and is divided by the wrong number, for fewer it
  may raise IndexError (C98). `get_bin_index` refers to the name `bin_bounds`, which does not exist.
* `join_items` drops minus signs and reads the empty list back as an empty name; `params_to_args` leaves out a parameter that is 0 and the value of one
  that is 1; `shorten_keys` can give two keys the same short form (C94).
* `make_dirs` gives the path although nothing was made if two directories are missing below an obstacle, and recurs without end if more are
  missing; it makes no relative path with several missing directories. `get_all_dirs` raises ValueError if the text of the base
  occurs twice, and gives `['.']` for the base itself (C95).
* A crash while unzipping leaves an incomplete file that is then used; unzipping a file that is not zipped leaves an empty one (C96).
* `get_best_file_match` raises AttributeError for a list of features; `validate_params` accepts every part of a required string (C97).

## Properties considered and left out

* Closeness of the floating-point results to the real ones for models other than `KTBinary`, `KT`, `SAD`, `CTW`, `PTW`, `PTWFixedLength`, `Averager` and `FMN` (C99, C100, C109, C112, C116, C117, C124, C125, C127).
* Command-line parsing by `argparse`/`docopt`: these depend on external programs.
