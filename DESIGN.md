# Formal model of automl/ConfigSpace (Lean 4)

`/repo` is read as text; nothing in it is executed. The model lives in `lean/Verif/Model`, the
independent specification in `lean/Verif/Spec`, helper lemmas in `lean/Verif/Lemmas`, and the property theorems
(one file per group of claims, named after the claim ids) in `lean/Verif/Props`.

## 1. Modelling decisions

* **Shallow functional model.** Each modelled Python function is one total Lean function with the same branches.
  Exceptions are values (`Except Err α`). Mutating operations that may raise *after* mutating return
  the mutated state together with the exception, so that partial effects of failing calls stay visible.
* **Names** are `String`s (Python `str` order is code point order, the order of Lean's `String`).
* **Numbers.** `f64` entries of the vector representation are idealised as exact rationals plus NaN:
  `Option Rat`, `none` = NaN. Rounding errors of `f64` are left out there and treated separately for ranges (C75, Model/F64) and for whole spaces (C76, Model/F64Space); infinities are not modelled; `ROUND_PLACES`, `ATOL` and `rtol` are,
  as operations on rationals. Logarithmic scaling is treated separately over the reals (`Real.log`/`Real.exp`).
* **Values.** `Val` = int | float (exact rational) | string, with Python's cross type `==` (1 == 1.0).
* **Hyperparameters** are data (name, kind, default); kinds: categorical, ordinal, constant, integer range,
  float range. Distributions, weights and meta data are only modelled where a property needs them.
* **Randomness** is an explicit argument: every theorem about sampling or neighbours quantifies over
  every stream of raw samples / permutations the generator could return.
* **The DAG** is an association list of nodes with children, parents, condition and depth, mutated by
  `add`, `add_condition`, `add_forbidden` and committed by `update`, exactly as in `_condition_tree.py`.
  Python's `sorted` is modelled by a stable insertion sort. `unique_everseen` by identity / string is
  noted where it is elided.
* **Reachable states** are obtained by induction over histories of successful `add` calls from the empty space.

## 2. Specification style

The specification (`Verif/Spec`) speaks about assignments `Name → Option Rat`, satisfaction of a condition, chains of
conditions, and validity of an assignment. It does not mention indices, depths, condition nodes,
precomputed lookups or caches. Property theorems relate model functions to that specification.

## 3. Plan per property

| Property | Modelled | Proof idea |
|---|---|---|
| C01, C02, C04, C05, C06 | DAG nodes, `add`, `add_condition`, `propogate_new_depth`, `update` | invariant over histories: every edge goes strictly down in depth, every depth is witnessed by a chain; sort |
| C03 | `_check_cyclic_dependancy` as the iterative DFS with its stack | invariant on (fringe, seen, explored); fuel adequacy |
| C07 | `add_condition`, condition equality | case analysis + invariant parent_condition/children agree |
| C08 | `add` returning the mutated state on failure | **expected false**: witness, plus guarded positive statements |
| C09, C10 | `add_forbidden`, commit, `_optimized_forbiddens` | permutation invariants; group-by equivalence |
| C11–C14 | the four evaluators of conditions and clauses | structural induction on nested conjunctions |
| C15 | `__eq__`, `equivalent_condition_on_parent` | induction; grouping of conjunctions **expected false** (And vs Or), witness |
| C16–C19 | `check_configuration`, rigorous check, `get_active_hyperparameters` | invariants of minimum conditions; disagreements as witnesses |
| C20–C22, C24 | `Configuration` and default configuration | case analysis on top of C16/C17 |
| C23, C26, C38 | minimum conditions, dependants loop, `change_hp_lookup`, `change_hp_value`, sampling | order argument; **expected false** in general, witness + guarded theorem |
| C25, C27 | sampling loop over an arbitrary stream of raw columns | induction on the stream |
| C28 | `estimate_size` | counting |
| C29–C32 | `hp_components`, `functional` over ℚ / ℝ | algebra |
| C33, C34 | `functional` generators | induction |
| C35–C37, C49 | neighbourhood functions with explicit random permutations | list reasoning |
| C39–C41 | `generate_grid`, deactivate, impute | worklist induction |
| C42, C43, C46 | encoders/decoders, substitution, pcs expansion | structural induction |
| C44 | renaming + `add_configuration_space` | string reasoning; the exact collisions; **false** in general (`C44_not_injective`, `C44_not_equals_escapes`), guarded version by induction on depth |
| C45 | equality/hash of configurations | **expected false** (1 == 1.0 have different repr), witness + partial |
| C47, C48 | weights/probabilities, constructors | algebra / case analysis |
| C50 | set_vector_idx at commit | index lemma |
| C51, C52, C54 | `legal_vector`, `legal_value`, conversions | arithmetic of floor/rint; C51 and C54 **expected false** in part |
| C55 | `sample_configuration` with the generator as a parameter | exhibit the column (values of the configuration, defaults elsewhere) and show that masking gives the configuration back |
| C56, C57 | the selection and retry loops of `get_one_exchange_neighbourhood` with arbitrary choices and proposals | invariants over the run; the optimised clauses restricted to one name are the optimisation of the clauses restricted to that name |
| C58 | `add` in full (already modelled) and a specification of fitting calls in Spec/Add | completeness of the transaction by induction over its three phases; both directions of `misfit error ↔ does not fit`; totality of the commit |
| C59 | `remove_hyperparameter_priors`, `to_uniform`, `space.conditions` | rebuild theorem: adding the hyperparameters and then the conditions and clauses of a reachable space gives the same space |
| C60, C61 | decoders, and the dictionary of the caller after the decoders popped keys from it | computation on field lists; **false** for the probabilities and step widths of older files, which are dropped (`Props/OldFiles`); C61 **false**, its negation is proved for every dictionary |
| C62 | `add_configuration_space` as one `add` of the renamed contents | the history of the result is related to the two histories; each part of validity splits over them |
| C63 | hyperparameters as objects in a heap, copying and renaming in the order of the code | loop invariants over the heap: fresh objects are not touched again, old objects are renamed exactly if a clause shares them; **false** in general |
| C64 | both loops of `get_random_neighbor` with an explicit random generator and fuel | loop invariants; C21 for the built configuration; every draw is looked at, hence termination at the first good draw; **false** in general: no bound on rejections |
| C65 | the loop of `fix_types` on a dictionary changed in place; `str`, `int`, `float` on text are parameters with a round-trip hypothesis | induction over the hyperparameters, lookups; **false** in general |
| C66 | `ConfigurationSpace(mapping)` on top of the constructors and `add` | Case analysis on the items; C48 and C58 for the constructors and the call of `add` |
| C67 | the writer of the new format as a function to text, the pyparsing grammar as functions on characters, the reader | the text of each line is parsed back token by token (induction on the text); then the space is rebuilt call by call |
| C68 | the reader of the new pcs format and the dictionary decoder on arbitrary input | each constructor returns a well-formed object over hyperparameters of the space; induction over the lines and over the nested dictionaries |
| C69 | `FSpace` = space plus the lists `HPNode.forbiddens`; `FSpace.eq` as the generated `__eq__`; spec `SameContent` | eq ↔ SameContent: positions from `index` and distinct names, depth by longest chain, children by the invariant of conditions; lists of clauses by uniqueness of sorted permutations; check by the relation on nodes and meaning of equal clauses |
| C70 | The generator as a function of batch number and width; draws are columns (Spec/Draws) | Induction over the loop: the accumulated list is the list of the accepted draws of the batches so far, each after deactivation; positions are ordered lexicographically |
| C71 | The four dictionaries, read off the nodes | The invariant of the nodes relates the stored edges to the conditions of the history |
| C72 | Literal conditions and clauses as numbered objects with the positions kept in them; several spaces (Model/Positions, Spec/Positions) | Invariant: the positions in the objects of a space are those of the space, if no other space assigned them |
| C73 | Writer, grammar and reader of the old pcs format on the characters of the text (Model/PcsOld, Spec/PcsOld) | Each line is parsed back to its tokens; the lines of one child are put together again; the space is rebuilt by two calls of add |
| C74 | The exceptions of check_configuration, of the constructor, of item assignment and of add, in the order in which the code looks for problems (Model/Space, Spec/Errors) | Case analysis of the loops; a group of conditions has the meaning of the condition of each member; the loop over the defaults ends because parents come first and defaults are legal |
| C75 | UnitScaler, scale, normalize, quantize, is_close_to_integer and the integer sampler with every operation rounded to double precision (Model/F64, Spec/F64) | Rounding is shown to be nearest, monotone and exact on doubles; errors of the single operations are added up; witnesses evaluated for the cases beyond the limits |
| C76 | The functions that touch vectors (checking, activity, merging of clauses, construction, assignment, reading) written again with every operation rounded (Model/F64Space.lean). | Entry by entry simulation: the exact and the rounded vector are vectors of the same written value; equality, order and legality of such entries agree (spacing of decimals against spacing of doubles); induction over the loops and over the session. Witness for relations of floats with different bounds. |
| C77 | The six numerical constructors with distributions, `to_uniform`, `to_float`, `to_integer` and the functions of `ConfigSpace.api` (Model/Prior.lean), exact rational parameters. | Case analysis over the constructors; the default of a beta distribution is its mode, characterised by an equation; the one of a normal distribution by being a closest legal value. |
| C78 | `pdf_vector` and `max_density` of every distribution object (Model/Density.lean); scipy's densities by their documented formulas, over the reals. | Mode of the normal density by monotonicity of exp, of the beta density by the weighted inequality of arithmetic and geometric means; folds of max for weights. Witnesses for discretised distributions. |
| C79 | As C78. | Interval integrals; substitution for densities of values. |
| C80 | `vecMu`, `vecSigma` (the parameters handed to scipy), over the reals. | Properties of the logarithm; witnesses. |
| C81 | Arguments as finite trees; `_put_to_list` with the number of nested calls that Python allows (Model/Args.lean). | Induction over the trees; texts exceed every limit. |
| C82 | `__getitem__`, `__iter__`, `items`, `__len__`, `at`, `index_of` on the live and the committed dictionaries (Model/Args.lean). | Invariant of histories (C02). |
| C83 | Encoders and decoders of the six numerical classes with meta data (Model/SerialPrior.lean). | The decoded fields go to the constructors of C77; rounding is idempotent. |
| C84 | The dataclass fields and constructor keywords of the nine classes; `dataclasses.replace` (Model/SerialPrior.lean). | An internal field is always passed and never accepted. |
| C85 | The two constants that a discretised distribution remembers, `max_density`, `pdf_vector` and `__eq__` as calls on an object with a state (Model/DensCache.lean). | Induction over histories of calls: at most two states are reachable; refinement to the stateless distribution of C78. |
| C86 | The dispatch of `legal_value` and `to_vector` on values, lists and arrays, and what numpy makes of lists, with objects as choices (Model/Arrays.lean). | Induction over the list: each method of the transformer is a map; case analysis of the conversion by numpy. |
| C87 | Iterating over and reading from a configuration with the positions that the space has at the time of reading, with IndexError (Model/Grown.lean). | Cached values from the invariants of C21; positions are a bijection (C02), so a longer space has a position behind the vector; witness for exchanged values. |
| C88 | A heap of arrays and configurations that refer to them; steps of a program that makes arrays and configurations, writes, assigns and reads (Model/Heap.lean); element types of doubles and integers. | Frame theorem by case analysis of every step; refinement to the configurations without a heap by induction over the program; general theorems on what writes and integer arrays do. |
| C89 | `neighbors_values` per class as conversions around the neighbourhoods of C35, C36, C53 with an arbitrary generator; the loops with their buffer and slice assignment | refinement of the buffer loops to the list loops by induction over the batches; legality and distinctness through the entries |
| C90 | `Model/Raise.lean` repeats the evaluation of clauses, the checks, `add` and sampling with the exceptions of relations (`TypeError` of `<`, `ValueError`/`IndexError` of decoding, element types of arrays) | refinement: equal to the model without exceptions where all relations are between values with an order (induction on clauses, batches and histories); otherwise `TypeError`, with two witnesses |
| C91 | categorical hyperparameters with weights: constructor, probabilities, equality, densities of entries and values, `RandomState.choice` by inversion of the cumulated probabilities, `sample_value`, `to_uniform` (Model/Weights.lean) | shares of the weights (Spec/Weights.lean); equality iff equal shares by a pigeonhole argument; the interval of the uniform number by induction over the cumulated sums |
| C92 | `check_order`, `get_order`, `get_value`, `get_seq_order` (Model/Ordinal.lean) | position in the sequence against 'written before' (Spec/Ordinal.lean); conditions and neighbours through the entries |
| C93 | the generator as a state that is passed from draw to draw, `seed`, `sample_configuration` with it, programs on one space, the loops that fill `forbidden_lookup` with an arbitrary order of sets (Model/Seeded.lean) | two histories with the same parts (Spec/Seeded.lean) give spaces that agree in everything that is read later (`Alike`); induction over programs; refinement to the sampler of C25-C27 |
| C94 | `Model/Scaled`: conditions, clauses, merging, both validators, configurations and sampling over real vectors, with a scale per hyperparameter | numbers are replaced by order-preserving rational twins that fix the numbers of the space (`Keeps`), so that every function agrees with the linear rational model on the twin; then the linear theorems apply |
| C95 | the sampler of C25 with draws that are random variables (`Spec/Fair`) | the loop looks only at which draws pass the filters; replacing the bits of the chosen draws by true makes the choice independent of their values (`Select`) |
| C96 | the same | a batch has at least one draw; blocks of batches without an accepted first draw have probability (1-Q)^m |
| C97 | the same, and what a draw shows | an accepted draw is turned into the one valid configuration that it shows (`made_iff`) |
| C98 | the generator of C38, C56, C57 with everything that `_neighborhood` may propose (`Spec/Connected`) | positions are set to the target in the order of the space; what stands before a position determines whether it is active |
| C99 | `Constant` with any object as value, `pdf_values` with lists and arrays (`Model/ConstArgs`) | case analysis of the dispatch, induction over the listed values |
| C100 | `get_random_neighbor` with random draws (`Model/RandomNeighbor`, `Spec/FairNeighbor`) | passes as a chain of states, events that depend on disjoint sets of calls are independent, sum over all passes |
| C101 | The dictionary with lists and tuples told apart, what JSON and YAML make of it (`Model/Files`); for JSON also the text of the file (`Model/JsonText`) | the data without the kinds is the one of C42; sorting keys is harmless by C102; where tuples are, by induction over conditions and clauses |
| C102 | the decoders of `Model/Serial` on arbitrary data; Python's equality in `Spec/Files` | induction over the equality: each decoder looks at fields only through lookups |
| C103 | `dict(config)` and `Configuration(values=...)` in double precision (`Model/Rebuild`, `Model/F64Space`) | rounding to thirteen decimals is idempotent for all doubles; integers, choices and constants come back from their vectors (C75); the check looks at floats only through conditions and clauses |
| C104 | `quantize_log` on the bounds of the hyperparameter, each operation rounded (`Model/F64Sample`); `np.log` and `np.exp` are parameters | error bounds as for C75; the entry depends on the level only; for the counterexample logarithms of 24, 44 and of the double before 24 are enclosed by power series |
| C105 | the functions of the core once more over an abstract arithmetic: entries of any type, and `to_vector`, `to_value`, `legal_vector`, `legal_value` and comparisons as parameters (`Model/AnyNum`), with three instances (`Model/AnyNumInst`) | the proofs of C10, C17, C23, C26 and C55 without any fact about numbers; equality of the instances with the functions of the other models by induction on conditions and clauses |
| C106 | the lines of numerical hyperparameters with scale and distribution, written and read on the characters of the text, in both pcs formats (`Model/PcsScale`) | the grammar of C67 with any text behind the default; reading a line is the call of the constructor; `to_uniform` of C77 |
| C107 | `get_one_exchange_neighbourhood` with the conversions as a parameter (`Model/AnyNumExchange`) | the loop invariants of C10 over `Model/AnyNum`; an equality with the model of C10 for exact numbers; C108 supplies legal proposals in doubles |
| C108 | the `_neighborhood` of every class in doubles: shuffles, quantised normal draws, `np.linspace` on logarithmic scales (`Model/F64Neighbors`) | the quantisation lemmas of C75 and C104; positions of choices are exact; a concrete range for the counterexample |
| C109 | `_get_value_set` of `generate_grid` in doubles: `np.linspace`, logarithm and exponential function, rounding to integers, corrections of the end points (`Model/F64Grid`) | bounds on the error of every inner point; monotone rounding; a concrete range for the counterexample |
| C110 | `Configuration(values=...)` and `__iter__` over any arithmetic (`Model/AnyNumConfig`) | a simulation: every comparison of entries in conditions, clauses and validators gives the same result; for doubles the mean value theorem separates logarithms of different decimals by more than the rounding |
| C111 | doubles with infinities, NaN and overflow; constructors, conversions and legality of uniform floats and integers over them (`Model/Special`, `Model/SpecialInt`) | case distinction over the special numbers; refinement of the model of C75 when bounds are finite; a counting argument for two decimals with equal logarithms |
| C112 | `generate_all_continuous_from_bounds` on top of the constructor of floats and `add` (`Model/Bounds`) | induction over the pairs; names are injective because digits can be read back; order from C05 |
| C113 | tables of encoders and decoders with those of the user, open recursion with a limit on nested calls (`Model/Codec`) | induction over the nesting for arbitrary classes, once for all three kinds of items; refinement of the model of C42 when the user gives nothing |
| C114 | `==` of hyperparameters and clauses (`Model/Hyper`, `Model/SpaceEq`) | induction over clauses, pigeonhole for lists without repetition; witnesses for repeated values and for other orders of choices |
| C115 | the numpy array that keeps the choices, its type, the lookup table (`Model/Choices`) | case analysis over the type of the array, induction over the table; the main model is shown to agree under the same guard |
| C116 | name and meta data beside the space (`Model/Named`) | reduction to C42; reading never sets meta data |
| C117 | generators beside the heap of C88 (`Model/Paused`): programs are lists of steps | simulation between the program and its calls of next alone; the loop state is that of a run of C38; for clauses added meanwhile an invariant of the entries of the generator (`Props/Meanwhile`); **false** for conditions added meanwhile |
| C118 | the constructor with the flag, and its exceptions (`Model/Unchecked`) | case split on the kind of the parent; normalisation is strictly increasing |
| C119 | `str` of hyperparameters and `repr` of a space (`Model/Print`), over any text of values | the nodes and the sorted texts of the clauses of two such spaces are equal |
| C120 | `_meaningful_pdf_values`, `linspace_chunked` with a number of points that is no integer, `pdf_vector` (`Model/Huge`) | **expected false** above ten million values; Riemann sums of a function with one peak differ from its integral by at most one cell |
| C121 | `__setitem__` and `change_hp_value` over what an array keeps of a number and of NaN (`Model/Dtype`) | **expected false** for arrays of whole numbers; the loop leaves the assigned entry alone, and all entries of such arrays are set |
| C122 | histories of calls with outcomes (`Spec/Caught`: `Attempts`, `Longest`, `Stayed`) over `Space.add` | invariant of the graph for the items that stayed, or a cycle of conditions, which no default configuration survives; then the theorem on rebuilding. **Expected false** for conditions entered in part; for these a weaker invariant (all is in place except the links of one child) is kept by successful calls, and a condition for that child restores the full one (`Lemmas/Retry`) |
| C123 | `json.dump` and `json.load` character by character (`Model/JsonText`); what can be in a file while it is written (`OnDisk`, `Written`) | round trip of the text by induction over the value, with what follows it; then every proper beginning of the text of a dictionary is no value: induction again, a number that was cut leaves only characters of numbers. **Expected false** for the old file, for open files and for YAML |
| C124 | text of the file (`Model/JsonText`), stable sort of the clauses in the commit (`Model/Space`) | sorting commutes with choosing; the clauses of a space are sorted in two groups; adding them again in the listed order to a space without conditions sorts and splits them the same way; sorted lists with distinct keys are unique. **Expected false** for things that print alike and for spaces that are equal |
| C125 | `get_num_neighbors`, with and without a value, and `has_neighbors` (`Model/NumNeighbors`) | cases of the kind of hyperparameter; positions in a duplicate-free sequence are distinct. **Expected false** without a value and for single choices: the functions answer the size |
| C126 | all beginnings of the text of `pcsWrite`, read by `pcsRead` (`Model/PcsNew`) | the parsers of a line never succeed on a strict beginning of a line written (`Lemmas/PcsCut`: characters are counted). **Expected false** as a whole: the format has no end mark |
| C127 | a program with any number of configurations and a set of them: reads with their caches, assignments, insertions, removals (`Model/Keyed`); the hash of texts is any function | invariant along the history: every entry still prints as when it was inserted, and no two entries are equal with the same hash. **Expected false** when an entry is assigned to: the hash is that of the printed values |
| C128 | the generator over a configuration that looks at its array each time it continues, interleaved with assignments (`Model/Loop`); the body is any function of the name and the configuration | induction on the names that remain, with the frame of an assignment (only the name and its descendants change) and the order (descendants come later). **Expected false** for bodies that assign to an earlier name |
| C129 | `Configuration.__setitem__` as in C22 and C105 | frame of an assignment: it writes only to what depends on the hyperparameter, and reads only parents of what it writes, so two assignments without common dependants touch disjoint parts; a vector that passes the check is a fixed point of every condition node. **Expected false** with a common dependant |
| C130 | `Configuration.__setitem__` as in C22 | induction along the order of the hyperparameters: after both assignments activity is right (C23), so it is as before wherever the parents are as before, and what stayed active kept its value. **Expected false** when something is switched off in between |
| C131 | `Configuration.__getitem__` and `Configuration.__setitem__` as programs of single steps (one for each load or store of an attribute of the configuration and each access to the dictionary of cached values) over a shared memory; a schedule is a list of thread numbers; also a coarser model in which threads are switched only at calls | invariants over all steps of all schedules: every dictionary that was ever made holds right values, and what a thread holds in its local variables is right; a measure for the end of every thread; for assignments, the array and every array a thread holds is the result of assignments one after another. **Expected false**: readers that start without cached values, reads next to assignments, two assignments at once (nothing is locked) |
| C132 | the steps of C131; an interrupted thread makes no step any more | reads: the invariants of C131 give that every cached value is right at every moment; assignments: the states of one assignment are enumerated by induction over the number of steps. **Expected false** between storing the array and dropping the cached values |
| C133 | `ConfigurationSpace.add` as in C01, stopped after any number of items, or after any number of the steps in which the transaction stores its results (`Model/AddCut`) | entering the items of a call is a fold over them, so it can be split anywhere; what the end of the transaction computes depends on the graph only, and sorting what is sorted changes nothing. **Expected false**: nothing is taken back, so entered hyperparameters exist already, and have no position in vectors yet |
| C134 | configuration objects that refer to shared dictionaries of cached values (`Model/Copies`), with reading and assigning as in C22 | refinement: the objects simulate a list of independent configurations; invariant: objects that share a dictionary stand for the same configuration, and every dictionary is right for the configurations that refer to it |
| C135 | threads that call `add` on one space (`Model/Adders`): the flag, the items one by one, reading the nodes, storing them, the length and the default check as separate steps | invariant: what the thread in the transaction entered and what it still enters make up its call; refinement to a serial history; counting for mutual exclusion; the negation for schedules that switch while a call ends |
| C136 | `add_configuration_space` as in C44: two calls of `add`, with the guards made in between (`Model/Union`) | negation: what is left after the first call is the disjoint union of C62, for every pair of spaces; the second call raises for illegal values and unknown parents; repeating raises by C44 |
| C53 | continuous neighbourhood loop | induction on the loop |

## 4. Trusted base

* Lean 4.33.0's kernel, and Mathlib's definitions of the reals, logarithm, exponential, lists and finite sets.
* The axioms `propext`, `Classical.choice`, `Quot.sound`. No others, in particular none added here, and no trust in
  compiled code. The list per theorem is in section 7.
* The faithfulness of the model to the Python text, as cited definition by definition. It is not checked by Lean.
* The behaviour of Python, numpy, scipy and more_itertools that the definitions assume: the densities of `scipy.stats.beta`,
  `truncnorm` and `uniform` are the documented ones, dictionaries keep insertion order,
  `sorted` is stable, comparisons with NaN are false, `np.rint` rounds half to even.
* For threads (C131): loading or storing an attribute of a configuration and one access to a dictionary with string keys are each one
  indivisible step, and memory is sequentially consistent, as in CPython with its global lock. The space does not change meanwhile. Reads of the array are
  one step, because arrays are replaced and not written to.
* For threads that add to one space (C135): testing and setting the flag of pending updates is one step (there is no call in between), and so is
  entering one item, and storing what a transaction computes; reading the nodes and storing them are different steps. Real threads can be switched
  at more places than these, so the proved part of C135 says nothing about switches within one item.

## 5. What is modelled

| File (`src/ConfigSpace/`) | Modelled | Not modelled |
|---|---|---|
| `_condition_tree.py` | all of `DAG`: `add`, `add_condition`, `add_forbidden`, `update` as a transaction, with several threads (`Model/Adders`), cycle check, depths, minimum conditions, `change_hp_lookup`, forbidden lookups, the dictionaries of parents and children, the vector positions kept in shared objects | the printing helpers |
| `configuration_space.py` | `add`, `add_configuration_space`, `sample_configuration`, `check_configuration`, the rigorous check, `get_active_hyperparameters`, default configuration, `estimate_size`, substitution, `remove_hyperparameter_priors`, `to_serialized_dict`, `from_serialized_dict`, `conditions`, orders and indices, `__eq__` (without name and meta data), `seed` and the random generator of a space (C93); activity, both validators, default configuration and sampling once more with logarithmic scales (C94); `generate_all_continuous_from_bounds` (C112); the printed text, without weights and scales (C119) | deprecated aliases, arguments passed on to `json.dump` and `yaml.dump` |
| `configuration.py` | construction from values and from a vector, also from arrays of other types of numbers (`Model/Dtype`), `__getitem__`, `__setitem__`, `__contains__`, `__iter__`, `__len__`, `__eq__`, `__repr__`/`__hash__`; iterating and reading after the space has grown; sharing of arrays between configurations and the caller, integer arrays; loops that assign (C128); copies (C134); threads that read and assign (C131) | `origin`, `config_id`, deprecated aliases |
| `conditions.py` | all six comparisons, conjunctions, both evaluators (values, vectors), `__eq__`, `equivalent_condition_on_parent`, constructors with their errors, also with `check_condition_legality=False` | `__repr__` texts, `conditionals` printing |
| `forbidden.py` | equals, in, relations, conjunctions; value, vector and array evaluators, once without and once with the exceptions of relations (C90 says when they agree); `__eq__`, `__copy__` sharing | `__repr__` texts |
| `hyperparameters/*` | constructors, legality, conversions, default values, neighbourhoods, sizes, weights, normal and beta distributed ones with their default values, densities and largest densities (scipy's densities by their documented formulas; the normalisation of integers of any number of values, also above ten million, in `Model/Huge`, C120), `to_integer`, `to_float`, `to_uniform` | the sampling algorithms of scipy: only what is done with their samples |
| `hyperparameters/hp_components.py`, `functional.py` | scaling (linear over ℚ and ordered fields, logarithmic over ℝ), quantisation, ranges, chunked ranges, legality of vectors, neighbour loops; ranges, and everything that reads or writes vectors (checks, activity, construction, assignment, reading), once more with every operation rounded to double precision, on linear and on logarithmic scales (C110); neighbours in double precision on both scales (C108); overflow, infinities and NaN in uniform ranges (C111); the types of choices in numpy arrays (C115) | rounding errors in densities, memory layout, dtypes other than those of choices |
| `util.py` | `impute_inactive_values`, `get_one_exchange_neighbourhood` (also as a generator paused between two `next`, `Model/Paused`), `get_random_neighbor`, `deactivate_inactive_hyperparameters`, `fix_types`, `check_configuration`, `change_hp_value`, `generate_grid`; the values of a grid (`_get_value_set`) once more in double precision on both scales; the one-exchange generator once more over any arithmetic (C107) | `ForbiddenValueError` messages |
| `read_and_write/*` | dictionary encoder and decoder, also with encoders and decoders of the user (C113), what JSON and YAML files keep of the dictionary, JSON files character by character; the new and the old pcs format: writers, pyparsing grammars and readers, on the characters of the text, numerical parameter lines with scale and distribution | conditions and clauses together with log scales in pcs files, the text of YAML files |
| `api/` | `Integer`, `Float`, `Categorical`, `Normal`, `Beta`, `Uniform`; spaces from mappings (C66) | - |
| `types.py`, `exceptions.py` | the exceptions as values | type aliases, texts of messages |

## 6. Where the code does not have the property

Each item is a theorem that shows with a concrete witness that a property does not hold of the code without a restriction. The
property is then recorded as partial, and the restricted theorem stands beside it. (List generated from the theorems.)

<!-- findings -->
* `C07_equal_condition_changes_check`: C07 fails for conditions on an equal parent whose choices come in another order: adding such an equal condition is accepted, and afterwards a vector that was accepted is rejected.
* `C07_equal_condition_raises`: C07 fails: adding an equal condition may also raise an error.
* `C08_rejected_batch_leaves_hyperparameter`: C08 fails: of two hyperparameters of which the second is rejected, the first stays.
* `C08_rejected_clause_stays`: C08 fails: a clause that forbids the default configuration is rejected with `ForbiddenValueError`, but stays in the space.
* `C08_rejected_cycle_breaks_later_add`: C08 fails: a condition that is rejected with `CyclicDependancyError` stays in the space; adding an unrelated hyperparameter afterwards raises `KeyError`, although it succeeds on the space before the rejected call.
* `C101_tuple_conditions_change`: C101 is false of the code for in-conditions that were made with a tuple: the condition in the loaded space has a list in its place, and Python says that it is not equal to the condition that was saved. Decoding the dictionary without a file gives an equal condition in both cases.
* `C101_yaml_fails_iff`: C101 is false of the code for YAML files: loading the file fails with `ConstructorError` exactly if the space has an in-clause, also inside of a conjunction, or an in-condition that was made with a tuple. (`ForbiddenInClause` always keeps a tuple.)
* `C103_drawn_refused`: C103 is false of the code for drawn configurations in general. `x` is active if `f > 0.5`. A drawn `f` can be the double after one half: the configuration is valid, with `x` active. Its dictionary says `f = 0.5` and `x = "u"`, since values are rounded to thirteen decimals when they are read; a configuration made from it is refused, because `x` is inactive.
* `C104_log_drawn_entry_differs`: C104 is false of the code for entries. With the logarithm and the exponential function computed as well as doubles allow, take an integer between 1 and 44 on a logarithmic scale. 24 can be drawn, and whenever it is drawn, its entry is less than `to_vector(24)`. So `ForbiddenEqualsClause(n, 24)` and `EqualsCondition(child, n, 24)` miss every drawn 24, and `LessThanCondition(child, n, 24)` holds for it.
* `C106_distribution_lost`: C106, violated: a normal or beta distribution is neither kept nor refused. The hyperparameter comes back as a uniform one, in both formats. (Weights of categorical hyperparameters are refused, see `C67_weights_rejected`.) That the distribution survives is false of the code.
* `C106_old_second_letter_ignored`: C106, violated: in the old format, a `l` that does not follow the other letter directly is ignored: the line `k [1, 10] [3]i l` gives a hyperparameter on the linear scale. That all the letters of a line count is false of the code.
* `C106_unknown_scale_ignored`: C106, violated: what follows the default and does not begin with `log` is ignored. A line that ends in `LOG`, `Log` or `lg` is read without an exception, as one on the linear scale. That a scale that is not understood is refused is false of the code.
* `C108_current_integer_proposed`: Without the guard the claim is false of the code: `UniformIntegerHyperparameter("seed", 0, 2  31 - 1)` with the value `2  31 - 2`. The entry of this value is quantised to `1`, the entry of `2  31 - 1`, so that this entry is excluded instead of the current one, and the draw `1 - 2  -30` makes the current value its own neighbour.
* `C109_log_float_illegal`: C109, false of the code without the guard of `C109_log_floats_partial`: only the two end points are corrected. With the best possible logarithm and exponential function, the grid of ten steps between `2 ^ 29 - 3 * 2 ^ -21` and `2 ^ 29` on a logarithmic scale has a value above the upper bound that is not the last one.
* `C109_log_floats_partial`: C109, partial. On a logarithmic scale the values of a float are as many as wanted, within the bounds, in strictly ascending order, and follow the geometric progression from the lower to the upper bound up to a relative error of `2 ^ -40`, if neighbouring points are not too close: a factor of about `1 + 2 ^ -38`. Without that it is false of the code, see `C109_log_float_illegal`.
* `C10_foreign_hyperparameter_differs`: The restriction in C10 is needed: `add` only compares names, so a clause built from another object with the name of a hyperparameter of the space is accepted, and merging then forbids vectors that no clause forbids.
* `C111_both_infinite_accepted`: C111 is false of the code for infinite bounds: with a default value the whole real line is accepted, and the entry of the default value is NaN.
* `C111_infinite_bound_accepted`: C111 is false of the code for infinite bounds: a range from a number to infinity is accepted, its default value is infinity, and the entry of the default value is NaN, which means "not set" in a vector.
* `C111_infinite_bound_collapses`: C111 is false of the code for infinite bounds: in a range from a number to infinity all finite values have the entry 0, so that no two of them can be told apart, and every positive entry is read as infinity, the entry 0 as NaN.
* `C111_int_bound_changed`: C111 is false of the code: larger bounds are changed silently.
* `C111_int_default_cut`: C111 is false of the code for default values that are only close to an integer: they are accepted as integers, but cut and not rounded. Between 1 and 10 the value `5 - 2  -17`, which is a legal value and read as 5, becomes the default value 4.
* `C111_int_default_outside`: C111 is false of the code for large numbers: between 0 and `2 ^ 53`, the integer `2 ^ 53 + 1` is accepted as the default value, and kept, although it is not in the range.
* `C111_int_huge_raises`: C111 is false of the code: `legal_value` does not answer "no" for integers that do not fit into 64 bits but raises a `TypeError`.
* `C111_large_bound_becomes_infinite`: C111 is false of the code for large finite bounds: rounding to 13 places multiplies by `10 ^ 13`, so every bound of at least `2 ^ 981` (about `2e295`) becomes infinite.
* `C111_log_entries_nan`: C111 is false of the code for narrow ranges on a logarithmic scale, whatever accurate logarithm is used: there are bounds with 13 decimal places near 200 that the constructor accepts and keeps, and the entries of the default value and of all legal values are NaN, which means "not set" in a vector.
* `C112_positions_fail`: C112, false of the code. One expects the `i`-th entry of a vector to belong to the `i`-th pair of bounds. With eleven pairs or more it does not: `x10` comes before `x2`, so the entry with index 2 never belongs to the pair with index 2.
* `C113_name_taken`: C113, false of the code. Encoders are chosen by class, decoders by name, so that it is not enough that the user's decoder undoes the user's encoder: under a name that a default encoder uses as well, it also gets what that one wrote. Here the decoder undoes the encoder of `==`, and every `!=` condition comes back as `==` condition.
* `C113_type_key_wins`: C113, false of the code. One expects that what the user's encoder writes is read by the decoder that the user gave for it. If the encoder writes a key `type` itself, this replaces the name of the encoder, and another decoder is used.
* `C114_equal_forbids_more`: C114 is false of the code for clauses that repeat a value: `f == g` although `g` forbids more.
* `C114_equal_other_vectors`: C114 is false of the code for vectors: two equal clauses, equal in both directions and without repeated values, forbid different vectors, because the order of choices is not compared.
* `C114_not_symmetric`: C114 is false of the code without this: `a == b` but not `b == a`.
* `C114_vectors_differ`: C114 is false of the code for vectors: equal hyperparameters may encode the same value differently.
* `C115_big_integer_refused`: C115 is false of the code for integers that are not doubles, listed together with floats: the integer, which the user has listed as a choice, is not a legal value, and as default value it makes the constructor raise.
* `C115_null_characters`: C115 is false of the code for texts that end with a null character: if all choices are texts, such a choice never comes back, and choices that differ only in null characters at their ends are taken for one another.
* `C115_type_changed`: C115 is false of the code for types: with the choices `[True, 2]`, the entry of `True` is read as the integer 1, and with the choices `[1, 0.5]` the entry of `1` is read as the float 1.0.
* `C116_meta_lost`: C116 is false of the code for meta data: they are not written, so that no space with meta data is equal to what is read from its own dictionary, however the lists of its nodes come out.
* `C116_priors_drop_name`: C116 is false of the code for `remove_hyperparameter_priors`: the result has no name and no meta data, so that a space with a name is not equal to it, even if there was no prior to remove.
* `C117_condition_added_meanwhile`: C117, false of the code for conditions that are added meanwhile: the generator keeps the positions that the hyperparameters had when it started. Here `b` comes before `a` since the condition was added; the value `r` proposed for `b` is then written to the entry of `a`, which has only two choices, and the configuration that is given is rejected by the check.
* `C117_growing_space_ends_it`: C117, false of the code: "a neighbourhood can be read to its end while the space grows". Once the space has more (or fewer) hyperparameters than the array of the configuration has entries, `next` never gives another configuration.
* `C117_not_those_of_the_call`: C117, false of the code: "the neighbours are those of the configuration that was given". The call only makes a generator: with an assignment `config["k"] = 1` between the call and the first `next`, the second neighbour of the two-call example has the new value and not the one that the configuration had at the call.
* `C117_write_changes_neighbours`: C117, false of the code: "a started neighbourhood is not disturbed by anything". The generator keeps the array of the configuration and not a copy of it: a write to the array between two calls of `next` (here `config.get_array()[2] = 1`) changes the neighbours that follow.
* `C118_copy_raises`: C118 is false of the code for copies: a condition about an illegal value cannot be copied, so a space that has it cannot be added to another one.
* `C118_not_read_back`: C118 is false of the code for files: the dictionary of a condition about an illegal value is refused by every space that has the same hyperparameters.
* `C118_text`: C118 is false of the code for texts: on the float range from 0 to 1 a text that reads as a number `q` is accepted without the check. On vectors the condition is then about `q`, on values it never holds.
* `C119_two_spaces_one_text`: C119, false of the code: the text does not determine the space. A hyperparameter with the choices 1 and 2 prints like one with the choices "1" and "2", although the two are different and accept different values.
* `C120_normal_too_small`: C120, false of the code: for a normally distributed integer with more than ten million values whose mean is the middle of the range, the densities of all values add up to at most 101 times the standard deviation (as a part of the range): to at most 0.101 if it is a thousandth of the range.
* `C120_raises`: C120, false of the code: with more than ten million values the densities may raise an exception: if all but a millionth of the probability belongs to a single value.
* `C120_sum_is_width`: C120, false of the code for more than ten million values: the densities of all values do not add up to one but to about the width of the part of the range that has all but a millionth of the probability. The distances between the points that are summed are too small: they are computed as if this part had as many values as the whole range.
* `C121_whole_all_active`: C121, false of the code: "an assignment that switches hyperparameters off succeeds". There is no NaN in an array of whole numbers: after an assignment that succeeded, all conditions of the space hold. So every assignment after which some condition would not hold raises.
* `C121_whole_lower_bound`: C121, false of the code: "after `config[n] = w`, `config[n]` is `w`". If the configuration was made from an array of whole numbers, an assignment of any value between the bounds of a float or of an integer range, if it succeeds, leaves the *lower bound*: the entry of the value, a number between 0 and 1, is written to an array of whole numbers.
* `C122_half_condition_stays`: C122 is false of the code: a conjunction that is rejected because its second parent is unknown stays. If that parent is added later, the space has the rejected condition, but the parent does not have the child. No history of successful calls builds such a space.
* `C123_cut_yaml_is_loaded`: C123 is false of the code for YAML files: of a space without conditions and clauses, every beginning of the file that ends after the lines of a hyperparameter is loaded without an error, as a space in which the other hyperparameters are missing.
* `C123_failed_write_destroys`: C123 is false of the code for the old file when writing fails: if anything in the dictionary cannot be written - a choice that is no number of Python and no text, or what an encoder of the user returned - then `to_json` raises `TypeError`, and exactly then; but the file has been opened by then, and what is in it cannot be loaded, whatever was in it before.
* `C123_old_file_is_lost`: C123 is false of the code in one direction: the file that was there is lost before the new one is complete. Whatever it was, and whatever space is written, there is a moment at which stopping the program leaves a file that cannot be loaded.
* `C123_open_file_partial`: C123 is false of the code for open files: if a space is written into an open file over a space that took more room, the rest of the old text stays behind the new one and the file cannot be loaded any more. If the old one did not take more room, the new one is loaded.
* `C124_clauses_that_print_alike`: C124 is false of the code if two clauses print alike: here the order in which they were added decides.
* `C124_equal_spaces_other_files`: C124 is false of the code for spaces that compare equal: the order of the choices is not compared, but it is written.
* `C124_file_changes`: C124 is false of the code if two conditions print alike: the file of such a space has only one of them, so that loading it and saving it again gives another file.
* `C125_default_not_used`: C125 is false of the code for the default value: the documentation of `get_num_neighbors` says that without a value the default value is used, but for choices, sequences and integer ranges the answer is always larger than the one for the default value, and than the one for every other legal value (whole number, in an integer range).
* `C125_just_outside`: C125 is false of the code at the ends of an integer range: 999.995 is a legal value of the range from 1000 to 2000, it stands for 1000, and it is said to have 1001 neighbours, one more than there are other numbers, because it is compared with the bounds as it is.
* `C125_single_choice`: C125 is false of the code for a single choice: `has_neighbors()` answers that a categorical or an ordinal hyperparameter with one value has neighbours, although there is no other value, and although `get_num_neighbors` of that value is 0.
* `C126_clauses_lost`: C126 is false of the code: every file with clauses has a part that is loaded as a space with the same hyperparameters and the same conditions and without the clauses. It accepts all that the space accepts, and what only the clauses exclude.
* `C126_condition_changed`: C126 is false of the code: a file cut inside a condition is loaded with another condition. The condition says that `y` is active if `p` is `a` or `b`. Without its last character it says: only if `p` is `a`. Cut behind `{a` it says: never. Cut behind the name of the child the condition is gone: `y` is always active.
* `C126_hyperparameters_lost`: C126 is false of the code: for every space and every number, a part of its file is loaded as a space with that many of its hyperparameters. The empty file is a space as well.
* `C127_lost`: C127 is false of the code for configurations that are assigned to while they are in a set: after an assignment such a configuration is found exactly if the hash of its text is the same as before. If not, it cannot be removed, and after it is inserted again the set contains the same object twice.
* `C127_lost_with_another`: C127 is false of the code: a configuration may also be lost without being assigned to. If an equal configuration was in the set already, that one stands for both; when it is assigned to, both are lost.
* `C127_same_value_lost`: C127 is false of the code: an assignment of the very value that a configuration shows may also lose it. Here it was made with `3.0` for an integer hyperparameter; `config["k"] = config["k"]` leaves it equal to what it was, but it is printed with `3` now.
* `C128_earlier_assigned`: C128, false of the code for a body that assigns to another name: a hyperparameter that was visited is not active when the loop has ended, though no assignment failed.
* `C128_snapshot_raises`: C128, false of the code for a loop over the names that were collected before: with the same values for which the loop over the configuration itself ends well, `for n in list(config): config[n] = g(n)` raises, and leaves a configuration in which a part of the values has been assigned, and an active hyperparameter that has not.
* `C129_order_matters`: C129, false of the code for two hyperparameters on which a third one depends: neither depends on the other, all four assignments are accepted, and the two orders end in different configurations. (In one order `x` is switched off in between and comes back with its default value; in the other order it keeps its value.)
* `C130_value_lost`: C130, false of the code for an assignment that switches a hyperparameter off: assigning the old value brings it back with its default value, so the configuration is another one than before, and what was chosen is lost.
* `C131_lost_assignment`: C131, false of the code even if threads are switched only at calls: two threads assign to two hyperparameters that have nothing to do with each other. Both succeed, and one of the assignments is lost: the array is neither what both assignments give in one order nor what they give in the other.
* `C131_reader_raises`: C131, false of the code where threads may be switched anywhere: two threads that do nothing but read a configuration that has no cached values yet (every sampled configuration, every one made from a vector), and one of them gets a KeyError for an active hyperparameter, which it had read before.
* `C131_reader_type_error`: C131, false of the code where threads may be switched anywhere: a read next to an assignment raises TypeError.
* `C131_stale`: C131, false of the code even if threads are switched only at calls: a thread reads `p` while another one assigns to it. Both succeed, and no thread is running any more; the array has the new value, and `config["p"]` still gives the old one.
* `C132_assignment_partial`: C132, in part. An assignment that is interrupted after any number of steps, except between its last two steps (between the lines 209 and 210 of configuration.py): afterwards the configuration reads as it did before, or as it does after the assignment. Missing: the point between the two lines, where it is false of the code with cached values (`C132_interrupted`).
* `C132_interrupted`: C132, false of the code: the assignment of `"b"` to `p` is interrupted between the lines 209 and 210. Afterwards the configuration says that `p` is `"a"`, as before, but `x`, which is active if `p` is `"a"`, and was, has no value, as after the assignment.
* `C133_lost_clause`: C133 is false of the code for an interruption between the two assignments that store the clauses. The call would succeed; adding nothing after the interruption succeeds too, and the clause that was in the space before is gone: a vector that violates it is accepted.
* `C133_refuses_all`: C133, false of the code: meanwhile the space is of no use. If the call was interrupted after it entered a hyperparameter (and no condition yet), then the validator refuses every vector, also those it accepted before.
* `C133_repeat_fails`: C133, false of the code: the call cannot simply be repeated. If it was interrupted after its first hyperparameter or later, the same call raises `HyperparameterAlreadyExistsError`, and nothing but its rest can be added.
* `C135_lost_hyperparameter`: C135 is false of the code for schedules that switch threads while a call ends: the flag is reset before the nodes are read and stored (_condition_tree.py:459, 468, 482), so a second call may enter its hyperparameter in between, into the dictionary that is then replaced. Both calls return without an exception, the hyperparameter `q` is not in the space, and no order of the two calls gives this.
* `C135_serial_partial`: C135 (partial). Any number of threads call `add` on one space, any number of times, under any schedule that does not switch threads between the end of a transaction and the end of its call. Whenever no thread is in a call, the space is what the calls that did not raise the RuntimeError "Already in a pending update" make of it one after the other, in some order, each once and with the outcome that its thread saw. What is missing: schedules that switch in the ending part of a call; for them it is false of the code (`ExAd.C135_lost_hyperparameter`).
* `C136_guards_fit_partial`: C136 (partial). If the parent hyperparameter is one of the space and the value is legal for it, and the added space can be added without a guard, then the call does not raise any of the errors by which `add` says that its arguments do not fit: all guards are made and accepted, and only the check of the default configuration is left. What is missing: that nothing stays if the call raises, which is false of the code (`C136_illegal_value`, `C136_unknown_parent`).
* `C136_illegal_value`: C136, false of the code: if the value is not legal for the parent hyperparameter, `add_configuration_space` raises ValueError and leaves the added space in the space without its guard: exactly the space that the call without a parent gives. There every valid configuration has a valid configuration of the added space in it, whatever the value of the parent is, and the call cannot be repeated with a legal value.
* `C136_legal_value_raises`: C136, false of the code: also with a legal value of a hyperparameter of the space the call may raise, although the added space can be added without a guard. Here the added space has `x | k != 5`, and by default `alg` does not have the value: in the default configuration `k` is unset, the values say that `x` is inactive and the vector says that it is active. Everything that was added stays.
* `C136_unknown_parent`: C136, false of the code: the same if the parent hyperparameter is not in the space. The call raises ParentNotFoundError, and what it leaves is the space that the call without a parent gives.
* `C13_not_equals_unset_parent_differs`: C13 fails for `NotEqualsCondition` with an unset parent: false on values, true on vectors (conditions.py:170 against conditions.py:160, `NaN != x`).
* `C14_relation_near_integer_differs`: C14 fails for a relation on a legal value of an integer hyperparameter that is only close to an integer: 3.00001 is legal (hp_components.py:391-403 with `rtol=1e-5`) and differs from 3, but decodes to 3.
* `C15_and_or_grouped_but_differ`: C15 fails for grouping: an and-conjunction and an or-conjunction of the same literals are grouped for joint evaluation (conditions.py:460-473 compares the components only) although they differ.
* `C15_equal_conditions_differ`: C15 fails: equality of categorical hyperparameters ignores the order of the choices (categorical.py:303-325), but the vector value of a choice is its position. So equal conditions may hold on different vectors.
* `C15_repeated_literal_grouped_but_differ`: C15 fails for grouping: the comparison of components goes in one direction only, so `And(p, p)` is grouped with `And(p, q)`.
* `C16_illegal_root_accepted`: C16 fails: the value of an unconditional hyperparameter is never checked; `alg = 1/2` is accepted.
* `C17_grouped_conjunctions_misjudged`: C16 and C17 fail because an and- and an or-conjunction of the same literals are checked together: with `alg = "a"`, `k = 1` the condition of `x` is false; the vector with `x` unset is valid and rejected, the one with `x` set is invalid and accepted.
* `C18_not_equals_with_inactive_parent_differs`: C18 and C19 fail for `NotEqualsCondition` with an inactive parent.
* `C18_or_with_inactive_parent_differs`: C18 and C19 fail for an or-conjunction one of whose parents is inactive: `check_configuration` asks for a value of `x`, the rigorous validator refuses it and `get_active_hyperparameters` does not list it.
* `C21_unknown_empty_key_accepted`: C21 fails for the key `""`: `any(unknown_keys)` looks at the truth value of the keys, so an unknown empty name goes unnoticed.
* `C22_near_integer_reads_back_rounded`: The restriction to exact integers is needed: `3.00001` is legal for `k`, and `3` is read back.
* `C23_active_value_reset`: C23 fails without the guard: `b` is active for `p = "a"` and for `p = "b"`, but on the way from the one to the other it is unset and set to its default; its value `"b"` is lost.
* `C23_dependant_missed`: C23 fails without the guard: `z` depends on `p` through `y` and `x`, but the lookup of `p` misses it: after setting `p` to `"b"`, `x` and `y` are unset and `z` still has its value. So the assignment raises.
* `C24_len_counts_inactive`: C24 fails for `len`: it is the length of the space, not the number of keys.
* `C26_invalid_sample`: C26 fails without the guard: the condition of `z` is evaluated before `y` is unset, so the sampled configuration has a value for `z` although its condition does not hold. The generator only gives legal values.
* `C28_empty_space`: C28 is false for the empty space: the estimate is zero, and the empty configuration is valid and accepted.
* `C30_choices_rounded_beyond_end`: The restriction is needed, for every categorical and ordinal hyperparameter: the entry `len - 1e-5` passes `legal_vector`, but converting it to a value fails, because it is rounded to the position after the last choice.
* `C32_not_nearest`: Although its documentation says so, `quantize` does not go to the closest grid point: with three bins on `[0, 1]` the point 0.3 is mapped to 0 while 0.5 is closer.
* `C33_step_two_wrong`: For steps other than one the chunks are wrong: they start at multiples of the chunk size instead of multiples of chunk size times step, so `range(0, 10, 2)` in chunks of 3 comes out as 0, 2, 3, 5.
* `C35_current_value_proposed`: The restriction to exact integers is needed: the entry `1 - 1e-6` is legal and stands for the second choice, but the second choice is among its neighbours, since the entry is truncated instead of rounded.
* `C35_ordinal_illegal_neighbor`: The restriction to exact integers is needed here as well: the entry `1e-14` is legal and stands for the first value, but one of the proposed neighbours is `-1`, which is not legal.
* `C38_forbidden_neighbour`: C38 fails without the guard: exchanging `p` activates `x` with its default `"a"`, which is not allowed together with `r = "a"`. Only the clauses that mention `p` are looked at, so a forbidden configuration is generated.
* `C39_conjunction_raises`: A conjunction with a parent that is not yet in the point raises `KeyError`, although the space has valid configurations and all conditions are conjunctions of `==`.
* `C39_duplicates`: With more steps than integers in the range, the same configuration is returned twice.
* `C39_empty_space`: The grid of the empty space is empty, although the space has a configuration.
* `C39_missing_steps_raises`: Numerical hyperparameters without a number of steps raise `ValueError`.
* `C39_not_equals_raises`: `!=` on an inactive hyperparameter raises `RuntimeError`.
* `C39_rounding_raises`: A float that is rounded makes the two ways of evaluating a condition disagree, and the generation raises `InactiveHyperparameterSetError`.
* `C40_both_given_raises`: C40, false of the code: both arguments. The documentation says that the vector is ignored if both arguments are given; the function raises ValueError, for every space, dictionary and vector, and also if none is given.
* `C40_inactive_forbidden_raises`: A clause about a value that is to be removed makes the function raise, although the configuration without that value is accepted.
* `C40_missing_intermediate_raises`: A value below an unset hyperparameter is not removed: the function raises instead (in the chain `x | p == "a"`, `y | x == "a"`, with `p` and `y` given, and `p` not `"a"`).
* `C40_not_equals_raises`: With `!=` on a conditional hyperparameter the function may raise for a complete dictionary of legal values: it removes `y` because `x` is set, and then `x`.
* `C40_vector_more_lenient`: C40, false of the code: vectors are checked less. The values `p = "b"`, `x = "a"` without a value for `y`, which is active if `x` is "a", are refused as a dictionary; as a vector the function returns `{"p": "b"}`.
* `C41_imputation_forbidden`: A configuration that is valid may have no imputation: the default of an inactive hyperparameter violates a clause together with an active value.
* `C42_conditions_that_print_alike`: C42 is false for two conditions that print alike: a space with two conditions is written with one.
* `C43_mixed_conjunction_changes_meaning`: C43 is false for And and Or nested in each other: the condition `p is 1 and (q is 1 or r is 1)` becomes `p is 1 and q is 1 and r is 1`.
* `C44_not_equals_escapes`: C44, false of the code. A conditional hyperparameter of the added space escapes the parent hyperparameter if its condition is `!=`: here the parent does not have the value, and yet `p:x` must have one.
* `C44_not_injective`: C44, false of the code. The renaming is not injective: a space with the names `a` and `p:a` cannot be added under the prefix `p`.
* `C45_equal_but_different_hash`: C45 is false in general: `{"k": 3, ...}` and `{"k": 3.0, ...}` compare equal, and different strings are hashed.
* `C45_same_vector_not_equal`: C45 is false in general: a configuration built from the value `3.00001` of an integer hyperparameter is not equal to the one built from its vector.
* `C47_discretized_wrong`: Normal and beta distributed integers: the densities of the values do not sum to one, since the normalisation sums over the points of `linspace(..., endpoint=False)`, which are not the values. With the density `2 x` of a beta distribution with parameters 2 and 1 on the integers 0 and 1 the densities are 0 and 2.
* `C48_default_truncated`: A default that is accepted because it is close to 3 becomes 2: after the closeness test it is truncated, not rounded. Normal and beta distributed integers round it.
* `C51_checks_disagree`: In general the two checks disagree, in both directions: for the range 10..20 the entry `-1e-9` is legal in an array but not alone; for the range -1000000..0 the entry 0.9999996 is legal alone but not in an array. The tolerance is relative to the value in one case and to the position in the range in the other.
* `C54_to_integer_may_fail`: Converting a float range to integers may fail although the range contains integers: the default 0.4 of the range 0.3 to 2.7 is rounded to 0, which is below the smallest integer of the range.
* `C59_conditions_that_print_alike`: Conditions of different children that print alike are listed once by `space.conditions`, so the other one is lost in everything that is made from this list (removal of priors, serialisation).
* `C59_mixed_conjunction_changes_validity`: C59 is false for such conditions: a vector is valid in the space, and invalid after the removal of priors.
* `C60_old_probabilities_lost`: C60. That what an older file says is kept is false of the code for the probabilities of choices: choices that were given with any probabilities (and without the newer key `weights`) are read as choices without weights, so that a choice of probability zero can be drawn, and all are equally likely.
* `C60_old_steps_lost`: C60. That what an older file says is kept is false of the code for step widths: a range of integers with a step width, which admitted only the multiples of the step, is read as the range with all integers in between.
* `C61_second_decode_fails`: C61 is false: decoding a dictionary takes the types out of it, so that decoding the same dictionary a second time raises `KeyError`, whenever it has a hyperparameter.
* `C63_added_space_changes`: C63, false of the code. After the first call the added space itself is changed, and after adding it again under another prefix, the first copy has lost its clause: nothing forbids the value 5 for `a:x`.
* `C64_float_may_be_unchanged`: A proposal for a float that differs from the current entry may round to the current value: the returned configuration is then equal to the given one.
* `C64_may_run_forever`: The function may run forever: if every neighbour is rejected it never stops (the limit of 10000 rejections of the documentation does not exist). Here the configuration is valid, the estimated size is two, and for *every* behaviour of the random generator that proposes the only other choice the loop is still running after any number of passes.
* `C65_ambiguous_text`: Two choices with the same text: the function refuses even the values of a valid configuration.
* `C65_partial_change`: The dictionary is changed in place: when the function raises, some values may have been replaced already.
* `C65_truncates`: Floats are silently truncated for an integer hyperparameter, and values outside of the range are let through.
* `C66_key_discarded`: The key of an item that is already a hyperparameter is discarded: two different keys may clash, and a key need not name anything in the space.
* `C66_mixed_bounds`: Bounds of different types: with an integer as lower bound, the upper bound is rounded to an integer, so that the value 2 is legal although the mapping says `(0, 1.5)`; and no float is.
* `C67_choices_become_text`: C67, violated: the choices of a categorical hyperparameter come back as strings.
* `C67_clause_with_digit`: C67, violated: a clause on a choice that begins with a digit but is not a number, like `3x3`, is written, but reading it raises an exception of the parser.
* `C67_clauses_before_conditions`: C67, violated: the clauses of the file are added before its conditions. If a clause forbids that all hyperparameters have their defaults — which is allowed in a space in which not all of them are active by default — then the space can be written, but reading the text raises `ForbiddenValueError`.
* `C67_constant_becomes_categorical`: C67, violated: a constant comes back as a categorical hyperparameter with one choice, which is a string.
* `C67_mixed_connectives`: C67, violated: a condition with `in`, `&&` and `||` in a file is not read, although the grammar allows it.
* `C67_name_lost`: C67, violated: the name of a hyperparameter is checked before it is written, but only the beginning of it: the name `a#b` passes, and on reading the line is cut off before the `#` and ignored.
* `C67_nested_condition_not_written`: C67, violated: a conjunction inside of a condition is not written: `NotImplementedError`.
* `C67_ordinal_becomes_categorical`: C67, violated: an ordinal hyperparameter with the word `categorical` in its name or in one of its values comes back as a categorical one, without the order.
* `C69_equal_spaces_differ`: C69 fails for equal spaces in general: the order of choices is not compared, but vectors depend on it.
* `C69_history_unequal`: C69 fails otherwise: the same hyperparameter and the same two clauses, added in one call or in two, make two spaces that are not equal, although they have the same list of clauses and accept the same vectors.
* `C69_not_symmetric`: C69 fails without this: `==` of spaces is not symmetric, and the two spaces accept different vectors.
* `C69_rebuilt_unequal`: C69 fails otherwise: a space whose clauses were added in two calls is not equal to what is built again from its hyperparameters, conditions and clauses.
* `C71_order_depends_on_history`: The order of the children depends on the history. Two histories with the same hyperparameters and conditions give the same order of all hyperparameters, but list the children of `n` in different orders: the children are sorted when a condition is added, with the depths known at that time. In the first space, `a` is listed before `b`, although it comes later in the space.
* `C72_conditions_that_print_alike`: C72 is false for conditions that print alike, even within one space: only the first gets its positions.
* `C72_shared_condition`: C72 is false for shared condition objects. After a condition object of a space has been added to a second space, where its parent has another position, the first space reads the wrong entry: on the same vector the condition held before, and does not hold any more. The call was made on the other space.
* `C73_choices_become_text`: C73, violated: the choices of a categorical hyperparameter come back as strings.
* `C73_constant_becomes_categorical`: C73, violated: a constant comes back as a categorical hyperparameter with one choice, which is a string.
* `C73_integers_through_floats`: C73, violated: the bounds of an integer hyperparameter are read as floats; integers of more than 53 bits come back as others.
* `C73_not_written`: C73, violated: a space with an ordinal hyperparameter, with a weighted categorical one, or with a condition outside of these, is not written.
* `C73_number_clause_not_read`: C73, violated: neither is a clause on a number.
* `C73_number_condition_not_read`: C73, violated: a condition on a number is written, but the number in it stays a string when it is read: `ValueError`.
* `C73_numbers_not_read`: C73, violated: a space with a condition and a clause on a number is written, but not read.
* `C73_single_in_becomes_equals`: C73, violated: `in` with one value comes back as `==`.
* `C74_foreign_parent_key_error`: C74 fails for conditions about other objects: with an ordinal parent that does not know the value, a `KeyError` escapes.
* `C74_foreign_parent_type_error`: C74 fails for conditions about other objects: a condition may be built with a parent that only has the name of a hyperparameter of the space. `add` does not notice, compares the default of the space's own hyperparameter (a string) with the number in the condition, and a `TypeError` escapes.
* `C75_float_collision`: ... and different values have the same vector: a condition on such a parent is decided for 4e-13 as for 5e-13.
* `C75_float_round_trip_fails`: With larger bounds a value of 13 places is not what one gets back: 1e-13 between -1000 and 1000 becomes 2e-13.
* `C75_int_above_bound`: Beyond `2 ^ 53` the bounds are rounded: the vector 1 of `UniformIntegerHyperparameter("x", 0, 2  54 + 3)` is the vector of its upper bound, and has a value above the upper bound.
* `C75_legal_array_fails`: For `UniformIntegerHyperparameter("x", -1007, 993)` the value 0 is legal and so is its vector when it is checked alone, but the check of arrays, which `pdf_values` and `pdf_vector` use, rejects the same vector.
* `C75_upper_bound_not_reached`: The vector 1 need not have the upper bound as its value.
* `C76_equal_floats_accepted`: C76 fails for clauses that compare float ranges of different bounds: `ForbiddenEqualsRelation(a, b)` with `a` in `[0, 1]` and `b` in `[0, 7]` accepts `{"a": 0.9, "b": 0.9}`, and both items read the same.
* `C76_equal_floats_less`: ... and `ForbiddenLessThanRelation(a, b)` refuses the same values although neither is less.
* `C78_discretized_too_small`: C78, false of the code: the reported number may also be too small. With a beta distribution with parameters 2 and 1 on two integers the upper one has the density 2, and the reported largest density is 1.
* `C78_discretized_wrong`: C78, false of the code: for normal and beta distributed integers the reported number is not divided by the sum by which the densities are divided. With a beta distribution with parameters 1 and 1 all integers of the range have the same density, one divided by their number, but the reported largest density is 1.
* `C79_uniform_float_wrong`: C79, false of the code: the densities of the entries of a uniform float integrate to one only if its range has the length one: they are densities of values instead.
* `C80_log_mean_rounded_to_zero`: C80, false of the code: on a logarithmic scale the mean must be positive, but this is checked before it is rounded: a mean of `1e-14` is accepted and kept as zero, and then `to_integer` fails.
* `C80_log_sigma_vanishes`: C80, false of the code on a logarithmic scale: for every range that starts below 1 there is a positive standard deviation that becomes zero, so that the distribution is degenerate; the standard deviation of the vectors is the logarithm of `lower + sigma` instead of a difference of logarithms.
* `C80_log_sigma_wrong`: C80, false of the code on a logarithmic scale: a larger standard deviation may become smaller, and measuring everything in another unit changes the distribution.
* `C80_sigma_unchecked`: C80, false of the code: the standard deviation is not looked at. Whether `Integer(...)` and `Float(...)` accept a normal distribution does not depend on it; zero and negative numbers are accepted.
* `C81_text_recurses`: C81, false of the code: a text is not reported as an object of an unknown type. Its characters are texts again, so that the collection never ends: whatever the limit of nested calls is, it is exceeded (`RecursionError`). The empty text is accepted.
* `C82_rejected_call_breaks_mapping`: C82, false of the code after a rejected call: the keys already contain a hyperparameter of the rejected call, which is neither counted by `len` nor has it a position.
* `C83_rounded_mean_is_not_decoded`: C83, false of the code: a normal distribution on a logarithmic scale whose mean was rounded to zero can be made and encoded, but not decoded.
* `C84_copy_always_raises`: C84, false of the code: `copy` raises for every hyperparameter and every choice of attributes to change, because the fields that `dataclasses.replace` hands to the constructor contain internal ones that no constructor accepts.
* `C85_equality_depends_on_history`: C85, false of the code. Two normally (or beta) distributed integers made by the same call are equal exactly if densities have been asked of both or of neither.
* `C86_list_accepted_as_value`: C86, false of the code: lists in configurations. A list with one legal value passes the check of configurations and of assignments, although the list is not a value of the hyperparameter.
* `C86_mixed_lists`: C86, false of the code: mixed lists. In a list that contains a text all numbers are turned into texts, so that legal values are found illegal; with the choices 1 and "1" the position of the wrong choice is returned.
* `C86_unhashable_choices`: C86, false of the code: choices that are not hashable. If the choices are dictionaries, `to_vector` of an array returns the positions of the choices that occur in it: in the order of the choices, each once.
* `C87_iteration_raises`: C87, false of the code. After any calls that add a hyperparameter, iterating over any configuration made before, and so `dict(config)` or comparing it, raises IndexError.
* `C87_values_exchanged`: C87, false of the code. A call that adds a condition may exchange the values of a configuration made before: it was made with a = q and b = u, now a = p and b = v are read from it, and it passes the validation of the grown space.
* `C88_assigned_value_lost`: C88, false of the code: the assigned value is lost. `config["f"] = 0.5` succeeds, and `config["f"]` is `0.0`.
* `C88_integer_array_truncates`: C88, false of the code: integer arrays. The constructor keeps the element type of an array. An assignment to a configuration made from an array of integers that succeeds keeps only the integral part of the entry, for every space, hyperparameter and value.
* `C88_stale_value`: C88, false of the code: values that were read hide writes. After a value has been read, setting its entry in the array of the configuration to NaN removes its name from `list(config)`, but the value is still read.
* `C88_write_changes_configurations`: C88, false of the code: writes show in configurations. The constructor does not copy an array: two configurations made from one array both change, without any validation, when the caller writes to it.
* `C89_float_repeats`: A float hyperparameter may be given its own value as a neighbour, and the same one twice: the entries are compared with nothing. The claim that neighbours differ is false of the code for floats.
* `C90_accepted_but_never_sampled`: C90: false of the code. `add` accepts a space that can never be sampled: the relation is between an integer and a text, and the integer is inactive by default, so that the check of the default configuration does not evaluate it.
* `C90_array_raises_where_single_answers`: C90: false of the code. The answer for an array is not made of the answers for its columns: a conjunction evaluates all its components on an array and stops at the first one that does not hold on a vector.
* `C91_equal_other_entries`: C91: what compares equal need not have the same entries; a choice is stored as its position.
* `C91_illegal_raises`: C91, false of the code: the documentation of `pdf_values` says that the density is zero where values are not legal. For categorical hyperparameters one value that is not a choice makes the whole call raise `KeyError`.
* `C91_last_entry_has_no_density`: C91, false of the code: an entry slightly above the last position is legal and decodes to the last choice, but its density is zero, with and without weights.
* `C93_repeated_clause_changes_samples`: C93 is false of the code for clauses that are repeated. A clause given a second time forbids nothing new, and the two spaces accept the same vectors; but the size of the batches depends on the number of clauses, so that the same seed gives other configurations, and leaves the generator in another state.
* `C94_almost_whole`: C94 is false of the code for integers that are not quite whole. `50.0004` is close enough to an integer to be a legal value of an integer range. With a logarithmic scale the configuration is created; with a linear scale it is rejected, since there the distance is measured from the lower bound.
* `C97_not_uniform`: Conditions make valid configurations unequally likely, although all values are drawn independently and uniformly: in the chain `x | p == "a"`, `y | x == "a"` of three hyperparameters with two choices each, `{p: "b"}` has probability 1/2 and `{p: "a", x: "a", y: "a"}` has probability 1/8.
* `C98_clauses_disconnect`: C98 fails with clauses: if `p` and `r` must be equal, the configuration `a`, `a` has no neighbour at all, so a local search never gets to `b`, `b`, which is valid as well.
* `C99_mixed_lists`: C99, false of the code: mixed lists. In a list that contains a text a constant number is not found any more: it is illegal and has density zero.
* `C99_unhashable_choices`: C99, false of the code: choices that are not hashable. `pdf_values` of an array of dictionaries returns the densities in the order of the choices, and one only for a repeated value.
<!-- /findings -->

Seen while reading, but outside of the model: `_empty_neighborhood` of constants returns uninitialised memory; the legacy key `probabilities` is
dropped (with a warning, without using it as `weights`) when decoding; `substitute` de-duplicates the components of a conjunction by identity.

## 7. Axioms per theorem

Generated with `#print axioms`.

<!-- axioms -->
* `Classical.choice`, `Quot.sound`, `propext` (765 theorems): AddCut.C133_refuses_all, AddCut.C133_repair_partial, AddCut.C133_repair_without_conditions, AddCut.C133_repeat_fails, AddCut.C133_resume, AddCut.ExAc.C133_lost_clause, Adders.C135_each_call_once, Adders.C135_ends, Adders.C135_nothing_invented, Adders.C135_one_transaction, Adders.C135_serial_partial, Adders.ExAd.C135_lost_hyperparameter, AnyNum.C105_assign_partial, AnyNum.C105_change_forbidden_partial, AnyNum.C105_change_keeps_partial, AnyNum.C105_change_partial, AnyNum.C105_check_partial, AnyNum.C105_double_assign_partial, AnyNum.C105_double_check_partial, AnyNum.C105_double_every_valid_sampled_partial, AnyNum.C105_double_samples_partial, AnyNum.C105_every_draw_used_once, AnyNum.C105_every_valid_sampled_partial, AnyNum.C105_exact_check, AnyNum.C105_linear_check, AnyNum.C105_linear_every_drawn_partial, AnyNum.C105_linear_samples_partial, AnyNum.C105_literals_separable, AnyNum.C105_merged_clauses, AnyNum.C105_rigorous_partial, AnyNum.C105_samples_not_forbidden, AnyNum.C105_samples_pass_check_partial, AnyNum.C105_samples_rebuilt_partial, AnyNum.C105_samples_valid_partial, AnyNum.C107_choices_exhausted, AnyNum.C107_double_neighbours_differ_partial, AnyNum.C107_double_neighbours_valid_partial, AnyNum.C107_exact, AnyNum.C107_generator_ends, AnyNum.C107_neighbours_differ, AnyNum.C107_neighbours_valid_partial, AnyNum.C107_no_failure, AnyNum.C107_number_of_neighbours, AnyNum.C107_one_value_exchanged, AnyNum.C108_fresh_partial, AnyNum.C108_legal_partial, AnyNum.C110_assign, AnyNum.C110_exact_session, AnyNum.C110_session, AnyNum.C110_validators, AnyNum.C129_order_partial, AnyNum.C129_repeated, AnyNum.C129_same_value, C01_parents_before_children, C02_names_index_bijection, C03_acyclic, C03_cyclic_error_sound, C03_cyclic_iff, C04_layout_order_independent, C05_depth_longest_chain, C05_layout_sorted, C06_conditional_iff, C06_roots_no_condition, C07_equal_condition_accepted_partial, C07_equal_condition_changes_check, C07_equal_condition_raises, C07_second_condition_rejected, C08_rejected_add_keeps_layout_partial, C08_rejected_batch_leaves_hyperparameter, C08_rejected_clause_stays, C08_rejected_cycle_breaks_later_add, C08_single_item_unchanged_partial, C09_clauses_kept_and_classified, C106_distribution_lost, C106_linear_as_in_files, C106_log_needs_positive, C106_new_line_is_constructor, C106_new_round_trip_partial, C106_old_line_is_constructor, C106_old_round_trip_partial, C106_old_second_letter_ignored, C106_unknown_scale_ignored, C10_foreign_hyperparameter_differs, C10_merged_clauses_equivalent, C112_accepts, C112_bad_bounds, C112_names_taken, C112_order, C112_positions_fail, C112_positions_partial, C113_clause, C113_condition, C113_default_decoders, C113_default_encoders, C113_hyperparameter, C113_name_taken, C113_space_partial, C114_equal_forbids_more, C114_equal_other_vectors, C114_forbids_no_less, C114_hyperparameters, C114_not_symmetric, C114_reflexive_transitive, C114_same_meaning_partial, C114_same_values, C114_same_vectors_forbidden_partial, C114_same_vectors_partial, C114_symmetric_partial, C114_vectors_differ, C116_add_keeps, C116_meta_lost, C116_name_kept_partial, C116_priors_drop_name, C117_as_if_alone, C117_clauses_added_meanwhile, C117_condition_added_meanwhile, C117_configurations, C117_first_next, C117_growing_space_ends_it, C117_next_disturbs_nothing, C117_not_those_of_the_call, C117_read_valid_partial, C117_starts_late, C117_write_changes_neighbours, C119_each_once, C119_lines, C119_same_text, C119_two_spaces_one_text, C122_after_failures_partial, C122_cycle_blocks, C122_half_condition_stays, C122_retry_repairs, C125_default_not_used, C125_default_not_used', C125_has_neighbors_partial, C125_just_outside, C125_number, C125_positive_iff_another, C125_single_choice, C126_clauses_lost, C126_condition_changed, C126_cut_in_parameters_partial, C126_hyperparameters_kept_partial, C126_hyperparameters_lost, C12_forbidden_array_eq_single, C13_not_equals_unset_parent_differs, C13_unset_parent_false, C13_value_eq_vector_partial, C14_relation_near_integer_differs, C14_value_eq_vector_no_relation, C14_value_eq_vector_partial, C15_and_or_grouped_but_differ, C15_equal_conditions_differ, C15_equal_conditions_same_meaning_partial, C15_equality_equivalence, C15_grouped_same_meaning_partial, C15_repeated_literal_grouped_but_differ, C16_accepted_is_valid_partial, C16_accepted_legal_roots_partial, C16_illegal_root_accepted, C17_grouped_conjunctions_misjudged, C17_valid_is_accepted_partial, C18_not_equals_with_inactive_parent_differs, C18_or_with_inactive_parent_differs, C18_validators_agree_partial, C19_active_iff_set_partial, C20_default_configuration, C20_default_is_valid, C21_unknown_empty_key_accepted, C21_values_kept, C21_values_valid_partial, C22_near_integer_reads_back_rounded, C22_set_item, C23_active_value_reset, C23_active_values_kept_partial, C23_change_fails_only_if_forbidden_partial, C23_change_reestablishes_activity_partial, C23_dependant_missed, C23_single_parents_layered, C24_entries_decode, C24_len_counts_inactive, C24_mapping_partial, C25_samples_not_forbidden, C26_invalid_sample, C26_samples_pass_check_partial, C26_samples_valid_partial, C27_sample_count_partial, C27_sampling_ends, C27_size_one_on_empty_space, C28_configurations, C28_empty_space, C28_exact, C28_infinite, C28_upper_bound, C28_upper_bound_accepted, C29_round_trip, C29_round_trip_log_integer, C30_choices_partial, C30_choices_rounded_beyond_end, C30_constant, C30_float, C30_integer, C30_integer_back, C30_log_integer, C38_forbidden_neighbour, C38_neighbours_differ, C38_neighbours_valid_partial, C38_one_value_exchanged, C39_conjunction_raises, C39_duplicates, C39_empty_space, C39_float_steps_distinct, C39_full_product, C39_grid_accepted, C39_grid_complete_partial, C39_grid_ends, C39_grid_no_duplicates, C39_grid_returned_partial, C39_grid_valid_partial, C39_integer_steps_distinct, C39_missing_steps_raises, C39_not_equals_raises, C39_rounding_raises, C40_both_given_raises, C40_complete_partial, C40_complete_vectors_partial, C40_deactivate_ends, C40_deactivate_partial, C40_inactive_forbidden_raises, C40_missing_intermediate_raises, C40_not_equals_raises, C40_returned_restricts, C40_valid_unchanged, C40_vector_ends, C40_vector_like_values_partial, C40_vector_more_lenient, C40_vector_restricts, C41_imputation_forbidden, C41_impute, C41_impute_default, C41_number_must_be_legal, C42_clause, C42_condition, C42_conditions_that_print_alike, C42_hyperparameter, C42_round_trip_partial, C43_clauses, C43_conditions_partial, C43_flat_conditions, C43_literals, C43_mixed_conjunction_changes_meaning, C44_guarded_partial, C44_name_taken, C44_new_names, C44_not_equals_escapes, C44_not_injective, C44_rename_twice, C45_eq_iff, C45_eq_refl, C45_eq_symm, C45_eq_trans, C45_equal_but_different_hash, C45_equal_hash_partial, C45_from_vector_native, C45_same_vector_not_equal, C45_same_vector_partial, C46_is_forbidden_value, C46_lines_equivalent, C46_relation_raises, C48_categorical, C48_categorical_accepts, C48_constant, C48_default_truncated, C48_default_vector, C48_float, C48_float_accepts, C48_integer, C48_integer_accepts, C48_ordinal, C50_meaning_kept, C51_checks_disagree, C51_grid_points_partial, C51_lower_zero_partial, C52_choices, C52_float, C52_integer, C52_integer_float, C54_int_float_int, C54_to_integer_may_fail, C55_every_valid_can_be_sampled_partial, C56_generator_ends, C56_no_failure, C56_number_of_neighbours, C57_categorical, C57_choices_exhausted, C58_fitting_call, C58_fresh_hyperparameters, C58_misfit_error_iff, C58_success_fits, C59_conditions_that_print_alike, C59_mixed_conjunction_changes_validity, C59_plain_names_print_apart, C59_remove_priors_partial, C60_both_defaults, C60_old_default, C60_old_probabilities_ignored, C60_old_probabilities_lost, C60_old_quantisation, C60_old_relation, C60_old_steps_lost, C61_encoding_decodes_once, C61_second_decode_fails, C62_check_union, C62_disjoint_union, C62_fits, C63_added_space_changes, C63_same_call, C63_side_effect, C63_twice, C63_unchanged_iff, C64_float_may_be_unchanged, C64_gives_up, C64_may_run_forever, C64_one_value_changed, C64_returns, C64_single_configuration, C64_valid_partial, C64_vector_changed, C65_ambiguous_text, C65_other_distributions, C65_partial_change, C65_raises_iff, C65_restores, C65_result, C65_truncates, C66_accepts, C66_contents_partial, C66_key_discarded, C66_mixed_bounds, C66_rejects, C67_choices_become_text, C67_clause_with_digit, C67_clauses_before_conditions, C67_constant_becomes_categorical, C67_mixed_connectives, C67_name_lost, C67_nested_condition_not_written, C67_ordinal_becomes_categorical, C67_round_trip_partial, C67_weights_rejected, C68_dictionary_decodes_to_a_space, C68_pcs_reads_a_space, C68_read_space_is_sound, C69_equal_iff, C69_equal_same_check_partial, C69_equal_spaces_differ, C69_history_unequal, C69_not_symmetric, C69_rebuilt_equal_partial, C69_rebuilt_unequal, C69_reflexive, C69_rejected_equal_partial, C69_rejected_lists, C69_same_content_equal_partial, C69_symmetric_partial, C69_transitive, C70_every_draw_used_once, C70_no_clause_no_draw_lost, C71_child_conditions_of, C71_children_of, C71_inverse, C71_order_depends_on_history, C71_parent_conditions_of, C71_parents_of, C71_unknown_name, C72_clauses_read_their_hyperparameters_partial, C72_conditions_read_their_parents_partial, C72_conditions_that_print_alike, C72_own_history, C72_shared_condition, C73_choices_become_text, C73_conditions_written, C73_constant_becomes_categorical, C73_integers_through_floats, C73_nested_flattened, C73_not_written, C73_number_clause_not_read, C73_number_condition_not_read, C73_numbers_not_read, C73_round_trip_partial, C73_single_in_becomes_equals, C74_add_partial, C74_check_partial, C74_foreign_parent_key_error, C74_foreign_parent_type_error, C74_set_partial, C74_values_partial, C77_categorical, C77_errors, C77_float_accepted_iff, C77_float_built, C77_given_default_kept, C77_int_float_int, C77_integer_accepted_iff, C77_integer_built, C77_to_float, C77_to_integer_iff, C77_to_uniform, C78_beta_float, C78_choices, C78_constant, C78_discretized_too_small, C78_discretized_wrong, C78_illegal, C78_normal_float, C78_uniform_float, C78_uniform_integer, C78_uniform_log_integer, C78_weighted, C79_float_density_partial, C79_uniform_float_wrong, C79_value_densities, C80_log_mean_rounded_to_zero, C80_log_sigma_partial, C80_log_sigma_vanishes, C80_log_sigma_wrong, C80_sigma_unchecked, C80_units_log_mean, C80_units_partial, C81_improper_arguments_change_nothing, C81_nesting_is_irrelevant, C81_same_content_same_result, C81_text_recurses, C81_type_error, C82_mapping, C82_rejected_call_breaks_mapping, C83_decoded_is_made, C83_numerical_round_trip_partial, C83_rounded_mean_is_not_decoded, C85_answers, C85_answers_log, C85_equality_depends_on_history, C85_equality_log, C86_list_accepted_as_value, C86_lists_in_configurations, C86_mixed_lists, C86_ranges_partial, C86_unhashable_choices, C87_given_values_stay, C87_iteration_raises, C87_read_values_stay, C87_same_position_partial, C87_unchanged_space, C87_values_exchanged, C88_arrays_kept, C88_assigned_value_lost, C88_elsewhere, C88_get, C88_integer_array_truncates, C88_polite_programs_partial, C88_set, C88_stale_value, C88_write_changes_configurations, C89_all_values, C89_constant, C89_continuous_buffer, C89_float_repeats, C89_neighbors_values_partial, C89_quantised_buffer, C89_total, C89_unknown_choice, C90_accepted_but_never_sampled, C90_add, C90_array_raises_where_single_answers, C90_both_set_rejected, C90_check, C90_clause_evaluates, C90_clause_evaluates_array, C90_histories, C90_of_values, C90_only_type_error, C90_sampling, C90_sampling_raises, C90_undecodable_entries, C91_densities, C91_equal, C91_equal_densities, C91_equal_other_entries, C91_equivalence, C91_illegal_raises, C91_last_entry_has_no_density, C91_sample_interval, C91_samples, C91_scaled, C91_uniform, C92_check_order, C92_conditions, C92_entries, C92_negative_position, C92_neighbors, C92_positions, C92_relations_use_values, C92_strict_total_order, C93_hash_order, C93_repeated_clause_changes_samples, C93_reproducible, C93_same_parts, C93_sampling_refines, C99_constant_arrays, C99_densities_partial, C99_mixed_lists, C99_unhashable_choices, Commute.C129_configuration_order_partial, Commute.C129_configuration_repeated, Commute.C129_configuration_same_value, Commute.C129_dictionary_order_partial, Commute.C129_order_matters, Commute.C130_undo_partial, Commute.C130_value_lost, Conn.C98_choices_connected_partial, Conn.C98_clauses_disconnect, Conn.C98_connected_partial, Conn.C98_generator_runs, Copies.C134_copies_independent, Dtype.C121_float64, Dtype.C121_set_item_partial, Dtype.C121_whole_all_active, Dtype.C121_whole_keeps, Dtype.C121_whole_lower_bound, F64.C104_log_all_drawn, F64.C104_log_drawn_entry_differs, F64.C104_log_drawn_entry_partial, F64.C104_log_drawn_value, F64.C104_log_same_entry, F64.C108_categorical, F64.C108_current_integer_proposed, F64.C108_integers, F64.C108_integers_all, F64.C108_integers_fresh_partial, F64.C108_log_integers, F64.C108_log_integers_all_partial, F64.C108_log_integers_fresh_partial, F64.C108_ordinal, F64.C109_all_integers, F64.C109_linear_floats, F64.C109_linear_ints, F64.C109_log_float_illegal, F64.C109_log_floats_partial, F64.C109_log_ints, F64.C109_no_steps, F64.C109_one_step, F64.C110_double_accepted_iff_valid_partial, F64.C110_double_session_partial, F64.C110_double_validators_partial, F64.C111_accepted, F64.C111_both_infinite_accepted, F64.C111_equal_logs, F64.C111_finite_bounds, F64.C111_finite_bounds_log_partial, F64.C111_infinite_bound_accepted, F64.C111_infinite_bound_collapses, F64.C111_infinite_default, F64.C111_infinite_lower_refused, F64.C111_int_accepted, F64.C111_int_bound_changed, F64.C111_int_bounds_kept, F64.C111_int_default_accepted, F64.C111_int_default_cut, F64.C111_int_default_kept, F64.C111_int_default_not_finite, F64.C111_int_default_outside, F64.C111_int_huge_raises, F64.C111_int_legal, F64.C111_int_no_default, F64.C111_int_not_finite_refused, F64.C111_large_bound_becomes_infinite, F64.C111_log_entries_nan, F64.C111_nan_refused, F64.C75_float_collision, F64.C75_float_error, F64.C75_float_order, F64.C75_float_round_trip, F64.C75_float_round_trip_fails, F64.C75_int_above_bound, F64.C75_int_drawn, F64.C75_int_legal, F64.C75_int_legal_array_partial, F64.C75_int_order, F64.C75_int_quantize_fixed, F64.C75_int_quantized, F64.C75_int_round_trip, F64.C75_int_value_in_bounds, F64.C75_int_vector, F64.C75_legal_array_fails, F64.C75_log_float_error, F64.C75_log_int_round_trip, F64.C75_log_int_value_in_bounds, F64.C75_log_value_in_bounds, F64.C75_log_vector, F64.C75_rounding, F64.C75_upper_bound_not_reached, F64.C75_value_in_bounds, F64.C75_value_mono, F64.C75_vector_ends, F64.C75_vector_in_unit, F64.C75_vector_mono, F64.C76_accepted_iff_valid_partial, F64.C76_equal_floats_accepted, F64.C76_equal_floats_less, F64.C76_session_partial, F64.C76_validators_partial, Fair.C95_independent_and_alike, Fair.C96_zero_or_one, Fair.C97_distribution_partial, Fair.C97_draws_exist, Fair.C97_each_configuration_partial, Fair.C97_ends_if_satisfiable_partial, Fair.C97_ends_partial, Fair.C97_fewer_active_more_likely_partial, Fair.C97_never_ends_partial, Fair.C97_not_uniform, Fair.C97_number_of_batches_partial, Fair.C97_product_of_values_partial, Fair.C97_results_fair_partial, Fair.C97_same_active_equally_likely_partial, Files.C101_json_is_the_dictionary, Files.C101_json_round_trip_partial, Files.C101_tuple_conditions_change, Files.C101_yaml_fails_iff, Files.C101_yaml_is_the_dictionary_partial, Files.C101_yaml_round_trip_partial, Files.C102_equal_dictionaries, Huge.C120_normal_raises, Huge.C120_normal_too_small, Huge.C120_raises, Huge.C120_small, Huge.C120_sum_close, Huge.C120_sum_is_width, Huge.beta_onePeak, Huge.normal_onePeak, Huge.quantile_exists, JText.C101_json_text_round_trip_partial, JText.C101_only_ascii, JText.C101_text_is_read_back, JText.C101_texts_differ, JText.C123_complete_write, JText.C123_cut_file_fails, JText.C123_cut_yaml_is_loaded, JText.C123_failed_write_destroys, JText.C123_never_another_space, JText.C123_old_file_is_lost, JText.C123_old_or_new, JText.C123_open_file_partial, JText.C123_two_in_one_file, JText.C123_what_may_follow, JText.C124_any_number_of_rounds_partial, JText.C124_clauses_that_print_alike, JText.C124_equal_spaces_other_files, JText.C124_file_changes, JText.C124_order_of_definition_partial, JText.C124_saved_again_partial, Keyed.C127_discard_partial, Keyed.C127_equal_found_partial, Keyed.C127_found_partial, Keyed.C127_lost, Keyed.C127_lost_with_another, Keyed.C127_nothing_else, Keyed.C127_same_value_lost, Loop.C128_each_once, Loop.C128_earlier_assigned, Loop.C128_exception, Loop.C128_snapshot_raises, Loop.C128_values_partial, Loop.C128_visits_active_partial, Num.C31_linear, Num.C31_log, Num.C31_rescale, Num.C32_not_nearest, Num.C32_quantize, Num.C32_quantize_log, Num.C33_chunks_partial, Num.C33_linspace, Num.C34_center, Num.C34_split, Num.C35_categorical_partial, Num.C35_current_value_proposed, Num.C35_ordinal_illegal_neighbor, Num.C35_ordinal_partial, Num.C36_discretized_illegal_neighbor, Num.C36_discretized_partial, Num.C36_integer_neighbors, Num.C36_integer_values, Num.C36_log_integer, Num.C36_log_integer_total, Num.C37_categorical, Num.C37_integer, Num.C37_ordinal, Num.C47_density_truncates, Num.C47_discretized_partial, Num.C47_discretized_wrong, Num.C47_probabilities, Num.C47_uniform_integer, Num.C47_weighted_density, Num.C49_choices, Num.C49_discretized, Num.C49_log_integer, Num.C49_log_normal_illegal, Num.C49_uniform_integer, Rebuild.C103_created, Rebuild.C103_drawn_partial, Rebuild.C103_drawn_refused, Rebuild.C103_rounding_twice, Scaled.C94_accepted_iff_valid_partial, Scaled.C94_almost_whole, Scaled.C94_default_partial, Scaled.C94_every_valid_can_be_sampled_partial, Scaled.C94_samples_same_partial, Scaled.C94_samples_valid_partial, Scaled.C94_scales_agree_partial, Scaled.C94_sessions_same_partial, Scaled.C94_value_in_bounds, Threads.C131_array_serial, Threads.C131_ends, Threads.C131_never_wrong, Threads.C131_no_invented_value, Threads.C131_reads_at_calls, Threads.C131_reads_partial, Threads.C132_assignment_at_calls, Threads.C132_assignment_partial, Threads.C132_assignment_uncached, Threads.C132_reads, Threads.ExIn.C132_interrupted, Threads.ExTh.C131_lost_assignment, Threads.ExTh.C131_reader_raises, Threads.ExTh.C131_reader_type_error, Threads.ExTh.C131_stale, Typed.C115_big_integer_refused, Typed.C115_constructor_partial, Typed.C115_legal_iff_partial, Typed.C115_main_model_partial, Typed.C115_null_characters, Typed.C115_type_changed, Typed.C115_types_kept_iff, Typed.C115_values_kept_partial, Unchecked.C118_above, Unchecked.C118_choice_refused, Unchecked.C118_constant, Unchecked.C118_copy_legal, Unchecked.C118_copy_raises, Unchecked.C118_default, Unchecked.C118_illegal_number, Unchecked.C118_legal_value, Unchecked.C118_meaning, Unchecked.C118_not_read_back, Unchecked.C118_text, Unchecked.C118_text_refused, UnionCut.C136_after_first_call, UnionCut.C136_guards_fit_partial, UnionCut.C136_illegal_value, UnionCut.C136_legal_value_raises, UnionCut.C136_unknown_parent, Walk.C100_calls_exist, Walk.C100_ends, Walk.C100_fair, Walk.C100_gives_up_rarely.
* `Quot.sound`, `propext` (19 theorems): AnyNum.C105_sample_count, C113_no_decoder, C113_no_encoder, C113_type_key_wins, C116_equal_iff, C11_condition_array_eq_single, C122_one_item, C122_stays_unique, C125_default_used_partial, C63_every_space, C84_copy_always_raises, C86_arrays_partial, C86_lists_partial, C86_sequence_is_one_value, C99_constant_lists_partial, C99_constant_one, F64.C108_floats, Num.C35_small_ignores_n, Num.C53_float_neighbors.
* no axioms (2 theorems): C72_single_space, Num.C33_step_two_wrong.
<!-- /axioms -->
