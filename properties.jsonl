{"id": "C01", "title": "Parents come before children", "statement": "After any sequence of successful add() calls, every hyperparameter that appears as a parent in the condition of another hyperparameter has a strictly smaller index in the vector representation (index_of, iteration order, at) than that child.", "quantifier": "every finite history of successful ConfigurationSpace.add calls with any number of hyperparameters, conditions (nested conjunctions included) and forbidden clauses", "why_tests_cant": "the order is maintained incrementally by depth propagation; a test only sees finitely many graphs and insertion orders", "anchors": ["src/ConfigSpace/_condition_tree.py:DAG.update", "src/ConfigSpace/_condition_tree.py:HPNode.propogate_new_depth", "src/ConfigSpace/_condition_tree.py:DAG.add_condition"]}
{"id": "C02", "title": "Names and vector positions are a bijection", "statement": "After any history of successful add() calls the names of the space are pairwise distinct, every added hyperparameter is present exactly once, and index_of and at are inverse bijections between the names and 0..len(space)-1; len(space) is the number of added hyperparameters.", "quantifier": "every finite history of successful add calls", "why_tests_cant": "the index maps are rebuilt from a sort at each call; unbounded number of names and calls", "anchors": ["src/ConfigSpace/_condition_tree.py:DAG.update", "src/ConfigSpace/_condition_tree.py:DAG.add", "src/ConfigSpace/configuration_space.py:ConfigurationSpace.add"]}
{"id": "C03", "title": "Conditions are rejected exactly when they would close a cycle", "statement": "Adding a condition between known hyperparameters raises CyclicDependancyError if and only if the parent->child relation including the new condition has a cycle; hence after any history of successful adds the relation is acyclic.", "quantifier": "every condition added to every reachable space", "why_tests_cant": "graphs of unbounded size and shape; the check is an iterative depth-first search whose correctness is an invariant over its stack", "anchors": ["src/ConfigSpace/_condition_tree.py:DAG._check_cyclic_dependancy", "src/ConfigSpace/_condition_tree.py:DAG.add_condition"]}
{"id": "C04", "title": "Layout does not depend on insertion order", "statement": "Two successful histories that add the same hyperparameters and the same conditions (in any order, in any batching) give the same vector layout (same index for every name).", "quantifier": "all pairs of successful histories with the same content", "why_tests_cant": "the depth of a node is raised along different paths depending on the order of insertion; factorially many orders", "anchors": ["src/ConfigSpace/_condition_tree.py:HPNode.propogate_new_depth", "src/ConfigSpace/_condition_tree.py:DAG.update"]}
{"id": "C05", "title": "Depth is the longest dependency chain", "statement": "The depth that determines the layout equals, for each hyperparameter, the number of hyperparameters on the longest chain of conditions that ends in it; the layout is sorted by (depth, name).", "quantifier": "every history of successful adds", "why_tests_cant": "longest path over unbounded DAGs built incrementally", "anchors": ["src/ConfigSpace/_condition_tree.py:HPNode.propogate_new_depth", "src/ConfigSpace/_condition_tree.py:HPNode.__lt__"]}
{"id": "C06", "title": "Unconditional hyperparameters are exactly those without a condition", "statement": "After any history of successful adds, unconditional_hyperparameters is exactly the set of names that no added condition has as child, and conditional_hyperparameters is exactly the rest.", "quantifier": "every history of successful adds", "why_tests_cant": "roots are derived from the depth being 1, so the claim is an invariant over all histories", "anchors": ["src/ConfigSpace/_condition_tree.py:DAG.update", "src/ConfigSpace/configuration_space.py:ConfigurationSpace.conditional_hyperparameters"]}
{"id": "C07", "title": "At most one condition per child", "statement": "If a child already has a condition, adding a condition that is not equal to it raises AmbiguousConditionError; adding an equal condition succeeds and leaves hyperparameters, conditions and layout as they were.", "quantifier": "every reachable space and every condition", "why_tests_cant": "quantifies over all reachable spaces and both outcomes of a structural equality on nested conjunctions", "anchors": ["src/ConfigSpace/_condition_tree.py:DAG.add_condition", "src/ConfigSpace/conditions.py:Conjunction.__eq__"]}
{"id": "C08", "title": "A failed add leaves the space unchanged", "statement": "If add() raises, the observable content of the space (names, conditions, forbidden clauses, layout) is what it was before the call.", "quantifier": "every space, every add call and every point at which it fails", "why_tests_cant": "failure points inside a batch are unbounded in number", "anchors": ["src/ConfigSpace/_condition_tree.py:DAG.update", "src/ConfigSpace/configuration_space.py:ConfigurationSpace.add"]}
{"id": "C09", "title": "Forbidden clauses are neither lost nor duplicated nor misclassified", "statement": "After any history of successful adds, forbidden_clauses is a permutation of all the clauses that were added, and a clause is treated as unconditional exactly when every hyperparameter it mentions is unconditional, even if conditions were added after the clause.", "quantifier": "every history of successful adds interleaving conditions and clauses", "why_tests_cant": "reclassification at each commit; unbounded interleavings", "anchors": ["src/ConfigSpace/_condition_tree.py:DAG.update", "src/ConfigSpace/_condition_tree.py:DAG.add_forbidden", "src/ConfigSpace/_condition_tree.py:DAG._is_unconditional_forbidden"]}
{"id": "C10", "title": "Merged forbidden clauses forbid the same vectors", "statement": "The optimised forbidden checks used for validation (equality conjunctions merged into in-clauses) forbid a vector if and only if some clause the user added forbids it, provided the clauses were built from the hyperparameters of the space (not from other objects with the same names).", "quantifier": "every set of clauses and every vector, NaN entries included", "why_tests_cant": "the merge groups clauses by a key computed from sorted components; all groupings and all vectors", "anchors": ["src/ConfigSpace/_condition_tree.py:DAG._optimized_forbiddens", "src/ConfigSpace/_condition_tree.py:DAG.update"]}
{"id": "C11", "title": "Vectorised and single evaluation of conditions agree", "statement": "Column j of satisfied_by_vector_array on a matrix equals satisfied_by_vector on column j, for every condition and conjunction.", "quantifier": "every condition, every matrix of any width, NaN entries included", "why_tests_cant": "all nesting depths of conjunctions and all matrices", "anchors": ["src/ConfigSpace/conditions.py:BinaryOpCondition.satisfied_by_vector_array", "src/ConfigSpace/conditions.py:InCondition.satisfied_by_vector_array", "src/ConfigSpace/conditions.py:AndConjunction", "src/ConfigSpace/conditions.py:OrConjunction"]}
{"id": "C12", "title": "Vectorised and single evaluation of forbidden clauses agree", "statement": "Column j of is_forbidden_vector_array equals is_forbidden_vector on column j, for every clause, relation and conjunction.", "quantifier": "every clause and every matrix, NaN entries included", "why_tests_cant": "all nesting depths and all matrices", "anchors": ["src/ConfigSpace/forbidden.py:ForbiddenAndConjunction", "src/ConfigSpace/forbidden.py:ForbiddenInClause", "src/ConfigSpace/forbidden.py:ForbiddenLessThanRelation"]}
{"id": "C13", "title": "Conditions mean the same on values and on vectors", "statement": "For a dictionary of legal values and the vector obtained from it, satisfied_by_value and satisfied_by_vector give the same answer, for every condition; a missing parent makes both false.", "quantifier": "every condition and every assignment of legal values", "why_tests_cant": "all hyperparameter kinds, values and nestings", "anchors": ["src/ConfigSpace/conditions.py:BinaryOpCondition.satisfied_by_value", "src/ConfigSpace/conditions.py:InCondition.satisfied_by_value"]}
{"id": "C14", "title": "Forbidden clauses mean the same on values and on vectors", "statement": "For a dictionary of legal values and the vector obtained from it, is_forbidden_value and is_forbidden_vector give the same answer, for every clause.", "quantifier": "every clause and every assignment of legal values, missing names included", "why_tests_cant": "all kinds, values and nestings", "anchors": ["src/ConfigSpace/forbidden.py:ForbiddenEqualsClause", "src/ConfigSpace/forbidden.py:ForbiddenInClause", "src/ConfigSpace/forbidden.py:ForbiddenLessThanRelation"]}
{"id": "C15", "title": "Equal conditions are interchangeable", "statement": "If two conditions compare equal they hold on the same vectors, equality is reflexive and symmetric; conditions grouped for joint evaluation (equivalent on the parent) hold on the same vectors.", "quantifier": "every pair of conditions, every vector", "why_tests_cant": "all pairs of nested conjunctions", "anchors": ["src/ConfigSpace/conditions.py:Conjunction.__eq__", "src/ConfigSpace/conditions.py:Conjunction.equivalent_condition_on_parent", "src/ConfigSpace/_condition_tree.py:DAG._minimum_conditions"]}
{"id": "C16", "title": "Validation accepts only valid configurations", "statement": "If check_configuration accepts a vector then every unconditional hyperparameter has a value, every conditional hyperparameter has a value exactly when its condition holds, all values are legal and no added forbidden clause forbids the vector.", "quantifier": "every reachable space and every vector of the right length", "why_tests_cant": "all spaces and vectors", "anchors": ["src/ConfigSpace/util.py:check_configuration"]}
{"id": "C17", "title": "Validation accepts every valid configuration", "statement": "If a vector satisfies the conditions listed in C16 then check_configuration accepts it.", "quantifier": "every reachable space and every vector of the right length", "why_tests_cant": "all spaces and vectors", "anchors": ["src/ConfigSpace/util.py:check_configuration"]}
{"id": "C18", "title": "The two validators agree", "statement": "The fast validator check_configuration and the rigorous per-hyperparameter validator accept the same vectors.", "quantifier": "every reachable space and every vector", "why_tests_cant": "all spaces and vectors", "anchors": ["src/ConfigSpace/util.py:check_configuration", "src/ConfigSpace/configuration_space.py:ConfigurationSpace._check_configuration_rigorous"]}
{"id": "C19", "title": "Active hyperparameters of a valid configuration are those with a value", "statement": "For every vector accepted by check_configuration, get_active_hyperparameters returns exactly the names whose entry is set.", "quantifier": "every reachable space and every accepted vector", "why_tests_cant": "all spaces and vectors", "anchors": ["src/ConfigSpace/configuration_space.py:ConfigurationSpace.get_active_hyperparameters"]}
{"id": "C20", "title": "The default configuration is always valid", "statement": "After every successful add(), get_default_configuration() succeeds, its configuration passes validation and every hyperparameter with a value in it has its default value.", "quantifier": "every history of successful adds", "why_tests_cant": "every reachable space; defaults interact with all conditions and clauses", "anchors": ["src/ConfigSpace/configuration_space.py:ConfigurationSpace._check_default_configuration", "src/ConfigSpace/configuration_space.py:ConfigurationSpace.add"]}
{"id": "C21", "title": "Building a configuration from a dictionary keeps its values", "statement": "If Configuration(space, values) succeeds then the result is valid, its set keys are exactly the given ones and reading a key returns the (rounded) given value; unknown keys are rejected.", "quantifier": "every reachable space and every dictionary", "why_tests_cant": "all spaces and dictionaries", "anchors": ["src/ConfigSpace/configuration.py:Configuration.__init__", "src/ConfigSpace/configuration.py:Configuration.__getitem__"]}
{"id": "C22", "title": "Item assignment is atomic", "statement": "config[k] = v either raises and leaves the configuration exactly as it was, or succeeds and leaves a configuration that passes validation in which k has value v (floats rounded to 13 places, near-integers of an integer range rounded to the integer).", "quantifier": "every space, configuration, key and value", "why_tests_cant": "all failure points of the update", "anchors": ["src/ConfigSpace/configuration.py:Configuration.__setitem__"]}
{"id": "C23", "title": "Changing one value re-establishes activity of everything that depends on it", "statement": "After changing one active hyperparameter of a valid configuration, every hyperparameter has a value exactly when its condition holds, newly activated ones get their default, and hyperparameters that do not depend on the changed one keep their value.", "quantifier": "every reachable space, valid vector, active hyperparameter and legal new value", "why_tests_cant": "transitive closure over unbounded condition graphs; depends on a precomputed order", "anchors": ["src/ConfigSpace/util.py:change_hp_value", "src/ConfigSpace/_condition_tree.py:DAG.update", "src/ConfigSpace/_condition_tree.py:ConditionNode"]}
{"id": "C24", "title": "Configuration behaves as a mapping", "statement": "Iterating a configuration yields exactly the keys for which indexing succeeds, each once, in layout order; `in` agrees with indexing; len() is the number of iterated keys.", "quantifier": "every configuration of every space", "why_tests_cant": "all spaces and vectors", "anchors": ["src/ConfigSpace/configuration.py:Configuration.__iter__", "src/ConfigSpace/configuration.py:Configuration.__len__", "src/ConfigSpace/configuration.py:Configuration.__contains__"]}
{"id": "C25", "title": "Samples never violate a forbidden clause", "statement": "No configuration returned by sample_configuration is forbidden by any clause of the space.", "quantifier": "every reachable space, every size and every outcome of the random generator", "why_tests_cant": "all random streams and spaces", "anchors": ["src/ConfigSpace/configuration_space.py:ConfigurationSpace.sample_configuration"]}
{"id": "C26", "title": "Samples are valid", "statement": "Every configuration returned by sample_configuration passes check_configuration: conditional hyperparameters have a value exactly when their condition holds.", "quantifier": "every reachable space, every size, every outcome of the random generator", "why_tests_cant": "all random streams and spaces", "anchors": ["src/ConfigSpace/configuration_space.py:ConfigurationSpace.sample_configuration", "src/ConfigSpace/_condition_tree.py:DAG._minimum_conditions"]}
{"id": "C27", "title": "Sampling returns the requested number", "statement": "If sample_configuration(n) returns for n >= 2 it returns a list of n configurations; for n None or 1 a single one; for n < 1 an empty list.", "quantifier": "every space, size and random outcome", "why_tests_cant": "rejection loop with data dependent batch sizes", "anchors": ["src/ConfigSpace/configuration_space.py:ConfigurationSpace.sample_configuration"]}
{"id": "C28", "title": "estimate_size bounds the number of valid configurations", "statement": "If all hyperparameters are finite, the number of distinct vectors accepted by validation whose entries are representations of legal values is at most estimate_size(), with equality when there are no conditions and no forbidden clauses (and at least one hyperparameter).", "quantifier": "every space with finite hyperparameters", "why_tests_cant": "counting over an unbounded product", "anchors": ["src/ConfigSpace/configuration_space.py:ConfigurationSpace.estimate_size"]}
{"id": "C29", "title": "Discrete values round-trip through the vector representation", "statement": "For categorical, ordinal, constant and integer (linear or log scale) hyperparameters, to_value(to_vector(v)) = v for every legal value v, and to_vector(v) is a legal vector.", "quantifier": "all legal values of all discrete hyperparameters", "why_tests_cant": "ranges are unbounded", "anchors": ["src/ConfigSpace/hyperparameters/hp_components.py:TransformerSeq", "src/ConfigSpace/hyperparameters/hp_components.py:UnitScaler", "src/ConfigSpace/hyperparameters/hp_components.py:TransformerConstant"]}
{"id": "C30", "title": "Legal vectors decode to legal values", "statement": "to_value of a legal vector entry is a legal value, and for discrete hyperparameters to_vector(to_value(x)) gives back x.", "quantifier": "all legal vector entries of all hyperparameters", "why_tests_cant": "ranges are unbounded", "anchors": ["src/ConfigSpace/hyperparameters/hp_components.py:UnitScaler.legal_vector_single", "src/ConfigSpace/hyperparameters/hp_components.py:TransformerSeq.legal_vector"]}
{"id": "C31", "title": "Scaling is monotone and inverse", "statement": "normalize and scale are inverse to each other and strictly monotone for every lower < upper, on linear and logarithmic scale; to_value of [0,1] stays within [lower, upper].", "quantifier": "all bounds and all values", "why_tests_cant": "continuum of bounds and values", "anchors": ["src/ConfigSpace/functional.py:scale", "src/ConfigSpace/functional.py:normalize", "src/ConfigSpace/hyperparameters/hp_components.py:UnitScaler"]}
{"id": "C32", "title": "Quantisation", "statement": "quantize maps every point of [lower, upper] to a grid point of the bins-grid within one step, is idempotent and monotone.", "quantifier": "all bounds, all bins >= 2 and all points", "why_tests_cant": "continuum of inputs", "anchors": ["src/ConfigSpace/functional.py:quantize"]}
{"id": "C33", "title": "Chunked ranges cover the range", "statement": "Concatenating the chunks of arange_chunked(start, stop, step, chunk) gives exactly the range, and no chunk is longer than the chunk size.", "quantifier": "all start, stop, step and chunk sizes", "why_tests_cant": "unbounded integers", "anchors": ["src/ConfigSpace/functional.py:arange_chunked"]}
{"id": "C34", "title": "split_arange and center_range enumerate exactly", "statement": "split_arange yields the given intervals in order; center_range(c, lo, hi) yields every integer of [lo, hi] except c exactly once in order of distance from c.", "quantifier": "all integers", "why_tests_cant": "unbounded integers", "anchors": ["src/ConfigSpace/functional.py:center_range", "src/ConfigSpace/functional.py:split_arange"]}
{"id": "C35", "title": "Neighbours of a discrete value", "statement": "Neighbours of a categorical value are other choices, pairwise distinct and at most all others; those of an ordinal value are exactly the adjacent positions; the current value is never proposed and every proposal is legal.", "quantifier": "all sizes, centres, requested numbers and random permutations", "why_tests_cant": "unbounded sizes and all random outcomes", "anchors": ["src/ConfigSpace/hyperparameters/categorical.py:NeighborhoodCat", "src/ConfigSpace/hyperparameters/hp_components.py:ordinal_neighborhood"]}
{"id": "C36", "title": "Neighbours of an integer value", "statement": "quantized_neighborhood never proposes the current value, proposes only grid points of [0,1], all distinct, and when n >= bins-1 proposes every other grid point exactly once.", "quantifier": "all bins, centres, n and random outcomes", "why_tests_cant": "rejection sampling; unbounded sizes", "anchors": ["src/ConfigSpace/hyperparameters/distributions.py:quantized_neighborhood"]}
{"id": "C37", "title": "get_num_neighbors is the number of neighbours", "statement": "For discrete hyperparameters the reported neighbourhood size is the number of distinct possible neighbours of the value.", "quantifier": "all discrete hyperparameters and values", "why_tests_cant": "unbounded sizes", "anchors": ["src/ConfigSpace/hyperparameters/ordinal.py:_ordinal_neighborhood_size", "src/ConfigSpace/hyperparameters/categorical.py:_categorical_neighborhood_size", "src/ConfigSpace/hyperparameters/hyperparameter.py:_integer_neighborhood_size"]}
{"id": "C38", "title": "One-exchange neighbours are valid and differ in the exchanged hyperparameter", "statement": "Every configuration generated by get_one_exchange_neighbourhood passes validation and differs from the original configuration.", "quantifier": "every space, valid configuration and random stream", "why_tests_cant": "all random streams and spaces", "anchors": ["src/ConfigSpace/util.py:get_one_exchange_neighbourhood"]}
{"id": "C39", "title": "The generated grid contains only valid configurations", "statement": "Every configuration returned by generate_grid passes validation and no configuration is returned twice; spaces without conditions and clauses give the full product.", "quantifier": "every space with finite value sets", "why_tests_cant": "unbounded worklist expansion", "anchors": ["src/ConfigSpace/util.py:generate_grid"]}
{"id": "C40", "title": "Deactivation yields a valid configuration", "statement": "deactivate_inactive_hyperparameters(values, space), and the same with a vector, either raises or returns a valid configuration whose values are a subset of the given ones; for complete legal values that are not forbidden it returns one. If a dictionary and a vector are given, the vector is ignored.", "quantifier": "every space, every dictionary and every vector", "why_tests_cant": "unbounded worklist", "anchors": ["src/ConfigSpace/util.py:deactivate_inactive_hyperparameters"]}
{"id": "C41", "title": "Imputation keeps active values", "statement": "impute_inactive_values keeps the value of each active hyperparameter and gives each inactive one its default (or the given number).", "quantifier": "every valid configuration", "why_tests_cant": "all spaces", "anchors": ["src/ConfigSpace/util.py:impute_inactive_values"]}
{"id": "C42", "title": "Serialisation round-trip", "statement": "Decoding the serialised form of a space gives back the same hyperparameters, conditions and forbidden clauses.", "quantifier": "every reachable space", "why_tests_cant": "unbounded nesting of conditions and clauses", "anchors": ["src/ConfigSpace/configuration_space.py:ConfigurationSpace.to_serialized_dict", "src/ConfigSpace/configuration_space.py:ConfigurationSpace.from_serialized_dict", "src/ConfigSpace/read_and_write/dictionary.py"]}
{"id": "C43", "title": "Substitution preserves meaning", "statement": "substitute_hyperparameters_in_conditions / _in_forbiddens onto a space with the same hyperparameters returns conditions and clauses that hold on the same vectors.", "quantifier": "all nested conditions and clauses", "why_tests_cant": "unbounded nesting", "anchors": ["src/ConfigSpace/configuration_space.py:ConfigurationSpace.substitute_hyperparameters_in_conditions", "src/ConfigSpace/configuration_space.py:ConfigurationSpace.substitute_hyperparameters_in_forbiddens"]}
{"id": "C44", "title": "Renaming in add_configuration_space is injective and the subspace is guarded by its parent", "statement": "Distinct names of the added space get distinct new names, and with a parent_hyperparameter every hyperparameter of the added space is active only if the parent has the given value.", "quantifier": "all spaces, prefixes, delimiters", "why_tests_cant": "all strings and spaces", "anchors": ["src/ConfigSpace/configuration_space.py:ConfigurationSpace.add_configuration_space"]}
{"id": "C45", "title": "Equal configurations have equal hashes", "statement": "Two configurations of one space that compare equal have the same hash, and configurations of one space with the same vector compare equal.", "quantifier": "all pairs of configurations", "why_tests_cant": "all pairs of values", "anchors": ["src/ConfigSpace/configuration.py:Configuration.__eq__", "src/ConfigSpace/configuration.py:Configuration.__hash__"]}
{"id": "C46", "title": "Expanding in-clauses when writing the legacy format preserves meaning", "statement": "The set of equality conjunctions written to the pcs format for a clause forbids exactly the same value assignments as the clause.", "quantifier": "all conjunctions of equality and in-clauses", "why_tests_cant": "unbounded products", "anchors": ["src/ConfigSpace/read_and_write/pcs_new.py:write", "src/ConfigSpace/read_and_write/pcs.py:write"]}
{"id": "C47", "title": "Discrete densities sum to one", "statement": "The probabilities of a weighted categorical and of a uniform integer sum to 1 over the legal vectors, and illegal vectors have density 0.", "quantifier": "all sizes and weights", "why_tests_cant": "unbounded sizes", "anchors": ["src/ConfigSpace/hyperparameters/distributions.py:WeightedIntegerDiscreteDistribution", "src/ConfigSpace/hyperparameters/distributions.py:UniformIntegerNormalizedDistribution", "src/ConfigSpace/hyperparameters/categorical.py:CategoricalHyperparameter"]}
{"id": "C48", "title": "Constructors accept exactly sane hyperparameters", "statement": "Each hyperparameter constructor either raises or builds a hyperparameter whose default is legal and whose default vector decodes to the default.", "quantifier": "all constructor arguments", "why_tests_cant": "unbounded arguments", "anchors": ["src/ConfigSpace/hyperparameters/hyperparameter.py:Hyperparameter.__init__", "src/ConfigSpace/hyperparameters/uniform_integer.py", "src/ConfigSpace/hyperparameters/ordinal.py", "src/ConfigSpace/hyperparameters/categorical.py"]}
{"id": "C49", "title": "Sampled integer and categorical vectors are legal", "statement": "Every vector entry produced by the discrete vector distributions is legal for the hyperparameter.", "quantifier": "all random outcomes and sizes", "why_tests_cant": "all random outcomes", "anchors": ["src/ConfigSpace/hyperparameters/distributions.py:UniformIntegerNormalizedDistribution.sample_vector", "src/ConfigSpace/hyperparameters/distributions.py:WeightedIntegerDiscreteDistribution.sample_vector"]}
{"id": "C50", "title": "Adding never changes the meaning of what is already there", "statement": "After a successful add, every previously added condition and forbidden clause evaluated on the new layout gives the same result on a configuration as it gave, on the old layout, on the configuration restricted to the old hyperparameters.", "quantifier": "all reachable spaces, all later adds and all vectors", "why_tests_cant": "indices of all clauses move with every add", "anchors": ["src/ConfigSpace/_condition_tree.py:DAG.update", "src/ConfigSpace/conditions.py:Condition.set_vector_idx", "src/ConfigSpace/forbidden.py:ForbiddenClause.set_vector_idx"]}
{"id": "C51", "title": "Checking vectors one by one or as an array gives the same answer", "statement": "For every hyperparameter, legal_vector on an array gives at each position what legal_vector gives on that entry alone.", "quantifier": "all hyperparameters and all vector entries", "why_tests_cant": "all real entries", "anchors": ["src/ConfigSpace/hyperparameters/hyperparameter.py:Hyperparameter.legal_vector", "src/ConfigSpace/hyperparameters/hp_components.py:UnitScaler"]}
{"id": "C52", "title": "Which values are legal", "statement": "legal_value accepts exactly: the integers of the closed range (and floats close to one), the floats of the closed range, the listed choices, the constant.", "quantifier": "all hyperparameters and all values", "why_tests_cant": "unbounded ranges and values", "anchors": ["src/ConfigSpace/hyperparameters/hyperparameter.py:Hyperparameter.legal_value", "src/ConfigSpace/hyperparameters/hp_components.py:UnitScaler.legal_value"]}
{"id": "C53", "title": "Neighbours of a float value", "statement": "The neighbourhood of a float hyperparameter contains exactly the requested number of entries, all inside the vector bounds.", "quantifier": "all centres, standard deviations, counts and random outcomes", "why_tests_cant": "all random outcomes", "anchors": ["src/ConfigSpace/hyperparameters/distributions.py:continuous_neighborhood", "src/ConfigSpace/hyperparameters/distributions.py:UnitUniformContinuousDistribution.neighborhood"]}
{"id": "C54", "title": "Converting between integer and float ranges", "statement": "UniformIntegerHyperparameter.to_float keeps bounds and default, and to_integer of the result gives the original; to_integer of a float range succeeds whenever the range holds two integers.", "quantifier": "all ranges and defaults", "why_tests_cant": "unbounded ranges", "anchors": ["src/ConfigSpace/hyperparameters/uniform_integer.py:UniformIntegerHyperparameter.to_float", "src/ConfigSpace/hyperparameters/uniform_float.py:UniformFloatHyperparameter.to_integer"]}
{"id": "C55", "title": "Every valid configuration can be sampled", "statement": "For every valid configuration there is an outcome of the random generators with legal values for which sample_configuration() returns it.", "quantifier": "every reachable space and every valid configuration", "why_tests_cant": "the set of valid configurations is unbounded and each has probability near zero in a test", "anchors": ["src/ConfigSpace/configuration_space.py:ConfigurationSpace.sample_configuration"]}
{"id": "C56", "title": "One-exchange neighbourhoods are finite and bounded per hyperparameter", "statement": "get_one_exchange_neighbourhood generates nothing for inactive or single-valued hyperparameters, at most k-1 neighbours for a categorical with k choices, at most two for an ordinal, at most num_neighbors for a number; it ends once every hyperparameter has been selected often enough, and raises nothing as long as the neighbourhoods of single hyperparameters are not empty.", "quantifier": "every configuration, num_neighbors, stream of choices and of proposals", "why_tests_cant": "all random streams", "anchors": ["src/ConfigSpace/util.py:get_one_exchange_neighbourhood"]}
{"id": "C57", "title": "One-exchange neighbourhoods are complete for categorical and ordinal hyperparameters", "statement": "When the generator is exhausted, every proposed other value of an active categorical or ordinal hyperparameter has been used for exactly one neighbour, unless a forbidden clause about the hyperparameter excludes it.", "quantifier": "every configuration and every random stream", "why_tests_cant": "all random streams and interleavings of the selections", "anchors": ["src/ConfigSpace/util.py:get_one_exchange_neighbourhood"]}
{"id": "C58", "title": "add accepts exactly the calls that fit", "statement": "After any history, add raises one of the errors for unusable arguments (taken or repeated name, unknown child, parent or clause hyperparameter, second unequal condition for a child, cycle) exactly if the arguments do not fit what has been added so far; a fitting call is decided by the default configuration of the resulting space alone; a space without conditions and clauses accepts every list of valid hyperparameters with new names.", "quantifier": "every history of successful calls and every argument list of add", "why_tests_cant": "the space of histories and argument lists is infinite; tests check a handful of rejected calls, not that nothing else is rejected or accepted", "anchors": ["src/ConfigSpace/configuration_space.py:ConfigurationSpace.add", "src/ConfigSpace/_condition_tree.py:DAG"]}
{"id": "C59", "title": "Removing priors keeps the set of valid configurations", "statement": "remove_hyperparameter_priors succeeds and returns a space with the same hyperparameter names, ranges, defaults, conditions and forbidden clauses, so that the same vectors and values are valid.", "quantifier": "every reachable space", "why_tests_cant": "unbounded nesting of conditions and clauses, all names", "anchors": ["src/ConfigSpace/configuration_space.py:ConfigurationSpace.remove_hyperparameter_priors", "src/ConfigSpace/hyperparameters/hyperparameter.py:to_uniform"]}
{"id": "C60", "title": "Older serialised files are still read", "statement": "Decoding accepts the key `default` in place of `default_value`, ignores the removed key `q`, and decodes the old form of a relation like the new one. What an older file says about probabilities of choices and step widths is kept.", "quantifier": "every serialised item", "why_tests_cant": "all field lists and values", "anchors": ["src/ConfigSpace/read_and_write/dictionary.py:_backwards_compat", "src/ConfigSpace/read_and_write/dictionary.py:_decode_forbidden_relation"]}
{"id": "C61", "title": "Decoding leaves its argument alone", "statement": "from_serialized_dict can be called twice on the same dictionary, with the same result.", "quantifier": "every dictionary that can be decoded", "why_tests_cant": "all dictionaries", "anchors": ["src/ConfigSpace/configuration_space.py:ConfigurationSpace.from_serialized_dict"]}
{"id": "C62", "title": "Adding a space gives the disjoint union", "statement": "If add_configuration_space without a parent succeeds, a configuration of the result is valid exactly if its old part is valid in the old space and its part under the new names is valid in the added space; and if no new name is taken, names, conditions and clauses of the added space are all accepted.", "quantifier": "all reachable pairs of spaces, prefixes, delimiters, configurations", "why_tests_cant": "all pairs of spaces and all configurations", "anchors": ["src/ConfigSpace/configuration_space.py:ConfigurationSpace.add_configuration_space"]}
{"id": "C63", "title": "Adding a space does not change the added space", "statement": "add_configuration_space passes the renamed contents of the added space to add, and leaves the added space and everything added earlier as they were, so that a space can be added several times under different prefixes.", "quantifier": "all object graphs of spaces, prefixes, delimiters", "why_tests_cant": "object identity and aliasing: all sharing patterns between clauses, conditions and hyperparameters", "anchors": ["src/ConfigSpace/configuration_space.py:ConfigurationSpace.add_configuration_space", "src/ConfigSpace/forbidden.py:ForbiddenEqualsClause.__copy__", "src/ConfigSpace/forbidden.py:ForbiddenInClause.__copy__"]}
{"id": "C64", "title": "A random neighbour changes one parameter", "statement": "get_random_neighbor returns a valid configuration with the same active hyperparameters that differs from the given one in exactly one of them, or raises (after 10000 rejections at the latest).", "quantifier": "all spaces, configurations, behaviours of the random generator", "why_tests_cant": "all histories of the random generator; termination cannot be tested", "anchors": ["src/ConfigSpace/util.py:get_random_neighbor"]}
{"id": "C65", "title": "Types are restored from text", "statement": "fix_types turns a dictionary whose values were written as text back into the original one, leaves everything else alone, and raises exactly when a value cannot be attributed to a choice or number.", "quantifier": "all spaces, dictionaries, sets of values replaced by text", "why_tests_cant": "all combinations of choices, values and texts", "anchors": ["src/ConfigSpace/util.py:fix_types"]}
{"id": "C66", "title": "A mapping describes a space", "statement": "ConfigurationSpace(mapping) contains exactly the hyperparameters that the items of the mapping stand for (a hyperparameter, a pair of integers, a pair of floats, a list of choices, any other value as a constant), without conditions or clauses, and a mapping whose items make sense is accepted with its keys as names.", "quantifier": "every mapping with any number of items", "why_tests_cant": "the contents of the mapping are unbounded and the constructors round", "anchors": ["src/ConfigSpace/configuration_space.py:_parse_hyperparameters_from_dict", "src/ConfigSpace/configuration_space.py:ConfigurationSpace.__init__"]}
{"id": "C67", "title": "The new pcs format keeps the meaning of a space", "statement": "Writing a space with the new pcs writer and reading the text with the reader gives a space with the same hyperparameters in the same order, the same conditions, clauses that forbid the same, the same answers to every check and the same default configuration.", "quantifier": "all spaces reachable by any calls of add whose names and values are words of the format, all texts of numbers that Python can read back", "why_tests_cant": "a test writes a few spaces; the text is parsed by a grammar, and whether names, numbers, conditions and clauses are found again depends on every character of every name and value", "anchors": ["src/ConfigSpace/read_and_write/pcs_new.py:write", "src/ConfigSpace/read_and_write/pcs_new.py:read", "src/ConfigSpace/read_and_write/pcs_new.py:condition_specification"]}
{"id": "C68", "title": "Whatever is read is a proper space", "statement": "If reading a new-style pcs file or decoding a dictionary returns a space at all, the space is one that calls of add could have built: its names are distinct, its conditions have no cycle and are about its own hyperparameters, each hyperparameter comes after its parents, and the default configuration exists and passes the check.", "quantifier": "all lists of lines, all dictionaries, well-formed or not", "why_tests_cant": "files and dictionaries come from users and other programs; there is no end to the malformed or unusual ones", "anchors": ["src/ConfigSpace/read_and_write/pcs_new.py:read", "src/ConfigSpace/configuration_space.py:ConfigurationSpace.from_serialized_dict", "src/ConfigSpace/read_and_write/dictionary.py"]}
{"id": "C69", "title": "Two spaces compare equal exactly when they have the same content; equal spaces behave alike", "statement": "space1 == space2 is an equivalence, holds exactly when hyperparameters, conditions and forbidden clauses agree (however many calls of add built them), in particular for a space and a copy rebuilt from its parts, and equal spaces accept and reject the same vectors with the same errors.  (The code meets this only in part: a categorical's order of choices is not compared, an in clause with a repeated value breaks symmetry, and the internal per-hyperparameter list of clauses makes the answer depend on the calls.)", "quantifier": "all pairs and triples of spaces reachable by calls of add, all vectors", "why_tests_cant": "quantifies over all histories of calls, spaces of any size and all vectors", "anchors": ["src/ConfigSpace/configuration_space.py:ConfigurationSpace.__eq__", "src/ConfigSpace/_condition_tree.py:HPNode", "src/ConfigSpace/_condition_tree.py:DAG._sort_forbiddens", "src/ConfigSpace/forbidden.py:ForbiddenInClause.__eq__"]}
{"id": "C70", "title": "Every sampled configuration has its own draw", "statement": "The configurations sample_configuration returns come from different draws of the random generator, in the order they were drawn; each is its draw with some conditional hyperparameters left out, so no draw is used twice; a draw is passed over only if a forbidden clause forbids it, as drawn or with some conditional hyperparameters left out.", "quantifier": "every space, size and random outcome", "why_tests_cant": "rejection sampling in batches over an unbounded stream of draws; reuse of a draw looks like a plausible sample", "anchors": ["src/ConfigSpace/configuration_space.py:ConfigurationSpace.sample_configuration"]}
{"id": "C71", "title": "Parents and children are those of the conditions", "statement": "children_of[n] lists exactly the added hyperparameters with a condition that mentions n, each once; parents_of[n] exactly those that the condition on n mentions; the two are inverse; parent_conditions_of[n] is the one condition on n, if any; child_conditions_of[n] has the condition of each child, in the order of children_of; unknown names raise KeyError.", "quantifier": "every history of successful calls and every name", "why_tests_cant": "dictionaries maintained incrementally while depths change", "anchors": ["src/ConfigSpace/configuration_space.py:ConfigurationSpace.children_of", "src/ConfigSpace/configuration_space.py:ConfigurationSpace.parents_of", "src/ConfigSpace/configuration_space.py:ConfigurationSpace.child_conditions_of", "src/ConfigSpace/configuration_space.py:ConfigurationSpace.parent_conditions_of", "src/ConfigSpace/_condition_tree.py:DAG.update"]}
{"id": "C72", "title": "Spaces do not disturb each other", "statement": "Whatever is added to any number of spaces in any order, what a space consists of depends only on the calls made on it, and its condition and clause objects, evaluated on a vector of the space, tell whether the condition holds (the clause forbids) for the values in the vector.", "quantifier": "every interleaving of successful calls on any number of spaces, every space, every condition or clause object of it and every vector", "why_tests_cant": "the positions are kept in the objects and are reassigned at every commit; a test adds to one space", "anchors": ["src/ConfigSpace/configuration_space.py:ConfigurationSpace.add", "src/ConfigSpace/conditions.py:Condition.set_vector_idx", "src/ConfigSpace/forbidden.py:ForbiddenClause.set_vector_idx", "src/ConfigSpace/_condition_tree.py:DAG.update"]}
{"id": "C73", "title": "The old pcs format keeps the meaning of a space", "statement": "Writing a space with the old pcs writer and reading the text with its reader gives a space with the same hyperparameters in the same order, the same conditions, clauses that forbid the same, the same answers to every check and the same default configuration.", "quantifier": "all spaces reachable by any calls of add that can be written in this format, all texts of numbers that Python can read back", "why_tests_cant": "a test writes a few spaces; whether names, numbers, conditions and clauses are found again depends on every character of every name and value, and on how the lines of one child are put together", "anchors": ["src/ConfigSpace/read_and_write/pcs.py:write", "src/ConfigSpace/read_and_write/pcs.py:read", "src/ConfigSpace/read_and_write/pcs.py:build_condition"]}
{"id": "C74", "title": "An exception says what is wrong", "statement": "If validating a configuration raises, the exception names the actual problem: a hyperparameter reported as active but not set is active and has no value, one reported with an illegal value is active and its value is illegal, one reported as inactive with a value is inactive and has a value, and a forbidden-clause error means that some clause of the space forbids the configuration. The same holds when a configuration is built from a dictionary (plus: a key that is no hyperparameter, a value that is illegal) and when one value is assigned. ConfigurationSpace.add raises only ValueErrors (including the exceptions of the package); no KeyError, IndexError or TypeError of the bookkeeping escapes.", "quantifier": "all histories of add, all vectors, dictionaries, assignments and further calls", "why_tests_cant": "which exception is raised depends on the order of checks over grouped conditions; tests look at single examples of each exception", "anchors": ["src/ConfigSpace/util.py:check_configuration", "src/ConfigSpace/configuration.py:Configuration.__init__", "src/ConfigSpace/configuration.py:Configuration.__setitem__", "src/ConfigSpace/configuration_space.py:ConfigurationSpace.add", "src/ConfigSpace/exceptions.py"]}
{"id": "C75", "title": "Bounds, order and round trips survive double precision", "statement": "With every operation rounded to double precision: the vector of a value within the bounds of a range is within [0, 1], the bounds have the vectors 0 and 1, a larger value never has a smaller vector, and every vector of the unit interval decodes to a value within the bounds. An integer (linear scale, bounds below 2**49; logarithmic scale, bounds up to 2**39) is exactly what one gets back from its vector, different integers have different vectors in the same order, and these vectors are legal. A float with 13 decimal places is exactly what one gets back from its vector.", "quantifier": "all bounds and all values and vectors of a range, all results of rounding; any log and exp functions accurate to four units in the last place", "why_tests_cant": "Rounding errors depend on every bit of bounds and value; a test sees a few of the 2**64 doubles.", "anchors": ["src/ConfigSpace/hyperparameters/hp_components.py:UnitScaler", "src/ConfigSpace/functional.py:scale", "src/ConfigSpace/functional.py:normalize", "src/ConfigSpace/functional.py:quantize", "src/ConfigSpace/functional.py:is_close_to_integer", "src/ConfigSpace/hyperparameters/distributions.py:UniformIntegerNormalizedDistribution"]}
{"id": "C76", "title": "In double precision a space behaves as in exact arithmetic, for numbers as people write them", "statement": "Bounds, values, defaults, values of conditions and of forbidden clauses are decimals of at most 13 places up to 32 in absolute value (floats) or integers below 2**49. Then validating a configuration, listing the active hyperparameters, building a configuration from values, and any sequence of reading and assigning its items give in double precision, with every vector rounded, exactly the results and exceptions that exact arithmetic gives; a configuration is accepted if and only if it is valid, and a value that was assigned reads back as the double of that number.", "quantifier": "all histories of successful additions, all values, all sequences of readings and assignments", "why_tests_cant": "rounding errors depend on the numbers: a condition or clause that holds exactly may fail after two roundings for some value in some range, and only some of the 10**13 values show it", "anchors": ["src/ConfigSpace/configuration_space.py:ConfigurationSpace.check_configuration", "src/ConfigSpace/util.py:check_configuration", "src/ConfigSpace/configuration.py:Configuration.__setitem__", "src/ConfigSpace/configuration.py:Configuration.__getitem__", "src/ConfigSpace/forbidden.py:ForbiddenEqualsRelation", "src/ConfigSpace/hyperparameters/hp_components.py:UnitScaler"]}
{"id": "C77", "title": "Integer, Float and Categorical build exactly what was asked for", "statement": "Integer(...), Float(...) and Categorical(...) succeed exactly on sane settings: bounds in order after rounding (positive ones on a logarithmic scale), parameters of a beta distribution of at least one, a positive mean on a logarithmic scale, a given default within the bounds (an integer for integers); different items with a default among them, and weights, only without an order, as many as items, none negative and one positive. What they build has the given name, the rounded bounds, the scale, the distribution and the given default; without a default it has the middle of the range on its scale, the legal value closest to the mean, or the mode of the beta distribution. to_uniform always succeeds and changes only the distribution; to_float always succeeds and keeps name, bounds, scale and default; to_integer succeeds exactly if there are two integers within the bounds and the nearest integer of the default lies between them (and a mean on a logarithmic scale is positive), and it undoes to_float. Integer and Float raise only ValueError, or TypeError when bounds are missing or the default is no integer.", "quantifier": "all names, rational bounds, distributions, defaults, scales, items and weights", "why_tests_cant": "the settings are combined freely and rounding interacts with bounds, defaults and parameters: a default just outside of rounded bounds or a mode on a bound is hit by chance only", "anchors": ["src/ConfigSpace/api/types/integer.py:Integer", "src/ConfigSpace/api/types/float.py:Float", "src/ConfigSpace/api/types/categorical.py:Categorical", "src/ConfigSpace/hyperparameters/normal_integer.py:NormalIntegerHyperparameter", "src/ConfigSpace/hyperparameters/normal_float.py:NormalFloatHyperparameter", "src/ConfigSpace/hyperparameters/beta_integer.py:BetaIntegerHyperparameter", "src/ConfigSpace/hyperparameters/beta_float.py:BetaFloatHyperparameter", "src/ConfigSpace/hyperparameters/uniform_integer.py:UniformIntegerHyperparameter", "src/ConfigSpace/hyperparameters/uniform_float.py:UniformFloatHyperparameter"]}
{"id": "C78", "title": "get_max_density is the largest density", "statement": "For every hyperparameter no entry of a vector has a larger density than get_max_density() reports, and some legal entry has this density. Entries that are not legal have the density zero.", "quantifier": "all hyperparameters of all kinds and distributions, all entries", "why_tests_cant": "the largest of infinitely many densities cannot be found by trying entries", "anchors": ["src/ConfigSpace/hyperparameters/hyperparameter.py:Hyperparameter.get_max_density", "src/ConfigSpace/hyperparameters/hyperparameter.py:Hyperparameter.pdf_vector", "src/ConfigSpace/hyperparameters/distributions.py:DiscretizedContinuousScipyDistribution.max_density", "src/ConfigSpace/hyperparameters/distributions.py:ScipyContinuousDistribution"]}
{"id": "C79", "title": "Densities of floats integrate to one", "statement": "pdf_vector of a float hyperparameter is a probability density on the unit interval: it integrates to one, so that densities of different hyperparameters are comparable.", "quantifier": "all bounds, scales and distributions", "why_tests_cant": "an integral is not the result of a finite number of calls", "anchors": ["src/ConfigSpace/hyperparameters/hyperparameter.py:Hyperparameter.pdf_vector", "src/ConfigSpace/hyperparameters/distributions.py:UnitUniformContinuousDistribution.pdf_vector", "src/ConfigSpace/hyperparameters/distributions.py:ScipyContinuousDistribution.pdf_vector"]}
{"id": "C80", "title": "The standard deviation of a normal distribution keeps its meaning", "statement": "A normal distribution is accepted only with a positive standard deviation (and, on a logarithmic scale, a positive mean). Measuring everything in another unit does not change the distribution of vectors, a positive standard deviation stays positive on the scale of vectors, and a larger one stays larger, on both scales.", "quantifier": "all bounds, means, standard deviations and units", "why_tests_cant": "continuous parameters: collapsing deviations need particular combinations of bound and deviation", "anchors": ["src/ConfigSpace/hyperparameters/normal_float.py:NormalFloatHyperparameter", "src/ConfigSpace/hyperparameters/normal_integer.py:NormalIntegerHyperparameter"]}
{"id": "C81", "title": "How the arguments of add are nested does not matter", "statement": "add takes hyperparameters, conditions and clauses, single or in iterables nested in any way, in any order of kinds: the result is that of adding all hyperparameters, then all conditions, then all clauses. An argument that contains anything else raises a TypeError before anything is added.", "quantifier": "all nested arguments, all spaces", "why_tests_cant": "nested structures of any depth", "anchors": ["src/ConfigSpace/configuration_space.py:ConfigurationSpace.add"]}
{"id": "C82", "title": "A space is a mapping from names to hyperparameters", "statement": "keys, len, space[name], name in space, items, values, at and index_of agree with each other: the keys are the names that were added, each once, space[name] is the hyperparameter that was added under this name and raises KeyError for other names, at lists the keys and index_of is its inverse.", "quantifier": "all histories of calls of add, all names", "why_tests_cant": "the views are kept in different attributes that are updated at different times", "anchors": ["src/ConfigSpace/configuration_space.py:ConfigurationSpace.__getitem__", "src/ConfigSpace/configuration_space.py:ConfigurationSpace.__iter__", "src/ConfigSpace/configuration_space.py:ConfigurationSpace.__len__", "src/ConfigSpace/configuration_space.py:ConfigurationSpace.items", "src/ConfigSpace/configuration_space.py:ConfigurationSpace.index_of", "src/ConfigSpace/configuration_space.py:ConfigurationSpace.at"]}
{"id": "C83", "title": "Distributions, scales and meta data survive serialisation", "statement": "Decoding the dictionary of a numerical hyperparameter gives an equal hyperparameter back: name, bounds, default, scale, distribution with its parameters, and meta data. Whatever is decoded could have been made by the constructors.", "quantifier": "all numerical hyperparameters of the six classes on both scales, all meta data", "why_tests_cant": "bounds, defaults and parameters are rounded and checked again while decoding", "anchors": ["src/ConfigSpace/read_and_write/dictionary.py:HYPERPARAMETER_ENCODERS", "src/ConfigSpace/read_and_write/dictionary.py:HYPERPARAMETER_DECODERS"]}
{"id": "C84", "title": "copy gives a hyperparameter with changed attributes", "statement": "hp.copy(**kwargs) returns a hyperparameter that differs from hp in the given attributes only.", "quantifier": "all hyperparameters, all attributes", "why_tests_cant": "every class and every set of keywords", "anchors": ["src/ConfigSpace/hyperparameters/hyperparameter.py:Hyperparameter.copy"]}
{"id": "C85", "title": "Asking for densities changes no answer", "statement": "The answers of get_max_density, pdf_vector and pdf_values of a hyperparameter do not depend on which of these calls have been made before, and asking for densities does not change which hyperparameters it is equal to.", "quantifier": "every range, every normal, beta or uniform distribution, every history of density queries, every list of entries", "why_tests_cant": "the constants of a distribution are computed at the first query and kept; tests ask each object once", "anchors": ["src/ConfigSpace/hyperparameters/distributions.py:DiscretizedContinuousScipyDistribution", "src/ConfigSpace/hyperparameters/hyperparameter.py:Hyperparameter.pdf_vector"]}
{"id": "C86", "title": "Lists and arrays of values are treated element by element", "statement": "legal_value and to_vector of a hyperparameter, called with a list or an array of values, return the answers for the values one by one, in order; a list is not accepted where a single value is expected.", "quantifier": "every hyperparameter, also with tuples, lists or dictionaries as choices, every list, tuple and array of objects", "why_tests_cant": "the dispatch depends on the types of all choices and of all elements together; numpy converts lists as a whole", "anchors": ["src/ConfigSpace/hyperparameters/categorical.py:CategoricalHyperparameter.to_vector", "src/ConfigSpace/hyperparameters/ordinal.py:OrdinalHyperparameter.legal_value", "src/ConfigSpace/hyperparameters/hp_components.py:TransformerSeq", "src/ConfigSpace/configuration.py:Configuration"]}
{"id": "C87", "title": "Configurations made before the space grew", "statement": "Adding hyperparameters, conditions or clauses to a space does not change the configurations made before: the values they were made from, and the values already read, are read from them as before, and so is every other value; they can be iterated over and compared.", "quantifier": "Every history of successful calls of add, every configuration made from values or a vector and assigned to any number of times, every further history of calls, every name.", "why_tests_cant": "The positions of hyperparameters depend on the whole graph of conditions, so which earlier configurations are affected depends on every later call.", "anchors": ["src/ConfigSpace/configuration.py:Configuration.__getitem__", "src/ConfigSpace/configuration.py:Configuration.__iter__", "src/ConfigSpace/configuration_space.py:ConfigurationSpace.add", "src/ConfigSpace/_condition_tree.py:DAG.update"]}
{"id": "C88", "title": "Configurations do not interfere through arrays", "statement": "What a configuration is depends only on how it was made and on the assignments to it: assigning to, reading from and making other configurations does not change it, nor does it change arrays of the caller; configurations made from a vector do not depend on what happens to the array afterwards, and assigned values are read back whatever the element type of the array was.", "quantifier": "Every program of any length that makes arrays and configurations of a space, writes to arrays, assigns to and reads from configurations, in any order and with any sharing.", "why_tests_cant": "Interference depends on which objects share an array, on the order of writes and reads, and on what has been read before: unboundedly many interleavings.", "anchors": ["src/ConfigSpace/configuration.py:Configuration.__init__", "src/ConfigSpace/configuration.py:Configuration.get_array", "src/ConfigSpace/configuration.py:Configuration.__setitem__", "src/ConfigSpace/configuration.py:Configuration.__getitem__", "src/ConfigSpace/util.py:change_hp_value"]}
{"id": "C89", "title": "Neighbours as values, and the buffers they are collected in", "statement": "`hp.neighbors_values(v, n)` of a legal value returns legal values only, whatever the random generator does. For categorical, ordinal, integer and constant hyperparameters they differ from each other and from `v`; a float hyperparameter returns exactly `n`. It does not raise for choices, constants, or an integer range of which all other values are asked for, and then a categorical or integer hyperparameter returns every other value. The loops that collect neighbours in a preallocated buffer never write past its end and never return a slot that was not written.", "quantifier": "every well-formed hyperparameter, legal value, number of neighbours, shuffle, pick and sequence of drawn batches", "why_tests_cant": "the number of batches, their contents and the order of the shuffle are up to the generator; a test sees a handful of seeds and never the batch that would overflow the buffer", "anchors": ["src/ConfigSpace/hyperparameters/hyperparameter.py:Hyperparameter.neighbors_values", "src/ConfigSpace/hyperparameters/distributions.py:quantized_neighborhood"]}
{"id": "C90", "title": "Forbidden relations never raise where values can be compared, and how they fail where they cannot", "statement": "If every `<`/`>` relation among the forbidden clauses of a space is between hyperparameters whose values Python can compare, then evaluating clauses on single vectors and on arrays, checking, building configurations from values, adding and sampling never raise because of a relation and give the answers of the specification; the only exception a relation can raise on decodable entries is TypeError; a relation between a numeric and a textual hyperparameter makes every call of sample_configuration raise TypeError, and no configuration that sets both is accepted.", "quantifier": "all histories of calls of add, all clauses (with conjunctions nested to any depth), all vectors and matrices whose entries decode, all dictionaries of values, all outcomes of the random generator, all sizes", "why_tests_cant": "Whether a relation is evaluated depends on which hyperparameters are active, on short-circuit evaluation and on the element types of numpy arrays; a unit test sees one combination.", "anchors": ["src/ConfigSpace/forbidden.py:ForbiddenLessThanRelation", "src/ConfigSpace/forbidden.py:ForbiddenAndConjunction.is_forbidden_vector_array", "src/ConfigSpace/util.py:check_configuration", "src/ConfigSpace/configuration_space.py:ConfigurationSpace.sample_configuration"]}
{"id": "C91", "title": "Weights of choices are probabilities", "statement": "For a categorical hyperparameter built with weights, the density of a choice is its weight divided by the sum of the weights (one divided by the number of choices without weights); the densities of all choices sum to one. A sample is always a choice with a positive weight, and the uniform numbers for which a choice is returned form an interval whose length is the density of the choice. Scaling all weights changes nothing, equal weights are the same as none, and two categorical hyperparameters compare equal exactly if they have the same name, equal defaults and give every value the same probability; equality is an equivalence, and equal ones answer every question about densities alike. Values that are not legal have the density zero.", "quantifier": "all names, lists of choices (numbers and texts), defaults and weights that the constructor accepts, all lists of values, all draws of the generator", "why_tests_cant": "there are infinitely many weights and draws; tests compare frequencies for a few of them", "anchors": ["src/ConfigSpace/hyperparameters/categorical.py:CategoricalHyperparameter.__init__", "src/ConfigSpace/hyperparameters/categorical.py:CategoricalHyperparameter.__eq__", "src/ConfigSpace/hyperparameters/categorical.py:CategoricalHyperparameter.pdf_values", "src/ConfigSpace/hyperparameters/categorical.py:CategoricalHyperparameter.to_uniform", "src/ConfigSpace/hyperparameters/distributions.py:WeightedIntegerDiscreteDistribution", "src/ConfigSpace/hyperparameters/distributions.py:UniformIntegerDistribution", "src/ConfigSpace/hyperparameters/hyperparameter.py:Hyperparameter.sample_value", "src/ConfigSpace/hyperparameters/hyperparameter.py:Hyperparameter.rvs"]}
{"id": "C92", "title": "Ordinal hyperparameters are ordered as written", "statement": "check_order of an ordinal hyperparameter says whether the first value is written before the second one in the sequence, and raises ValueError for other values; it is a strict total order on the values. LessThanCondition and GreaterThanCondition with this parent hold exactly as check_order says, on values and on vectors; get_order and get_value are inverse to each other; no value lies strictly between a value and one of its neighbours.", "quantifier": "all sequences of numbers and texts that the constructor accepts, all values, positions, child hyperparameters, vectors and draws", "why_tests_cant": "sequences, values and positions are unbounded", "anchors": ["src/ConfigSpace/hyperparameters/ordinal.py:OrdinalHyperparameter.check_order", "src/ConfigSpace/hyperparameters/ordinal.py:OrdinalHyperparameter.get_order", "src/ConfigSpace/hyperparameters/ordinal.py:OrdinalHyperparameter.get_value", "src/ConfigSpace/hyperparameters/ordinal.py:OrdinalHyperparameter.get_seq_order", "src/ConfigSpace/conditions.py:BinaryOpCondition", "src/ConfigSpace/hyperparameters/hp_components.py:ordinal_neighborhood"]}
{"id": "C93", "title": "The order of construction does not matter, and seeded sampling is reproducible", "statement": "Two configuration spaces made of the same hyperparameters, conditions and forbidden clauses, added in any order and in any grouping into calls of add, accept and reject the same vectors with the same exceptions, build the same configurations from values, have the same default configuration, change configurations alike and, with generators in the same state, sample the same configurations. So once a space is seeded, the answers to all later calls depend only on its parts, on the seed and on these calls, and not on what was sampled, seeded or checked before, nor on the order in which Python lists the elements of a set.", "quantifier": "all hyperparameters, conditions and clauses, all orders and groupings, all programs of add, seed, sample_configuration, check, construction, assignment and default configuration, all generators and seeds, all orders of sets", "why_tests_cant": "orders, programs and generators are unbounded; tests fix one order and compare a few samples", "anchors": ["src/ConfigSpace/configuration_space.py:ConfigurationSpace.sample_configuration", "src/ConfigSpace/configuration_space.py:ConfigurationSpace.seed", "src/ConfigSpace/configuration_space.py:ConfigurationSpace.add", "src/ConfigSpace/_condition_tree.py:DAG.update"]}
{"id": "C94", "title": "A logarithmic scale changes vectors, not what the space admits", "statement": "Give some floats and integers of a space a logarithmic scale and compare with the same space on linear scales, or with any other choice of scales. A vector that stands for certain numbers is accepted exactly if the numbers are a valid configuration, the two validators and the list of active hyperparameters answer the same on both scales, the default configuration has the same values, a session of creating a configuration from values, reading and assigning shows the same values and errors, every sampled configuration is valid, every valid configuration can be sampled, and drawing the same numbers on two scales gives the same configurations in the same order.", "quantifier": "every history of successful add calls, every assignment of logarithmic scales to ranges with positive bounds, every vector that stands for numbers, every dictionary and session with whole numbers for integers, and every outcome of the random generator", "why_tests_cant": "tests try a few log hyperparameters; that scales never leak into conditions, forbidden clauses, merging of clauses, relations or sampling is a statement about all spaces and all real numbers", "anchors": ["src/ConfigSpace/util.py:check_configuration", "src/ConfigSpace/configuration_space.py:ConfigurationSpace.sample_configuration", "src/ConfigSpace/hyperparameters/hp_components.py:UnitScaler", "src/ConfigSpace/configuration.py:Configuration"]}
{"id": "C95", "title": "The configurations of one call are independent and alike", "statement": "Suppose the random generator draws legal values, independently from draw to draw and always with the same distribution. Then the configurations that one call of sample_configuration returns are independent of each other, and each of them has the distribution of the configuration that a call for a single one returns. Batches, their widths and the rejection of forbidden draws introduce no dependence and no bias.", "quantifier": "every history of successful add calls, every probability space and every distribution of the draws on legal values, every number of configurations, all sets of configurations", "why_tests_cant": "frequencies in a test can only be compared up to noise, for a few spaces and a few configurations", "anchors": ["src/ConfigSpace/configuration_space.py:ConfigurationSpace.sample_configuration"]}
{"id": "C96", "title": "Sampling ends with probability one, or never", "statement": "Suppose the random generator draws legal values, independently from draw to draw and always with the same distribution. Then either every call of sample_configuration returns with probability one, or every call for at least one configuration runs for ever with probability one; which of the two happens depends on the space and the distribution, not on the number of configurations.", "quantifier": "every history of successful add calls, every probability space and every distribution of the draws on legal values, every number of configurations, all sets of configurations", "why_tests_cant": "a test cannot observe that a loop never ends, nor that it always ends", "anchors": ["src/ConfigSpace/configuration_space.py:ConfigurationSpace.sample_configuration"]}
{"id": "C97", "title": "Samples follow the distributions of the hyperparameters", "statement": "Under the same assumption each sampled configuration is distributed like a single draw on the condition that the draw shows a valid configuration. The probability of a valid configuration is the product of the probabilities of its active values, up to a common factor; with uniform values two valid configurations with the same active hyperparameters are equally likely, and one with fewer active hyperparameters is at least as likely. If a draw shows a valid configuration with probability Q then n configurations are found within n*m batches but for a probability of at most n*(1-Q)^m; sampling ends with probability one if Q is positive and never otherwise.", "quantifier": "every history of successful add calls, every probability space and every distribution of the draws on legal values, every number of configurations, all sets of configurations; all valid configurations", "why_tests_cant": "frequencies in a test can only be compared up to noise; rare configurations never occur in a test", "anchors": ["src/ConfigSpace/configuration_space.py:ConfigurationSpace.sample_configuration"]}
{"id": "C98", "title": "Local search can reach every configuration", "statement": "In a space without forbidden clauses every valid configuration can be reached from every other one by a sequence of one-exchange neighbours, for suitable outcomes of the random generator. If all hyperparameters are categorical, ordinal or constant, there is such a sequence in which each configuration is among the neighbours of the one before whatever the random generator does. From a valid configuration the generator of neighbours never raises, and it ends when every hyperparameter has been selected often enough.", "quantifier": "every history of successful add calls without forbidden clauses, all pairs of valid configurations, every number of neighbours; every outcome of the random generator in the second and third sentence", "why_tests_cant": "the paths are as long as the space is large; tests check single neighbourhoods of a few configurations", "anchors": ["src/ConfigSpace/util.py:get_one_exchange_neighbourhood", "src/ConfigSpace/util.py:change_hp_value"]}
{"id": "C99", "title": "Constants and densities of listed values", "statement": "legal_value, to_vector and pdf_values of a constant never raise and answer for each listed value whether it is the value of the constant (true or false, entry 1 or 0, density 1 or 0), also if that value is a tuple, a list or a dictionary. pdf_values of a categorical or ordinal hyperparameter returns, if every listed value is a choice, one density per value in order, and raises otherwise.", "quantifier": "every constant, every categorical and ordinal hyperparameter with objects as choices and any densities, every array, list and tuple of objects", "why_tests_cant": "whether a list is one value or many depends on the types of the values of the hyperparameter, and numpy converts lists as a whole", "anchors": ["src/ConfigSpace/hyperparameters/constant.py:Constant.legal_value", "src/ConfigSpace/hyperparameters/constant.py:Constant.to_vector", "src/ConfigSpace/hyperparameters/constant.py:Constant.pdf_values", "src/ConfigSpace/hyperparameters/ordinal.py:OrdinalHyperparameter.pdf_values", "src/ConfigSpace/hyperparameters/categorical.py:CategoricalHyperparameter.pdf_values", "src/ConfigSpace/hyperparameters/hp_components.py:TransformerConstant"]}
{"id": "C100", "title": "Random neighbours are found, and found fairly", "statement": "With random draws, get_random_neighbor does not run forever if some proposed change is accepted with positive probability. The probability of returning a configuration from a set is proportional to the sum over all active hyperparameters with two or more values of the probability that a proposal for it leads into that set. Giving up with a ValueError is rare.", "quantifier": "every space made by any history of add calls, every configuration of it, every distribution of the proposals, every set of results", "why_tests_cant": "probabilities over infinitely many random calls; the number of draws and of passes has no bound", "anchors": ["src/ConfigSpace/util.py:get_random_neighbor"]}
{"id": "C101", "title": "Spaces survive JSON and YAML files", "statement": "A space that is written with to_json (to_yaml) and read back with from_json (from_yaml) has the same hyperparameters, conditions and clauses as before, and its conditions are equal to the saved ones.", "quantifier": "every space made by any history of add calls, with in-conditions on lists or tuples, every nesting", "why_tests_cant": "unbounded nesting of conditions and clauses; the failing cases need one particular kind of collection somewhere in the space", "anchors": ["src/ConfigSpace/configuration_space.py:ConfigurationSpace.to_json", "src/ConfigSpace/configuration_space.py:ConfigurationSpace.from_json", "src/ConfigSpace/configuration_space.py:ConfigurationSpace.to_yaml", "src/ConfigSpace/configuration_space.py:ConfigurationSpace.from_yaml", "src/ConfigSpace/read_and_write/dictionary.py"]}
{"id": "C102", "title": "The order of keys in a serialised space does not matter", "statement": "Two dictionaries that are equal for Python, whatever the order of their keys, are decoded to the same space or raise the same exception.", "quantifier": "every pair of equal dictionaries, of any content and nesting, valid or not", "why_tests_cant": "all dictionaries and all permutations of keys at every level", "anchors": ["src/ConfigSpace/configuration_space.py:ConfigurationSpace.from_serialized_dict", "src/ConfigSpace/read_and_write/dictionary.py"]}
{"id": "C103", "title": "A configuration can be made again from its dictionary", "statement": "Configuration(space, values=dict(config)) succeeds and is the same configuration: same values, and the same vector up to the rounding of floats.", "quantifier": "every space made by any history of add calls, every configuration made from a dictionary or drawn by a sampler, in double precision", "why_tests_cant": "all doubles: the failing cases need a drawn float within 5e-14 of a value that a condition compares with", "anchors": ["src/ConfigSpace/configuration.py:Configuration.__init__", "src/ConfigSpace/configuration.py:Configuration.__getitem__", "src/ConfigSpace/configuration.py:Configuration.keys", "src/ConfigSpace/util.py:check_configuration"]}
{"id": "C104", "title": "A drawn integer on a logarithmic scale is the integer that conditions and clauses see", "statement": "Whatever is drawn for an integer hyperparameter with log=True, its entry is legal, is read as an integer within the bounds, and is the entry that to_vector gives for that integer; every integer within the bounds can be drawn.", "quantifier": "every pair of bounds up to 2**39, every drawn number, every logarithm and exponential function with relative error up to 2**-50, in double precision", "why_tests_cant": "all draws and all bounds; the failing integers are scattered, e.g. 24 of 1..44, and off by one unit in the last place", "anchors": ["src/ConfigSpace/functional.py:quantize_log", "src/ConfigSpace/functional.py:quantize", "src/ConfigSpace/hyperparameters/distributions.py:DiscretizedContinuousScipyDistribution.sample_vector", "src/ConfigSpace/hyperparameters/hp_components.py:UnitScaler.to_vector"]}
{"id": "C105", "title": "Checking, sampling and assignment are right whatever the arithmetic of the vectors", "statement": "What check_configuration accepts, what sample_configuration returns and what an assignment does depend on the conversions between values and vector entries only through the entries: a vector is accepted exactly if the unconditional hyperparameters are set, the conditional ones exactly when their condition, read on the entries, holds, with legal entries, and no clause, read on the entries, forbids it; samples are such vectors; an assignment changes only the named hyperparameter and hyperparameters below it. In particular this holds in double precision on linear and logarithmic scales, whatever np.log and np.exp return.", "quantifier": "every space, every vector, every outcome of the generator, every assigned value, and every implementation of to_vector, to_value, legal_vector, legal_value and the comparison of values", "why_tests_cant": "all spaces, vectors and random outcomes; rounding errors of the platform cannot be enumerated", "anchors": ["src/ConfigSpace/:ConfigurationSpace.check_configuration", "src/ConfigSpace/:ConfigurationSpace.sample_configuration", "src/ConfigSpace/configuration.py:Configuration.__setitem__", "src/ConfigSpace/util.py:change_hp_value", "src/ConfigSpace/_condition_tree.py:DAG"]}
{"id": "C106", "title": "The pcs formats keep the scale and refuse what they cannot express", "statement": "Writing numerical hyperparameters in the new or the old pcs format and reading the text gives hyperparameters with the same names, types, bounds, defaults, scales and distributions, or writing raises. A line whose scale is not understood is refused, and a logarithmic line with a lower bound that is not positive raises ValueError.", "quantifier": "all lists of uniform, normal and beta distributed integers and floats on both scales, and all lines with any text behind the default", "why_tests_cant": "there is no end to the names, bounds and texts; whether the marker of the scale is found depends on every character of the line", "anchors": ["src/ConfigSpace/read_and_write/pcs_new.py:build_continuous", "src/ConfigSpace/read_and_write/pcs_new.py:read", "src/ConfigSpace/read_and_write/pcs.py:build_continuous", "src/ConfigSpace/read_and_write/pcs.py:read", "src/ConfigSpace/hyperparameters/hyperparameter.py:to_uniform"]}
{"id": "C107", "title": "One-exchange neighbours in any arithmetic", "statement": "Every configuration yielded by the one-exchange generator results from setting one active hyperparameter to a proposed value, is valid and accepted by the validator, and differs from the original; the numbers of neighbours are bounded, the generator ends and does not raise. This holds for doubles on linear and logarithmic scales as for exact numbers.", "quantifier": "all spaces, all configurations, all arithmetics of the vectors, all proposals and all choices of the random generator", "why_tests_cant": "the outcome depends on unboundedly many random choices and on rounding in the vectors", "anchors": ["src/ConfigSpace/util.py:get_one_exchange_neighbourhood", "src/ConfigSpace/util.py:change_hp_value"]}
{"id": "C108", "title": "Neighbours of a single value, in doubles", "statement": "In double precision, the neighbours of a value are legal; categoricals give other choices, ordinals the adjacent positions, integers distinct integers within their bounds, all others if as many are asked for; the value itself is never a neighbour. This holds on linear and on logarithmic scales.", "quantifier": "all bounds, all values, all numbers of neighbours, all draws; all accurate implementations of logarithm and exponential", "why_tests_cant": "rounding depends on every bit of the bounds and draws; there are too many bounds to test", "anchors": ["src/ConfigSpace/hyperparameters/distributions.py:quantized_neighborhood", "src/ConfigSpace/hyperparameters/distributions.py:DiscretizedContinuousScipyDistribution.neighborhood", "src/ConfigSpace/hyperparameters/categorical.py:NeighborhoodCat", "src/ConfigSpace/hyperparameters/hp_components.py:ordinal_neighborhood"]}
{"id": "C109", "title": "The values of a grid, in doubles", "statement": "The values a grid is made of, for a numerical hyperparameter, are as many as asked for, legal, in ascending order from the lower to the upper bound and evenly spaced on the scale of the hyperparameter, also after the rounding of double precision; with as many steps as integers every integer is there once.", "quantifier": "all bounds, all numbers of steps, both scales; all accurate implementations of logarithm and exponential", "why_tests_cant": "rounding depends on every bit of the bounds and on the number of steps; there are too many bounds to test", "anchors": ["src/ConfigSpace/util.py:generate_grid"]}
{"id": "C110", "title": "Rounding decides nothing", "statement": "For numbers as one writes them, a configuration made of values and any sequence of assignments to it behave in double precision, on linear and logarithmic scales, as in exact arithmetic: the same values and assignments are rejected with the same exception, the same hyperparameters are active and set after each step, and what is accepted is a valid configuration.", "quantifier": "all spaces with modest ranges, all values, all sequences of assignments; all accurate implementations of logarithm and exponential; and, more generally, any two arithmetics that order the values of every hyperparameter alike", "why_tests_cant": "a rounding error that flips one comparison shows for single values only; there are too many values, spaces and sequences to test", "anchors": ["src/ConfigSpace/configuration.py:Configuration.__init__", "src/ConfigSpace/configuration.py:Configuration.__setitem__", "src/ConfigSpace/configuration.py:Configuration.check_valid_configuration", "src/ConfigSpace/hyperparameters/hyperparameter.py:Hyperparameter.to_vector", "src/ConfigSpace/hyperparameters/hyperparameter.py:Hyperparameter.legal_value"]}
{"id": "C111", "title": "Infinities and NaN stay out", "statement": "Constructors refuse bounds and default values that are not finite numbers; no infinity and no NaN is a legal value or entry; and no conversion of a legal value or entry overflows or gives NaN.", "quantifier": "all bounds, default values, values and entries, including infinities, NaN and numbers close to the largest double; both scales; all accurate implementations of logarithm and exponential", "why_tests_cant": "overflow and NaN arise for bounds that no test uses, and a comparison with NaN is silently false", "anchors": ["src/ConfigSpace/hyperparameters/uniform_float.py:UniformFloatHyperparameter.__init__", "src/ConfigSpace/hyperparameters/uniform_integer.py:UniformIntegerHyperparameter.__init__", "src/ConfigSpace/hyperparameters/hp_components.py:UnitScaler", "src/ConfigSpace/functional.py:normalize"]}
{"id": "C112", "title": "A space from a list of bounds", "statement": "generate_all_continuous_from_bounds adds one float hyperparameter per pair of bounds, named x0, x1, ..., with these bounds, and the i-th entry of a vector belongs to the i-th pair; a pair in the wrong order raises and leaves the space alone.", "quantifier": "all lists of pairs of bounds of any length, all spaces the method is called on", "why_tests_cant": "the order of the entries changes only from the eleventh pair on, and tests use a few pairs", "anchors": ["src/ConfigSpace/configuration_space.py:ConfigurationSpace.generate_all_continuous_from_bounds"]}
{"id": "C113", "title": "Encoders and decoders of the user", "statement": "A space written with encoders of the user and read with decoders that undo them is the space that the default encoders and decoders give; whatever the user does not override is written and read as by default; a class without encoder and a name without decoder raise.", "quantifier": "all spaces, conditions and clauses of any nesting, all encoders and decoders (functions with the recursive call as an argument), all dictionaries", "why_tests_cant": "the user's functions are arbitrary, and interplay with the defaults depends on names and nesting", "anchors": ["src/ConfigSpace/configuration_space.py:ConfigurationSpace.to_serialized_dict", "src/ConfigSpace/configuration_space.py:ConfigurationSpace.from_serialized_dict", "src/ConfigSpace/read_and_write/dictionary.py:HYPERPARAMETER_ENCODERS", "src/ConfigSpace/read_and_write/dictionary.py:CONDITION_DECODERS"]}
{"id": "C114", "title": "Equal hyperparameters and equal clauses are interchangeable", "statement": "== of hyperparameters and of forbidden clauses is an equivalence; equal hyperparameters admit the same values and encode them alike; equal clauses forbid the same assignments and the same vectors.", "quantifier": "all hyperparameters, all clauses of any nesting, all values, assignments and vectors", "why_tests_cant": "equality is compared by containment of lists of any length, nested to any depth", "anchors": ["src/ConfigSpace/forbidden.py:ForbiddenInClause.__eq__", "src/ConfigSpace/forbidden.py:ForbiddenConjunction.__eq__", "src/ConfigSpace/forbidden.py:ForbiddenRelation.__eq__", "src/ConfigSpace/forbidden.py:ForbiddenEqualsClause.__eq__", "src/ConfigSpace/hyperparameters/categorical.py:CategoricalHyperparameter.__eq__"]}
{"id": "C115", "title": "Choices come back as they were given", "statement": "Every choice of a categorical or ordinal hyperparameter is a legal value, has its position as vector entry, and is read back from this entry as an equal object of the same type; nothing else is legal; distinct choices are accepted, with each of them as default value.", "quantifier": "all lists of choices of any length with booleans, integers, floats, texts and None in any mixture, all values asked for", "why_tests_cant": "the types of all choices together decide about each of them, and integers may be arbitrarily close to one another", "anchors": ["src/ConfigSpace/hyperparameters/categorical.py:CategoricalHyperparameter.__init__", "src/ConfigSpace/hyperparameters/ordinal.py:OrdinalHyperparameter.__init__", "src/ConfigSpace/hyperparameters/hp_components.py:TransformerSeq"]}
{"id": "C116", "title": "Name and meta data of a space survive", "statement": "Adding to a space keeps its name and meta data; a space that is written to a dictionary and read again has the same name and meta data, and so has the space without priors; spaces that differ in name or meta data are not equal.", "quantifier": "all spaces, names, meta data and calls of add", "why_tests_cant": "the name and the meta data may be anything and the space behind them may have any history", "anchors": ["src/ConfigSpace/configuration_space.py:ConfigurationSpace.to_serialized_dict", "src/ConfigSpace/configuration_space.py:ConfigurationSpace.from_serialized_dict", "src/ConfigSpace/configuration_space.py:ConfigurationSpace.__eq__", "src/ConfigSpace/configuration_space.py:ConfigurationSpace.remove_hyperparameter_priors"]}
{"id": "C117", "title": "A neighbourhood that is read step by step is not disturbed", "statement": "get_one_exchange_neighbourhood is a generator. Whatever the program does between two calls of next (assigning to the configuration or to neighbours it was given, writing to other arrays, reading other neighbourhoods), the generator gives the neighbours of the configuration as it was at the call, in the same order, and all of them are valid; clauses that are added meanwhile are respected by the neighbours that follow; and reading it changes nothing else in the program.", "quantifier": "all spaces, configurations, random draws, and all programs that interleave calls of next on any number of generators with assignments, array writes, new configurations and calls of add", "why_tests_cant": "the interleavings of a paused generator with the rest of a program are unbounded; a test fixes one schedule", "anchors": ["src/ConfigSpace/util.py:get_one_exchange_neighbourhood", "src/ConfigSpace/configuration.py:Configuration.__setitem__", "src/ConfigSpace/configuration.py:Configuration.get_array", "src/ConfigSpace/configuration.py:Configuration.__init__"]}
{"id": "C118", "title": "Conditions made without the legality check mean what they say", "statement": "With check_condition_legality=False a condition may be about a value that its parent never takes. It then still means what its operator says: on a numeric parent it holds exactly if the two numbers compare that way, on vectors and on values alike (so equality never holds and inequality always does); for a value outside a list of choices it cannot be made; for a legal value the flag makes no difference; and the condition can be copied, written and read like any other.", "quantifier": "all parents, children, operators, values legal or not, all values of the parent", "why_tests_cant": "the values that a parent does not take are unbounded, and vector and value evaluation of the condition take different code paths", "anchors": ["src/ConfigSpace/conditions.py:BinaryOpCondition.__init__", "src/ConfigSpace/conditions.py:BinaryOpCondition.__copy__", "src/ConfigSpace/conditions.py:BinaryOpCondition.satisfied_by_value", "src/ConfigSpace/conditions.py:BinaryOpCondition.satisfied_by_vector", "src/ConfigSpace/functional.py:normalize", "src/ConfigSpace/hyperparameters/hp_components.py:UnitScaler.to_vector"]}
{"id": "C119", "title": "What is printed for a space shows its parts, whatever the order in which they were added", "statement": "The text printed for a space has one line for every hyperparameter in the order of their names, one for every condition in effect and one for every clause; two spaces made of the same hyperparameters, conditions and clauses print the same text whatever the order and grouping of the calls that added them; and spaces that print the same text have the same parts.", "quantifier": "all histories of successful calls of add, all names of spaces, all texts of values", "why_tests_cant": "the number of orders in which the same parts can be added is exponential, and each test has one space", "anchors": ["src/ConfigSpace/configuration_space.py:ConfigurationSpace.__repr__", "src/ConfigSpace/configuration_space.py:ConfigurationSpace.conditions", "src/ConfigSpace/_condition_tree.py:DAG.update", "src/ConfigSpace/hyperparameters/categorical.py:CategoricalHyperparameter.__str__", "src/ConfigSpace/hyperparameters/uniform_integer.py:UniformIntegerHyperparameter.__str__"]}
{"id": "C120", "title": "Densities of normal and beta distributed integers add up to one, however many values there are", "statement": "The densities of all values of a normal or beta distributed integer add up to one (up to a small error that vanishes with the number of values), whatever the number of values, and asking for a density does not raise an exception.", "quantifier": "all densities with one peak, in particular all normal and beta distributions; all numbers of values below and above the size of a chunk", "why_tests_cant": "the sum has as many terms as the range has values, and the code takes another path above ten million values, which tests avoid because they would be slow", "anchors": ["src/ConfigSpace/hyperparameters/distributions.py:DiscretizedContinuousScipyDistribution._meaningful_pdf_values", "src/ConfigSpace/hyperparameters/distributions.py:DiscretizedContinuousScipyDistribution.pdf_vector", "src/ConfigSpace/functional.py:linspace_chunked", "src/ConfigSpace/functional.py:arange_chunked", "src/ConfigSpace/functional.py:quantize"]}
{"id": "C121", "title": "Assignments do not depend on the array a configuration was made from", "statement": "For a configuration made with Configuration(space, vector=array) from an array of any type of numbers (floats, whole numbers), config[name] = value either raises and leaves the configuration as it was, or config[name] gives value afterwards; and it raises no more often than for an array of floats.", "quantifier": "all spaces, all types of array elements, all histories of reads and assignments, all values", "why_tests_cant": "quantifies over all spaces, histories and values; tests pass arrays that were taken from other configurations, which are arrays of floats", "anchors": ["src/ConfigSpace/configuration.py:Configuration.__init__", "src/ConfigSpace/configuration.py:Configuration.__setitem__", "src/ConfigSpace/configuration.py:Configuration.__getitem__", "src/ConfigSpace/util.py:change_hp_value"]}
{"id": "C122", "title": "A space on which calls of add failed is still a space", "statement": "If exceptions of add are caught and building goes on, then after the next call that returns the space is one that a single successful call builds from parts of the calls: of every call the longest part (hyperparameters, then conditions, then clauses) that fits what was there. Validation, construction and the default configuration are those of that space. A condition that was entered in part is completed by adding it again. A space that has rejected a cycle accepts nothing any more.", "quantifier": "all histories of calls of add, successful or not, all later vectors and values", "why_tests_cant": "quantifies over all histories with any number of failures at any place; tests make one failing call and then stop using the space", "anchors": ["src/ConfigSpace/configuration_space.py:ConfigurationSpace.add", "src/ConfigSpace/_condition_tree.py:DAG.update", "src/ConfigSpace/_condition_tree.py:DAG.add_condition", "src/ConfigSpace/configuration_space.py:ConfigurationSpace._check_default_configuration"]}
{"id": "C123", "title": "A file that was written in part is never loaded as another space", "statement": "If writing a JSON file is stopped anywhere, any number of times, then loading it raises JSONDecodeError or gives what the old file or one of the complete new files gives: never a space made of a part of a file. The same is expected of YAML files, and of open files into which a space is written over another one.", "quantifier": "all spaces, all points at which writing can stop, all histories of writes, all old contents of the file", "why_tests_cant": "quantifies over every cut of every file; a test can cut a few files at a few places, and the dangerous cut is the one that happens to be well-formed", "anchors": ["src/ConfigSpace/configuration_space.py:ConfigurationSpace.to_json", "src/ConfigSpace/configuration_space.py:ConfigurationSpace.from_json", "src/ConfigSpace/configuration_space.py:ConfigurationSpace.to_yaml"]}
{"id": "C124", "title": "The file of a space depends on what is in the space", "statement": "Loading the JSON file of a space and saving it again gives the same file, character by character, however often it is done. Two programs that define the same hyperparameters, conditions and clauses, in any order and in any number of calls, write the same file. So files can be compared, hashed and put under version control.", "quantifier": "all spaces, all orders and groupings of the calls that define them, any number of rounds of loading and saving", "why_tests_cant": "quantifies over every space and every order of definition; the order of the clauses in the file rests on a sort that must be total and stable, also for clauses that print alike", "anchors": ["src/ConfigSpace/configuration_space.py:ConfigurationSpace.to_json", "src/ConfigSpace/configuration_space.py:ConfigurationSpace.from_json", "src/ConfigSpace/_condition_tree.py:DAG.update"]}
{"id": "C125", "title": "Numbers of neighbours are right, with a value and without", "statement": "get_num_neighbors of a legal value does not fail, and it is positive exactly if the hyperparameter has another legal value. Called without a value it gives the number for the default value, as its documentation says, and has_neighbors() says whether there is another value than the default.", "quantifier": "all hyperparameters and all their legal values", "why_tests_cant": "quantifies over every hyperparameter, also those with a single value, and over legal values that are only close to an integer at the end of a range", "anchors": ["src/ConfigSpace/hyperparameters/hyperparameter.py:Hyperparameter.get_num_neighbors", "src/ConfigSpace/hyperparameters/hyperparameter.py:Hyperparameter.has_neighbors", "src/ConfigSpace/hyperparameters/categorical.py:CategoricalHyperparameter._categorical_neighborhood_size", "src/ConfigSpace/hyperparameters/ordinal.py:OrdinalHyperparameter._ordinal_neighborhood_size", "src/ConfigSpace/hyperparameters/hyperparameter.py:IntegerHyperparameter._integer_neighborhood_size"]}
{"id": "C126", "title": "A pcs file that was written in part is not loaded as another space", "statement": "If the program stops while a file in the pcs format is written, then what is on the disk, a beginning of the file, cannot be loaded, or it is loaded as the same space.", "quantifier": "all spaces that can be written and all places at which writing may stop", "why_tests_cant": "quantifies over every space and every crash point in its file", "anchors": ["src/ConfigSpace/read_and_write/pcs_new.py:read", "src/ConfigSpace/read_and_write/pcs_new.py:write"]}
{"id": "C127", "title": "A configuration in a set is found again", "statement": "A configuration that was put into a set, or used as a key of a dictionary, is found there again, as is every configuration that is equal to it; nothing else is found; what is removed is no longer found.", "quantifier": "all spaces, all configurations, all histories of insertions, removals, reads and assignments, and every hash function for texts", "why_tests_cant": "quantifies over every history and every hash function", "anchors": ["src/ConfigSpace/configuration.py:Configuration.__hash__", "src/ConfigSpace/configuration.py:Configuration.__eq__", "src/ConfigSpace/configuration.py:Configuration.__setitem__", "src/ConfigSpace/configuration.py:Configuration.__getitem__", "src/ConfigSpace/configuration.py:Configuration.__str__"]}
{"id": "C128", "title": "A loop over a configuration may assign to it", "statement": "A loop over a configuration whose body assigns to it ends; it visits no hyperparameter twice; when it ends without an exception it has visited exactly the hyperparameters that are active then, and each has the value the loop gave it. If an assignment fails, the configuration is as it was before this assignment.", "quantifier": "all spaces, all configurations, all bodies, whatever they assign and depending on whatever", "why_tests_cant": "quantifies over every space and every body of a loop", "anchors": ["src/ConfigSpace/configuration.py:Configuration.__iter__", "src/ConfigSpace/configuration.py:Configuration.__setitem__", "src/ConfigSpace/util.py:change_hp_value"]}
{"id": "C129", "title": "Assignments may be repeated, and independent ones may be made in any order", "statement": "Assigning to a configuration the value that is there already is accepted and changes nothing; an assignment that was accepted may be made again without effect; two assignments to hyperparameters of which neither depends on the other give the same configuration in either order.", "quantifier": "all spaces, all configurations, all pairs of hyperparameters and values, and all arithmetics of the vectors", "why_tests_cant": "quantifies over every space, every configuration and every pair of assignments", "anchors": ["src/ConfigSpace/configuration.py:Configuration.__setitem__", "src/ConfigSpace/util.py:change_hp_value", "src/ConfigSpace/util.py:check_configuration"]}
{"id": "C130", "title": "An assignment can be undone", "statement": "After an assignment to a configuration, assigning the old value gives back the configuration that was there before.", "quantifier": "all spaces, all configurations, all hyperparameters and values", "why_tests_cant": "quantifies over every space, every configuration and every assignment", "anchors": ["src/ConfigSpace/configuration.py:Configuration.__setitem__", "src/ConfigSpace/util.py:change_hp_value"]}
{"id": "C131", "title": "Threads may share a configuration", "statement": "Threads that read one configuration at the same time read what each of them would read alone; no thread waits for another one; and if threads assign as well, the configuration is at every moment one that assignments one after another could have made, no successful assignment is lost, and a read after all of them gives what was assigned last.", "quantifier": "all spaces, all configurations, any number of threads with any programs of reads and assignments, and every schedule", "why_tests_cant": "quantifies over every schedule of any number of threads; a test sees a few schedules, which it cannot choose", "anchors": ["src/ConfigSpace/configuration.py:Configuration.__getitem__", "src/ConfigSpace/configuration.py:Configuration.__setitem__"]}
{"id": "C132", "title": "Interrupted operations leave a configuration whole", "statement": "If reading from a configuration or assigning to it is interrupted at any point (KeyboardInterrupt, an exception of a signal handler), the configuration afterwards reads in every respect as it did before, or in every respect as it does after the operation.", "quantifier": "all spaces, all configurations, all operations and every point at which they can be interrupted; for reads any number of threads and every schedule", "why_tests_cant": "quantifies over every point of interruption; a test cannot place an interruption between two given instructions", "anchors": ["src/ConfigSpace/configuration.py:Configuration.__getitem__", "src/ConfigSpace/configuration.py:Configuration.__setitem__"]}
{"id": "C133", "title": "An interrupted call of add can be made good", "statement": "If a call of add is interrupted (KeyboardInterrupt, an exception of a signal handler), the space accepts what it accepted before, and making the call again, or calling add with the items that were not entered yet, gives the space that the uninterrupted call gives.", "quantifier": "all spaces, all calls of add that would succeed, and every point at which they can be interrupted", "why_tests_cant": "quantifies over every space, every call and every point of interruption", "anchors": ["src/ConfigSpace/configuration_space.py:ConfigurationSpace.add", "src/ConfigSpace/_condition_tree.py:DAG.update", "src/ConfigSpace/_condition_tree.py:DAG.add"]}
{"id": "C134", "title": "Copies of a configuration are independent", "statement": "A configuration may be copied with copy.copy, and copies may be copied again. In every program that reads from the copies and assigns to them by name, each read and each assignment has the outcome it has when every copy is a value of its own that only assignments to itself change.", "quantifier": "all spaces, all configurations, and every sequence of copying, reading and assigning, of any length", "why_tests_cant": "quantifies over every history of copies, reads and assignments; the copies share an array and a dictionary of cached values", "anchors": ["src/ConfigSpace/configuration.py:Configuration.__getitem__", "src/ConfigSpace/configuration.py:Configuration.__setitem__"]}
{"id": "C135", "title": "Threads that add to one space", "statement": "Several threads may call add on one space. Under every schedule, each call either raises RuntimeError for a pending update and has no effect, or has its full effect: when no call is under way, the space is what the other calls make of it one after the other, in some order, each with the outcome its thread saw.", "quantifier": "all spaces, all numbers of threads, all lists of calls for each thread, and every schedule", "why_tests_cant": "quantifies over every interleaving of the threads; a test runs a few schedules, and the windows are short", "anchors": ["src/ConfigSpace/configuration_space.py:ConfigurationSpace.add", "src/ConfigSpace/_condition_tree.py:DAG.update"]}
{"id": "C136", "title": "Adding a guarded space is all or nothing", "statement": "add_configuration_space with a parent hyperparameter either returns, and then the added space is active only if the parent has the value; or it raises, or is interrupted, and leaves the space without the added space, so that it can be called again.", "quantifier": "all spaces, all added spaces, all prefixes, parents and values, and an interruption between the steps of the call", "why_tests_cant": "quantifies over all pairs of spaces and over the point at which the call ends; what is left after an exception is rarely looked at", "anchors": ["src/ConfigSpace/configuration_space.py:ConfigurationSpace.add_configuration_space"]}
